import Verif.F.FactoryLeaf
import Verif.F.FactoryDemo

/-
C02-C08, C16 (CNF part), C18, C27: the formula factory.

`Run s pool` says that state `s` and the handles `pool` can be reached by factory calls.
`Den s h f` says that unpacking handle `h` down to the leaves gives the tree `f`.

The theorems with hypothesis `Small s` hold while no table has more than 2^26 entries; they
carry the suffix `_partial`, since beyond that the claims are false
(`C04_large_counterexample`, `C05_large_counterexample`).
-/
namespace Verif
open Formula (mkNot mkNary mkNeg mkImpl mkEquiv)

/-- Handle `h` evaluates to `b` under `σ` (specification). -/
def Val (s : FF) (σ : Asg) (h : H) (b : Bool) : Prop := ∃ f, Den s h f ∧ f.eval σ = b

theorem val_fun {s : FF} {σ h b c} (hb : Val s σ h b) (hc : Val s σ h c) : b = c := by
  obtain ⟨f, h1, rfl⟩ := hb
  obtain ⟨g, h2, rfl⟩ := hc
  rw [den_fun h1 h2]

/-- Every returned handle has a value under every assignment. -/
theorem Run.val {s : FF} {pool : List H} (h : Run s pool) (sm : Small s) {x : H} (hx : x ∈ pool) (σ : Asg) :
    ∃ b, Val s σ x b := by
  obtain ⟨f, v⟩ := (h.inv sm).2 x hx
  exact ⟨_, f, v.den, rfl⟩

/-! ### C02 -/

/-- Whatever is called later, a handle keeps its node (kind, operands, operand order), the
formula it denotes, and variables keep their names. -/
theorem C02_handle_stable {s s' : FF} (h : Later s s') :
    (∀ x n, s.unpack x = some n → s'.unpack x = some n) ∧ (∀ x f, Den s x f → Den s' x f) ∧
    (∀ (i : Nat) name, s.vars.vec[i]? = some name → s'.vars.vec[i]? = some name) :=
  ⟨fun _ _ hx => h.ext.unpack hx, fun _ _ hx => h.ext.den hx, fun i _ hi => prefix_getElem? (i := i) h.ext.vars hi⟩

/-- Example: a call after `demo` that adds a new node. -/
example : ∃ s', (after demo).1.call (.nary .disj [hc .not 0, hv 0]) = some (s', hc .or 1) ∧ Later (after demo).1 s' ∧
    (after demo).1.unpack (hc .or 0) = some (.nary .disj [hc .and 0, hv 2]) := by
  refine ⟨_, rfl, .step (c := .nary .disj [hc .not 0, hv 0]) (r := hc .or 1) .refl rfl, by decide⟩

/-! ### C03 -/

/-- Structural equality with n-ary operands as sets and equivalences as unordered pairs
(specification). -/
inductive Sim : Formula → Formula → Prop
  | tru : Sim .tru .tru
  | fls : Sim .fls .fls
  | lit (l) : Sim (.lit l) (.lit l)
  | not {f g} : Sim f g → Sim (.not f) (.not g)
  | impl {a b c d} : Sim a c → Sim b d → Sim (.impl a b) (.impl c d)
  | equiv {a b c d} : Sim a c → Sim b d → Sim (.equiv a b) (.equiv c d)
  | equivSwap {a b c d} : Sim a d → Sim b c → Sim (.equiv a b) (.equiv c d)
  | nary (o) {fs gs} (to fro : Formula → Formula) :
      (∀ f ∈ fs, to f ∈ gs) → (∀ f ∈ fs, Sim f (to f)) → (∀ g ∈ gs, fro g ∈ fs) → (∀ g ∈ gs, Sim (fro g) g) →
      Sim (.nary o fs) (.nary o gs)
  | cc (c) : Sim (.cc c) (.cc c)
  | pbc (p) : Sim (.pbc p) (.pbc p)

theorem Sim.refl (f : Formula) : Sim f f := by
  induction f using Formula.ind with
  | tru => exact .tru
  | fls => exact .fls
  | lit l => exact .lit l
  | not f ih => exact .not ih
  | impl a b ha hb => exact .impl ha hb
  | equiv a b ha hb => exact .equiv ha hb
  | nary o fs ih => exact .nary o id id (fun _ h => h) ih (fun _ h => h) ih
  | cc c => exact .cc c
  | pbc p => exact .pbc p

theorem sim_handle_eq {s : FF} (w : s.Wf) {f g : Formula} (h : Sim f g) : ∀ {x y}, Den s x f → Den s y g → x = y := by
  induction h with
  | tru => intro x y hx hy; exact w.den_inj hx hy
  | fls => intro x y hx hy; exact w.den_inj hx hy
  | lit l => intro x y hx hy; exact w.den_inj hx hy
  | cc c => intro x y hx hy; exact w.den_inj hx hy
  | pbc c => intro x y hx hy; exact w.den_inj hx hy
  | not _ ih =>
    intro x y hx hy
    simp only [Den] at hx hy
    obtain ⟨a, h1, h2⟩ := hx
    obtain ⟨b, h3, h4⟩ := hy
    obtain rfl := ih h2 h4
    obtain ⟨a1, a2, a3⟩ := (FF.unpack_not_iff w _ _).1 h1
    obtain ⟨b1, b2, b3⟩ := (FF.unpack_not_iff w _ _).1 h3
    exact H.ext' (a1.trans b1.symm) (w.nots.uniq' isEqv_beq a3 b3 (by simp)) (a2.trans b2.symm)
  | impl _ _ ih1 ih2 =>
    intro x y hx hy
    simp only [Den] at hx hy
    obtain ⟨a, b, h1, h2, h2'⟩ := hx
    obtain ⟨c, d, h3, h4, h4'⟩ := hy
    obtain rfl := ih1 h2 h4
    obtain rfl := ih2 h2' h4'
    obtain ⟨a1, a2, a3⟩ := (FF.unpack_impl_iff w _ _ _).1 h1
    obtain ⟨b1, b2, b3⟩ := (FF.unpack_impl_iff w _ _ _).1 h3
    exact H.ext' (a1.trans b1.symm) (w.impls.uniq' isEqv_beq a3 b3 (by simp)) (a2.trans b2.symm)
  | equiv _ _ ih1 ih2 =>
    intro x y hx hy
    simp only [Den] at hx hy
    obtain ⟨a, b, h1, h2, h2'⟩ := hx
    obtain ⟨c, d, h3, h4, h4'⟩ := hy
    obtain rfl := ih1 h2 h4
    obtain rfl := ih2 h2' h4'
    obtain ⟨a1, a2, a3⟩ := (FF.unpack_equiv_iff w _ _ _).1 h1
    obtain ⟨b1, b2, b3⟩ := (FF.unpack_equiv_iff w _ _ _).1 h3
    exact H.ext' (a1.trans b1.symm) (w.equivs.uniq' isEqv_sameEquiv a3 b3 (isEqv_sameEquiv.refl _)) (a2.trans b2.symm)
  | equivSwap _ _ ih1 ih2 =>
    intro x y hx hy
    simp only [Den] at hx hy
    obtain ⟨a, b, h1, h2, h2'⟩ := hx
    obtain ⟨c, d, h3, h4, h4'⟩ := hy
    obtain rfl := ih1 h2 h4'
    obtain rfl := ih2 h2' h4
    obtain ⟨a1, a2, a3⟩ := (FF.unpack_equiv_iff w _ _ _).1 h1
    obtain ⟨b1, b2, b3⟩ := (FF.unpack_equiv_iff w _ _ _).1 h3
    exact H.ext' (a1.trans b1.symm)
      (w.equivs.uniq' isEqv_sameEquiv a3 b3 ((sameEquiv_iff ..).2 (.inr ⟨rfl, rfl⟩))) (a2.trans b2.symm)
  | nary o to fro h1 _ h3 _ ih1 ih2 =>
    intro x y hx hy
    simp only [Den] at hx hy
    obtain ⟨a, hu, hd⟩ := hx
    obtain ⟨b, hv, he⟩ := hy
    obtain ⟨a1, a2, a3⟩ := (FF.unpack_nary_iff w _ _ _).1 hu
    obtain ⟨b1, b2, b3⟩ := (FF.unpack_nary_iff w _ _ _).1 hv
    refine H.ext' (a1.trans b1.symm) ((w.nary o).uniq' isEqv_setEq a3 b3 ?_) (a2.trans b2.symm)
    rw [setEq_iff]
    intro z
    constructor
    · intro hz
      obtain ⟨f, hf, hzf⟩ := dens_mem hd z hz
      obtain ⟨z', hz', hzg⟩ := dens_mem' he _ (h1 f hf)
      rw [ih1 f hf hzf hzg]; exact hz'
    · intro hz
      obtain ⟨g, hg, hzg⟩ := dens_mem he z hz
      obtain ⟨z', hz', hzf⟩ := dens_mem' hd _ (h3 g hg)
      rw [← ih2 g hg hzf hzg]; exact hz'

/-- In every reachable state two handles are equal exactly when they denote the same
formula (n-ary operands compared as sets, equivalences as unordered pairs). -/
theorem C03_hash_consing_partial {s : FF} {pool : List H} (h : Run s pool) (sm : Small s) {x y : H} (hx : x ∈ pool) (hy : y ∈ pool) :
    ∃ f g, Den s x f ∧ Den s y g ∧ (x = y ↔ Sim f g) := by
  obtain ⟨w, hv⟩ := h.inv sm
  obtain ⟨f, vf⟩ := hv x hx
  obtain ⟨g, vg⟩ := hv y hy
  refine ⟨f, g, vf.den, vg.den, ?_, fun hs => sim_handle_eq w hs vf.den vg.den⟩
  rintro rfl
  rw [den_fun vf.den vg.den]
  exact Sim.refl g

/-- Example: `b & a` is the same handle as `a & b`. -/
example : Run (after (demo ++ [.nary .conj [hv 1, hv 0]])).1 (after (demo ++ [.nary .conj [hv 1, hv 0]])).2 ∧
    Small (after (demo ++ [.nary .conj [hv 1, hv 0]])).1 ∧
    (after (demo ++ [.nary .conj [hv 1, hv 0]])).2.head? = some (hc .and 0) :=
  ⟨after_run _, small_of_smallB (by decide), by decide⟩

/-- A name is registered once. -/
theorem C03_names_unique {s : FF} {pool : List H} (h : Run s pool) {i j : Nat} {n : String}
    (hi : s.vars.vec[i]? = some n) (hj : s.vars.vec[j]? = some n) : i = j :=
  h.leaves.vars.uniq' isEqv_beq hi hj (by simp)

/-- Example: the variable table after `demo`. -/
example : Run (after demo).1 (after demo).2 ∧ (after demo).1.vars.vec = ["a", "b", "c"] := ⟨after_run _, by decide⟩

/-! ### C04, C05 -/

/-- `and`/`or` return a handle for the conjunction/disjunction of the operands' values, for
any operands; no other handle changes its meaning. -/
theorem C04_and_or_partial {s s' : FF} {pool hs : List H} {o : Op} {r : H} (h : Run s pool) (hp : ∀ x ∈ hs, x ∈ pool)
    (hc : s.call (.nary o hs) = some (s', r)) (sm : Small s') (σ : Asg) :
    (∃ b, Val s' σ r b ∧
      match o with
      | .conj => b = true ↔ ∀ x ∈ hs, Val s σ x true
      | .disj => b = true ↔ ∃ x ∈ hs, Val s σ x true) ∧
    (∀ x b, Val s σ x b → Val s' σ x b) := by
  have e := call_ext hc
  obtain ⟨w, hv⟩ := h.inv (sm.anti e)
  obtain ⟨w', _, hs'⟩ := call_spec (c := .nary o hs) w (fun x hx => hv x (hp x hx)) trivial hc sm
  obtain ⟨fs, hd, hn⟩ := dens_of_valid (s := s) (hs := hs) fun x hx => hv x (hp x hx)
  have hden := hs' fs hd s' w' (Ext.refl _)
  refine ⟨⟨_, ⟨_, hden, rfl⟩, ?_⟩, fun x b ⟨f, h1, h2⟩ => ⟨f, e.den h1, h2⟩⟩
  rw [Formula.eval_mkNary]
  cases o
  · simp only [Op.eval, List.all_eq_true]
    constructor
    · intro ha x hx
      obtain ⟨f, hf, hxf⟩ := dens_mem hd x hx
      exact ⟨f, hxf, ha f hf⟩
    · intro ha f hf
      obtain ⟨x, hx, hxf⟩ := dens_mem' hd f hf
      exact val_fun ⟨f, hxf, rfl⟩ (ha x hx)
  · simp only [Op.eval, List.any_eq_true]
    constructor
    · rintro ⟨f, hf, ha⟩
      obtain ⟨x, hx, hxf⟩ := dens_mem' hd f hf
      exact ⟨x, hx, f, hxf, ha⟩
    · rintro ⟨x, hx, ha⟩
      obtain ⟨f, hf, hxf⟩ := dens_mem hd x hx
      exact ⟨f, hf, val_fun ⟨f, hxf, rfl⟩ ha⟩

/-- Example: nested, duplicate and constant operands. -/
example : ∃ s', Run (after (demo ++ [.verum])).1 (after (demo ++ [.verum])).2 ∧
    (∀ x ∈ [hc .and 0, hv 2, hv 0, H.verum], x ∈ (after (demo ++ [.verum])).2) ∧
    (after (demo ++ [.verum])).1.call (.nary .conj [hc .and 0, hv 2, hv 0, H.verum]) = some (s', hc .and 1) ∧ Small s' ∧
    s'.unpack (hc .and 1) = some (.nary .conj [hv 0, hv 1, hv 2]) :=
  ⟨_, after_run _, by decide, rfl, small_of_smallB (by decide), by decide⟩

/-- Beyond 2^26 entries `and` is wrong: the index of a handle is cut to 26 bits before it is
compared, so auxiliary variable 0 and the negation of auxiliary variable 2^26 are taken for
complements (formula_factory.rs:1386-1393, 1397-1421). -/
theorem C04_large_counterexample : ∃ s pool x y, Run s pool ∧ x ∈ pool ∧ y ∈ pool ∧
    (∃ σ, Val s σ x true ∧ Val s σ y true) ∧ s.call (.nary .conj [x, y]) = some (s, H.falsum) := by
  obtain ⟨pool, hr, hp⟩ := auxS_run (2 ^ 26 + 1)
  have hr' : Run (auxS (2 ^ 26 + 1)) (H.ofLit ⟨.aux .cnf (2 ^ 26), false⟩ :: pool) :=
    .step hr (c := .negate (H.ofLit (Var.p (.aux .cnf (2 ^ 26))))) (by
      intro h hh
      obtain rfl := List.mem_singleton.1 hh
      exact hp _ (by omega)) trivial (by rfl)
  refine ⟨_, _, _, _, hr', List.mem_cons_of_mem _ (hp 0 (by omega)), List.mem_cons_self, ?_, by rfl⟩
  refine ⟨fun v => decide (v = .aux .cnf 0), ⟨_, den_ofLit_eq _, by decide⟩, ⟨_, den_ofLit_eq _, by decide⟩⟩

/-- Calls with handles of the factory never panic (except `cc` with `LT 0` and a request
for a temporary variable). -/
theorem C04_total_partial {s : FF} {pool : List H} {c : Cmd} (h : Run s pool) (sm : Small s) (hp : ∀ x ∈ c.args, x ∈ pool)
    (hcc : ∀ vs, c ≠ .cc .lt 0 vs) (haux : c ≠ .aux .tmp) : ∃ s' r, s.call c = some (s', r) := by
  obtain ⟨w, hv⟩ := h.inv sm
  refine call_total w (fun x hx => hv x (hp x hx)) ?_ haux
  rintro k rhs vs rfl
  cases k <;> simp only [Formula.isCc, decide_eq_true_iff] <;> try omega
  have : rhs ≠ 0 := fun h => hcc vs (by rw [h])
  omega

/-- Every conjunction (disjunction) stored in the factory has at least two operands, all
different, none a constant or again a conjunction (disjunction), and no operand is the
negation of another. -/
theorem C05_normal_shape_partial {s : FF} {pool : List H} (h : Run s pool) (sm : Small s) {x : H} {o : Op} {hs : List H}
    (hx : s.unpack x = some (.nary o hs)) :
    2 ≤ hs.length ∧ hs.Nodup ∧ (∀ y ∈ hs, y ≠ H.verum ∧ y ≠ H.falsum ∧ ∀ ks, s.unpack y ≠ some (.nary o ks)) ∧
    (∀ y ∈ hs, ∀ z ∈ hs, s.unpack y ≠ some (.not z)) ∧ (∀ l, H.ofLit l ∈ hs → H.ofLit l.neg ∉ hs) := by
  obtain ⟨w, _⟩ := h.inv sm
  have hty := (FF.unpack_nary_iff w x o hs).1 hx
  obtain ⟨f, hd, hn⟩ := w.ent x _ hx (by rw [hty.1]; cases o <;> rfl)
  obtain ⟨fs, rfl⟩ := fty_nary.1 ((den_ty w hd).symm.trans hty.1)
  have hd' := hd
  simp only [Den] at hd'
  obtain ⟨hs', hu, hds⟩ := hd'
  rw [hx] at hu
  cases hu
  cases hn with
  | nary h2 hall hg =>
    have hnd : hs.Nodup := by
      have hnd := hg.nodup
      clear hx hd hg hall h2 hty
      induction hs generalizing fs with
      | nil => exact .nil
      | cons y ys ih =>
        cases fs with
        | nil => simp [Dens] at hds
        | cons f fs =>
          simp only [Dens] at hds
          rw [List.nodup_cons] at hnd ⊢
          exact ⟨fun hy => hnd.1 ((w.mem_iff hds.2 hds.1).1 hy), ih fs hds.2 hnd.2⟩
    refine ⟨by rw [dens_length hds]; exact h2, hnd, ?_, ?_, ?_⟩
    · intro y hy
      obtain ⟨f, hf, hyf⟩ := dens_mem hds y hy
      have hc := hg.notConst f hf
      refine ⟨?_, ?_, ?_⟩
      · rintro rfl
        have := den_fun hyf (show Den s H.verum .tru by simp [Den])
        subst this; simp [Formula.isConst] at hc
      · rintro rfl
        have := den_fun hyf (show Den s H.falsum .fls by simp [Den])
        subst this; simp [Formula.isConst] at hc
      · intro ks hk
        have := ((FF.unpack_nary_iff w y o ks).1 hk).1
        obtain ⟨gs, rfl⟩ := fty_nary.1 ((den_ty w hyf).symm.trans this)
        exact hg.flat _ hf gs rfl
    · intro y hy z hz hu
      obtain ⟨f, hf, hyf⟩ := dens_mem hds y hy
      obtain ⟨g, hg', hzg⟩ := dens_mem hds z hz
      have : Den s y (.not g) := by simp only [Den]; exact ⟨z, hu, hzg⟩
      rw [den_fun hyf this] at hf
      exact hg.noNotCompl g hf hg'
    · intro l h1 h2
      have h1' := (w.mem_iff hds (den_ofLit_eq l)).1 h1
      exact hg.noLitCompl l h1' ((w.mem_iff hds (den_ofLit_eq l.neg)).1 h2)

/-- Example: a disjunction in the demo state. -/
example : Run (after demo).1 (after demo).2 ∧ Small (after demo).1 ∧
    (after demo).1.unpack (hc .or 0) = some (.nary .disj [hc .and 0, hv 2]) :=
  ⟨after_run _, small_of_smallB demo_small, by decide⟩

/-- Beyond 2^26 entries a conjunction can have an operand twice: the flag `is_large` of
`filter_flatten` is local to each nesting level (formula_factory.rs:1357, 1386-1393). -/
theorem C05_large_counterexample : ∃ s pool x hs, Run s pool ∧ x ∈ pool ∧ s.unpack x = some (.nary .conj hs) ∧ ¬ hs.Nodup := by
  obtain ⟨pool, hr, hp⟩ := auxS_run (2 ^ 26 + 1)
  let v (i : Nat) : H := H.ofLit (Var.p (.aux .cnf i))
  have h1 := Run.step hr (c := .nary .conj [v 0, v 1]) (by
    intro h hh
    simp only [Cmd.args, List.mem_cons, List.not_mem_nil, or_false] at hh
    rcases hh with rfl | rfl
    · exact hp _ (by omega)
    · exact hp _ (by omega)) trivial (by rfl)
  have h2 := Run.step h1 (c := .nary .conj [v (2 ^ 26), v 0, hc .and 0]) (by
    intro h hh
    simp only [Cmd.args, List.mem_cons, List.not_mem_nil, or_false] at hh
    rcases hh with rfl | rfl | rfl
    · exact List.mem_cons_of_mem _ (hp _ (by omega))
    · exact List.mem_cons_of_mem _ (hp _ (by omega))
    · exact List.mem_cons_self) trivial (by rfl)
  exact ⟨_, _, _, [v 0, v 1, v (2 ^ 26), v 0], h2, List.mem_cons_self, by rfl, by decide⟩

/-! ### C06 -/

/-- `not` and `negate` complement the value. -/
theorem C06_negation_partial {s s' : FF} {pool : List H} {x r : H} {c : Cmd} (h : Run s pool) (hx : x ∈ pool)
    (hcmd : c = .not x ∨ c = .negate x) (hc : s.call c = some (s', r)) (sm : Small s') (σ : Asg) {b : Bool}
    (hb : Val s σ x b) : Val s' σ r (!b) := by
  have e := call_ext hc
  obtain ⟨w, hv⟩ := h.inv (sm.anti e)
  obtain ⟨f, v⟩ := hv x hx
  obtain rfl := val_fun ⟨f, v.den, rfl⟩ hb
  rcases hcmd with rfl | rfl
  · obtain ⟨w', _, hs'⟩ := call_spec (c := .not x) w (by simpa [Cmd.args] using ⟨f, v⟩) trivial hc sm
    exact ⟨_, hs' f v.den, by simp⟩
  · obtain ⟨w', _, hs'⟩ := call_spec (c := .negate x) w (by simpa [Cmd.args] using ⟨f, v⟩) trivial hc sm
    exact ⟨_, hs' f v.den s' w' (Ext.refl _), by rw [Formula.eval_mkNeg _ _ _ v.norm.fits1]⟩

/-- Example: `not` of a disjunction and `negate` of an equation. -/
example : (∃ s', Run (after demo).1 (after demo).2 ∧ hc .or 0 ∈ (after demo).2 ∧
      (after demo).1.call (.not (hc .or 0)) = some (s', hc .not 1) ∧ Small s') ∧
    (∃ s', hk .cc 1 ∈ (after demo).2 ∧ (after demo).1.call (.negate (hk .cc 1)) = some (s', hc .or 1) ∧ Small s') :=
  ⟨⟨_, after_run _, by decide, rfl, small_of_smallB (by decide)⟩, ⟨_, by decide, rfl, small_of_smallB (by decide)⟩⟩

/-- No `Not` node has a constant, a literal or a `Not` as operand. -/
theorem C06_not_shape_partial {s : FF} {pool : List H} (h : Run s pool) (sm : Small s) {x y : H} (hx : s.unpack x = some (.not y)) :
    y ≠ H.verum ∧ y ≠ H.falsum ∧ (∀ l, y ≠ H.ofLit l) ∧ ∀ z, s.unpack y ≠ some (.not z) := by
  obtain ⟨w, _⟩ := h.inv sm
  have hty := (FF.unpack_not_iff w x y).1 hx
  obtain ⟨f, hd, hn⟩ := w.ent x _ hx (by rw [hty.1]; rfl)
  have ht := den_ty w hd
  rw [hty.1] at ht
  cases hn with
  | @not g hg h1 h2 h3 =>
    simp only [Den] at hd
    obtain ⟨y', hu, hdy⟩ := hd
    rw [hx] at hu
    cases hu
    refine ⟨?_, ?_, ?_, ?_⟩
    · rintro rfl
      rw [den_fun hdy (show Den s H.verum .tru by simp [Den])] at h1; simp [Formula.isConst] at h1
    · rintro rfl
      rw [den_fun hdy (show Den s H.falsum .fls by simp [Den])] at h1; simp [Formula.isConst] at h1
    · rintro l rfl
      rw [den_fun hdy (den_ofLit_eq l)] at h2; simp [Formula.isLit] at h2
    · intro z hz
      have := (FF.unpack_not_iff w y z).1 hz
      have ht' := den_ty w hdy
      rw [this.1] at ht'
      cases g with
      | not g => simp [Formula.isNot] at h3
      | nary o gs => cases o <;> simp [Formula.fty, Op.fty] at ht'
      | lit l => rcases l with ⟨v, p⟩; cases v <;> simp [Formula.fty] at ht'
      | _ => simp [Formula.fty] at ht'
  | nary => rename_i o _ _ _ _; cases o <;> simp [Formula.fty, Op.fty] at ht
  | lit l => rcases l with ⟨v, p⟩; cases v <;> simp [Formula.fty] at ht
  | _ => simp [Formula.fty] at ht

/-- Example: the `Not` node of the demo state. -/
example : Run (after demo).1 (after demo).2 ∧ Small (after demo).1 ∧ (after demo).1.unpack (hc .not 0) = some (.not (hc .and 0)) :=
  ⟨after_run _, small_of_smallB demo_small, by decide⟩

/-- `not` twice returns the original handle. -/
theorem C06_not_not_partial {s s1 s2 s3 : FF} {pool : List H} {x y z : H} (h : Run s pool) (hx : x ∈ pool)
    (h1 : s.call (.not x) = some (s1, y)) (hl : Later s1 s2) (h2 : s2.call (.not y) = some (s3, z))
    (w2 : ∃ pool2, Run s2 pool2) (sm : Small s3) : z = x := by
  have e1 := call_ext h1
  have e2 := call_ext h2
  have sm2 := sm.anti e2
  have sm1 := sm2.anti hl.ext
  obtain ⟨w, hv⟩ := h.inv (sm1.anti e1)
  obtain ⟨f, v⟩ := hv x hx
  obtain ⟨w1, ⟨g, vy⟩, hs1⟩ := call_spec (c := .not x) w (by simpa [Cmd.args] using ⟨f, v⟩) trivial h1 sm1
  have hg := den_fun vy.den (hs1 f v.den)
  subst hg
  obtain ⟨pool2, hr2⟩ := w2
  obtain ⟨w2, _⟩ := hr2.inv sm2
  have vy2 := vy.mono hl.ext
  obtain ⟨w3, _, hs3⟩ := call_spec (c := .not y) w2 (by simpa [Cmd.args] using ⟨_, vy2⟩) trivial h2 sm
  have hz := hs3 _ vy2.den
  rw [Formula.mkNot_mkNot v.norm] at hz
  exact w3.den_inj hz (((e1.trans hl.ext).trans e2).den v.den)

/-- Example: `not` of the disjunction, then something else, then `not` of the result. -/
example : ∃ s1 s2 s3, Run (after demo).1 (after demo).2 ∧ (after demo).1.call (.not (hc .or 0)) = some (s1, hc .not 1) ∧
    s1.call (.var "d") = some (s2, hv 3) ∧ s2.call (.not (hc .not 1)) = some (s3, hc .or 0) ∧ Small s3 :=
  ⟨_, _, _, after_run _, rfl, rfl, rfl, small_of_smallB (by decide)⟩

/-- Formulas on which `negate` is not an involution: equations, pseudo-Boolean constraints
with all coefficients 1, and `Not` of a constraint. -/
def Formula.oddNeg : Formula → Bool
  | .pbc p => p.cmp == .eq || (p.terms.all (fun t => t.1.pos) && p.terms.all (fun t => t.2 == 1))
  | .cc c => c.cmp == .eq
  | .not (.cc _) => true
  | .not (.pbc _) => true
  | _ => false

theorem mkPbc_ones (c : Cmp) (k : Nat) (vs : List Var) (hne : vs ≠ []) (hk : k < 2 ^ 32) :
    Formula.mkPbc c k (vs.map fun v => (v.p, (1 : Int))) =
      if Formula.isCc c k then .cc ⟨vs, c, k⟩ else .pbc ⟨vs.map fun v => (v.p, (1 : Int)), c, k⟩ := by
  unfold Formula.mkPbc
  rw [if_neg (by simpa using hne)]
  have : Formula.isLitCc c k (vs.map fun v => (v.p, (1 : Int))) = Formula.isCc c k := by
    simp [Formula.isLitCc, Var.p]
  rw [this]
  split
  · unfold Formula.constructCc
    rw [if_neg (by simpa using hne), if_pos (by omega)]
    have h1 : ((k : Int).toNat % 2 ^ 32) = k := by simp; omega
    have h2 : (vs.map fun v => (v.p, (1 : Int))).map (fun t => t.1.v) = vs := by simp [Function.comp_def, Var.p]
    rw [h1, h2]
  · rfl

theorem mkPbc_keep (c : Cmp) (k : Int) (ts : List (Lit × Int)) (hne : ts ≠ [])
    (h : (ts.all (fun t => t.1.pos) && ts.all (fun t => t.2 == 1)) = false) :
    Formula.mkPbc c k ts = .pbc ⟨ts, c, k⟩ := by
  unfold Formula.mkPbc
  rw [if_neg hne, if_neg (by simp only [Formula.isLitCc, h]; simp)]

theorem mkNeg_mkNeg (C : Canon) {f : Formula} (hn : f.Norm) (h : f.oddNeg = false) : mkNeg C (mkNeg C f) = f := by
  cases hn with
  | @not f hf h1 h2 h3 => cases f <;> simp_all [mkNeg, Formula.isConst, Formula.isLit, Formula.isNot, mkNot, Formula.oddNeg]
  | @cc c hc =>
    rcases c with ⟨vs, cmp, k⟩
    have h1 := hc.ne
    have h2 := hc.rhs
    have h3 := hc.isCc
    simp only at h1 h2 h3
    have key := fun c => mkPbc_ones c k vs h1 h2
    cases cmp <;> simp only [Formula.oddNeg] at h
    all_goals (first | (exact absurd h (by decide)) | skip)
    all_goals
      rw [show ∀ v d n, mkNeg C (.cc ⟨v, d, n⟩) = Formula.negCc C ⟨v, d, n⟩ from fun _ _ _ => rfl]
      simp only [Formula.negCc, key]
      rw [apply_ite (mkNeg C)]
      simp only [mkNeg, Formula.negCc, Formula.negPbc, key, h3, if_true, ite_self]
  | @pbc p hp =>
    rcases p with ⟨ts, cmp, k⟩
    simp only [Formula.oddNeg, Bool.or_eq_false_iff] at h
    have key := fun c => mkPbc_keep c k ts hp.ne h.2
    cases cmp
    all_goals (first | (exact absurd h.1 (by decide)) | skip)
    all_goals simp only [mkNeg, Formula.negPbc, key]
  | _ => simp [mkNeg, mkNot]

/-- `negate` twice returns the original handle, except for equations, constraints with
all coefficients 1 that are not cardinality constraints, and `Not` of a constraint.
Missing: the excluded formulas, for which the claim is false
(`C06_negate_negate_counterexample`). -/
theorem C06_negate_negate_partial {s s1 s2 s3 : FF} {pool pool2 : List H} {x y z : H} {f : Formula} (h : Run s pool)
    (hx : x ∈ pool) (hf : Den s x f) (hodd : f.oddNeg = false)
    (h1 : s.call (.negate x) = some (s1, y)) (hl : Later s1 s2) (hr2 : Run s2 pool2)
    (h2 : s2.call (.negate y) = some (s3, z)) (sm : Small s3) : z = x := by
  have e1 := call_ext h1
  have e2 := call_ext h2
  have sm2 := sm.anti e2
  have sm1 := sm2.anti hl.ext
  obtain ⟨w, hv⟩ := h.inv (sm1.anti e1)
  obtain ⟨f', v⟩ := hv x hx
  obtain rfl := den_fun v.den hf
  obtain ⟨w1, ⟨g, vy⟩, hs1⟩ := call_spec (c := .negate x) w (by simpa [Cmd.args] using ⟨f', v⟩) trivial h1 sm1
  obtain ⟨w2, _⟩ := hr2.inv sm2
  have vy2 := vy.mono hl.ext
  obtain ⟨w3, _, hs3⟩ := call_spec (c := .negate y) w2 (by simpa [Cmd.args] using ⟨_, vy2⟩) trivial h2 sm
  have d1 := hs1 f' v.den s3 w3 (hl.ext.trans e2)
  have hg := den_fun (e2.den vy2.den) d1
  have hz := hs3 _ vy2.den s3 w3 (Ext.refl _)
  rw [hg, mkNeg_mkNeg _ v.norm hodd] at hz
  exact w3.den_inj hz (((e1.trans hl.ext).trans e2).den v.den)

/-- Example: `negate` of `a + b + c <= 1` is `a + b + c > 1`, and back. -/
example : ∃ s1 s2, Run (after demo).1 (after demo).2 ∧ Den (after demo).1 (hk .cc 0) (.cc ⟨[.named 0, .named 1, .named 2], .le, 1⟩) ∧
    (Formula.cc ⟨[.named 0, .named 1, .named 2], .le, 1⟩).oddNeg = false ∧
    (after demo).1.call (.negate (hk .cc 0)) = some (s1, hk .cc 2) ∧ s1.call (.negate (hk .cc 2)) = some (s2, hk .cc 0) ∧ Small s2 :=
  ⟨_, _, after_run _, by simp only [Den]; decide, rfl, rfl, rfl, small_of_smallB (by decide)⟩

/-- `negate` twice is not the identity on handles: the negation of an equation is a
disjunction, whose negation is a `Not` node. -/
theorem C06_negate_negate_counterexample : ∃ s pool x s1 y s2 z, Run s pool ∧ x ∈ pool ∧ s.call (.negate x) = some (s1, y) ∧
    s1.call (.negate y) = some (s2, z) ∧ Small s2 ∧ z ≠ x :=
  ⟨_, _, hk .cc 1, _, hc .or 1, _, hc .not 1, after_run demo, by decide, rfl, rfl, small_of_smallB (by decide), by decide⟩

/-! ### C07 -/

/-- `implication` computes material implication. -/
theorem C07_implication_partial {s s' : FF} {pool : List H} {a b r : H} (h : Run s pool) (ha : a ∈ pool) (hb : b ∈ pool)
    (hc : s.call (.impl a b) = some (s', r)) (sm : Small s') (σ : Asg) {va vb : Bool}
    (hva : Val s σ a va) (hvb : Val s σ b vb) : Val s' σ r (!va || vb) := by
  obtain ⟨w, hv⟩ := h.inv (sm.anti (call_ext hc))
  obtain ⟨f, vf⟩ := hv a ha
  obtain ⟨g, vg⟩ := hv b hb
  obtain rfl := val_fun ⟨f, vf.den, rfl⟩ hva
  obtain rfl := val_fun ⟨g, vg.den, rfl⟩ hvb
  obtain ⟨w', _, hs'⟩ := call_spec (c := .impl a b) w (by simpa [Cmd.args] using ⟨⟨f, vf⟩, g, vg⟩) trivial hc sm
  exact ⟨_, hs' f g vf.den vg.den s' w' (Ext.refl _), by rw [Formula.eval_mkImpl _ _ _ _ vg.norm.fits1]⟩

/-- Example: `(a | ..) => ~(a & b)`. -/
example : ∃ s', Run (after demo).1 (after demo).2 ∧ hc .or 0 ∈ (after demo).2 ∧ hc .not 0 ∈ (after demo).2 ∧
    (after demo).1.call (.impl (hc .or 0) (hc .not 0)) = some (s', hc .impl 0) ∧ Small s' :=
  ⟨_, after_run _, by decide, by decide, rfl, small_of_smallB (by decide)⟩

/-- `equivalence` computes equality. -/
theorem C07_equivalence_partial {s s' : FF} {pool : List H} {a b r : H} (h : Run s pool) (ha : a ∈ pool) (hb : b ∈ pool)
    (hc : s.call (.equiv a b) = some (s', r)) (sm : Small s') (σ : Asg) {va vb : Bool}
    (hva : Val s σ a va) (hvb : Val s σ b vb) : Val s' σ r (va == vb) := by
  obtain ⟨w, hv⟩ := h.inv (sm.anti (call_ext hc))
  obtain ⟨f, vf⟩ := hv a ha
  obtain ⟨g, vg⟩ := hv b hb
  obtain rfl := val_fun ⟨f, vf.den, rfl⟩ hva
  obtain rfl := val_fun ⟨g, vg.den, rfl⟩ hvb
  obtain ⟨w', _, hs'⟩ := call_spec (c := .equiv a b) w (by simpa [Cmd.args] using ⟨⟨f, vf⟩, g, vg⟩) trivial hc sm
  exact ⟨_, hs' f g vf.den vg.den s' w' (Ext.refl _), by rw [Formula.eval_mkEquiv _ _ _ _ vg.norm.fits1]⟩

/-- Example: `(a | ..) <=> ~(a & b)`. -/
example : ∃ s', Run (after demo).1 (after demo).2 ∧ hc .or 0 ∈ (after demo).2 ∧ hc .not 0 ∈ (after demo).2 ∧
    (after demo).1.call (.equiv (hc .or 0) (hc .not 0)) = some (s', hc .equiv 0) ∧ Small s' :=
  ⟨_, after_run _, by decide, by decide, rfl, small_of_smallB (by decide)⟩

/-- `equivalence` is symmetric as a handle, also with other calls in between.
Missing: operands on which `negate` is not an involution, for which the claim is false
(`C07_symmetry_counterexample`). -/
theorem C07_symmetric_partial {s s1 s2 s3 : FF} {pool pool2 : List H} {a b x y : H} {f g : Formula} (h : Run s pool)
    (ha : a ∈ pool) (hb : b ∈ pool) (hf : Den s a f) (hg : Den s b g) (of : f.oddNeg = false) (og : g.oddNeg = false)
    (h1 : s.call (.equiv a b) = some (s1, x)) (hl : Later s1 s2) (hr2 : Run s2 pool2)
    (h2 : s2.call (.equiv b a) = some (s3, y)) (sm : Small s3) : x = y := by
  have e1 := call_ext h1
  have e2 := call_ext h2
  have sm2 := sm.anti e2
  have sm1 := sm2.anti hl.ext
  obtain ⟨w, hv⟩ := h.inv (sm1.anti e1)
  obtain ⟨f', vf⟩ := hv a ha
  obtain rfl := den_fun vf.den hf
  obtain ⟨g', vg⟩ := hv b hb
  obtain rfl := den_fun vg.den hg
  obtain ⟨w1, _, hs1⟩ := call_spec (c := .equiv a b) w (by simpa [Cmd.args] using ⟨⟨f', vf⟩, g', vg⟩) trivial h1 sm1
  obtain ⟨w2, _⟩ := hr2.inv sm2
  have e12 := e1.trans hl.ext
  obtain ⟨w3, _, hs3⟩ := call_spec (c := .equiv b a) w2
    (by simpa [Cmd.args] using ⟨⟨g', vg.mono e12⟩, f', vf.mono e12⟩) trivial h2 sm
  have d1 := hs1 f' g' vf.den vg.den s3 w3 (hl.ext.trans e2)
  have d2 := hs3 g' f' (e12.den vg.den) (e12.den vf.den) s3 w3 (Ext.refl _)
  have key : mkEquiv (canonOf s3) f' g' = mkEquiv (canonOf s3) g' f' := by
    by_cases c1 : f' = .tru
    · subst c1
      by_cases c2 : g' = .tru
      · subst c2; rfl
      · by_cases c3 : g' = .fls
        · subst c3; simp [mkEquiv, mkNot]
        · simp [mkEquiv, c2, c3]
    by_cases c2 : g' = .tru
    · subst c2
      by_cases c3 : f' = .fls
      · subst c3; simp [mkEquiv, mkNot]
      · simp [mkEquiv, c1, c3]
    by_cases c3 : f' = .fls
    · subst c3
      by_cases c4 : g' = .fls
      · subst c4; rfl
      · simp [mkEquiv, c2, c4]
    by_cases c4 : g' = .fls
    · subst c4; simp [mkEquiv, c1, c3]
    by_cases c5 : f' = g'
    · subst c5; rfl
    by_cases c6 : f' = mkNeg (canonOf s3) g'
    · have c7 : g' = mkNeg (canonOf s3) f' := by rw [c6, mkNeg_mkNeg _ vg.norm og]
      have l1 : mkEquiv (canonOf s3) f' g' = .fls := by
        unfold mkEquiv; rw [if_neg c1, if_neg c3, if_neg c2, if_neg c4, if_neg c5, if_pos c6]
      have l2 : mkEquiv (canonOf s3) g' f' = .fls := by
        unfold mkEquiv; rw [if_neg c2, if_neg c4, if_neg c1, if_neg c3, if_neg (Ne.symm c5), if_pos c7]
      rw [l1, l2]
    · have c7 : g' ≠ mkNeg (canonOf s3) f' := by
        intro hh; exact c6 (by rw [hh, mkNeg_mkNeg _ vf.norm of])
      have l1 : mkEquiv (canonOf s3) f' g' = if (canonOf s3).swap f' g' then .equiv g' f' else .equiv f' g' := by
        unfold mkEquiv; rw [if_neg c1, if_neg c3, if_neg c2, if_neg c4, if_neg c5, if_neg c6]
      have l2 : mkEquiv (canonOf s3) g' f' = if (canonOf s3).swap g' f' then .equiv f' g' else .equiv g' f' := by
        unfold mkEquiv; rw [if_neg c2, if_neg c4, if_neg c1, if_neg c3, if_neg (Ne.symm c5), if_neg c7]
      rw [l1] at d1
      rw [l2] at d2
      rw [l1, l2]
      by_cases hsw : (canonOf s3).swap f' g' = true
      · rw [if_pos hsw] at d1 ⊢
        rw [if_neg (by rw [canonOf_swap_false w3 d1 (Ne.symm c5)]; simp)]
      · rw [if_neg hsw] at d1 ⊢
        rw [if_pos (canonOf_swap_true d1)]
  rw [key] at d1
  exact w3.den_inj d1 d2

/-- Example: `a <=> (a & b)` and `(a & b) <=> a`. -/
example : ∃ s1 s2, Run (after demo).1 (after demo).2 ∧ (after demo).1.call (.equiv (hv 0) (hc .and 0)) = some (s1, hc .equiv 0) ∧
    s1.call (.equiv (hc .and 0) (hv 0)) = some (s2, hc .equiv 0) ∧ Small s2 ∧ (Formula.lit (Var.p (.named 0))).oddNeg = false ∧
    (Formula.nary .conj [.lit (Var.p (.named 0)), .lit (Var.p (.named 1))]).oddNeg = false :=
  ⟨_, _, after_run _, rfl, rfl, small_of_smallB (by decide), rfl, rfl⟩

/-- `equivalence` is not symmetric on handles: with `x` an equation and `y` its negation,
`equivalence(y, x)` is falsum but `equivalence(x, y)` is an equivalence node. -/
theorem C07_symmetry_counterexample : ∃ s pool x y s1 s2 r, Run s pool ∧ Small s ∧ x ∈ pool ∧ y ∈ pool ∧
    s.call (.equiv y x) = some (s1, H.falsum) ∧ s.call (.equiv x y) = some (s2, r) ∧ r ≠ H.falsum :=
  ⟨_, _, hk .cc 1, hc .or 1, _, _, hc .equiv 0, after_run (demo ++ [.negate (hk .cc 1)]), small_of_smallB (by decide),
    by decide, by decide, rfl, rfl, by decide⟩

/-! ### C08, C18 -/

/-- Number of true variables (specification). -/
def countTrue (σ : Asg) (vs : List Var) : Nat := (vs.filter fun v => (v.p).eval σ).length

/-- Sum of the weights of the true literals (specification). -/
def weight (σ : Asg) (ts : List (Lit × Int)) : Int := ((ts.filter fun t => t.1.eval σ).map (·.2)).sum

theorem cntV_eq (σ : Asg) (vs : List Var) : cntV σ vs = countTrue σ vs := by
  rw [cntV, countTrue, List.countP_eq_length_filter]; simp

theorem lhs_eq (σ : Asg) (ts : List (Lit × Int)) : PBC.lhs σ ts = weight σ ts := by
  induction ts with
  | nil => rfl
  | cons t ts ih =>
    simp only [PBC.lhs, ih, weight]
    by_cases h : t.1.eval σ = true <;> simp [h]

/-- The five relations (specification). -/
def Cmp.Rel : Cmp → Int → Int → Prop
  | .eq, a, b => a = b
  | .gt, a, b => a > b
  | .ge, a, b => a ≥ b
  | .lt, a, b => a < b
  | .le, a, b => a ≤ b

theorem test_rel (c : Cmp) (a b : Int) : c.test a b = true ↔ c.Rel a b := by
  cases c <;> simp [Cmp.test, Cmp.Rel]

/-- `cc` (hence `amo` and `exo`): the result holds iff the number of true variables is in
the relation to the right-hand side. -/
theorem C08_cc {s s' : FF} {pool : List H} {c : Cmp} {rhs : Nat} {vs : List Var} {r : H} (h : Run s pool)
    (hr : rhs < 2 ^ 32) (hc : s.call (.cc c rhs vs) = some (s', r)) (σ : Asg) :
    ∃ b, Val s' σ r b ∧ (b = true ↔ c.Rel (countTrue σ vs) rhs) := by
  simp only [FF.call, FF.cc] at hc
  obtain ⟨f, hf, e⟩ := Option.map_eq_some_iff.1 hc
  have hl : f.isLeaf = true := by
    unfold Formula.mkCc at hf
    split at hf
    · cases hf; exact isLeaf_constructCc ..
    · simp at hf
  have hd := (leaves_leaf h.leaves hl).2
  rw [e] at hd
  exact ⟨_, ⟨f, hd, rfl⟩, by rw [Formula.eval_mkCc σ c rhs vs hr hf, test_rel, cntV_eq]⟩

/-- Example: `a + b < 2` in the demo state. -/
example : ∃ s', Run (after demo).1 (after demo).2 ∧ (after demo).1.call (.cc .lt 2 [.named 0, .named 1]) = some (s', hk .cc 2) :=
  ⟨_, after_run _, rfl⟩

/-- `FormulaFactory::amo`, formula_factory.rs:943-945. -/
def FF.amo (s : FF) (vs : List Var) : Option (FF × H) := s.cc .le 1 vs

/-- `FormulaFactory::exo`, formula_factory.rs:912-914. -/
def FF.exo (s : FF) (vs : List Var) : Option (FF × H) := s.cc .eq 1 vs

theorem C08_amo {s s' : FF} {pool : List H} {vs : List Var} {r : H} (h : Run s pool)
    (hc : s.amo vs = some (s', r)) (σ : Asg) : ∃ b, Val s' σ r b ∧ (b = true ↔ countTrue σ vs ≤ 1) := by
  obtain ⟨b, h1, h2⟩ := C08_cc (c := .le) (rhs := 1) h (by decide) hc σ
  refine ⟨b, h1, h2.trans ?_⟩
  simp only [Cmp.Rel]; omega

theorem C08_exo {s s' : FF} {pool : List H} {vs : List Var} {r : H} (h : Run s pool)
    (hc : s.exo vs = some (s', r)) (σ : Asg) : ∃ b, Val s' σ r b ∧ (b = true ↔ countTrue σ vs = 1) := by
  obtain ⟨b, h1, h2⟩ := C08_cc (c := .eq) (rhs := 1) h (by decide) hc σ
  refine ⟨b, h1, h2.trans ?_⟩
  simp only [Cmp.Rel]; omega

/-- Example: both in the demo state. -/
example : (∃ s', (after demo).1.amo [.named 0, .named 1] = some (s', hk .cc 2)) ∧
    (∃ s', (after demo).1.exo [.named 0, .named 1] = some (s', hk .cc 2)) := ⟨⟨_, rfl⟩, ⟨_, rfl⟩⟩

/-- `pbc`: the result holds iff the weight of the true literals is in the relation to the
right-hand side.  Missing: right-hand sides of 2^32 and more together with all
coefficients 1 and positive literals, where the claim is false (`C08_rhs_truncated`). -/
theorem C08_pbc_partial {s s' : FF} {pool : List H} {c : Cmp} {rhs : Int} {ts : List (Lit × Int)} {r : H} (h : Run s pool)
    (hp : (∀ t ∈ ts, t.1.pos = true) → (∀ t ∈ ts, t.2 = 1) → rhs < 2 ^ 32) (hc : s.call (.pbc c rhs ts) = some (s', r)) (σ : Asg) :
    ∃ b, Val s' σ r b ∧ (b = true ↔ c.Rel (weight σ ts) rhs) := by
  have hd := (leaves_leaf h.leaves (isLeaf_mkPbc c rhs ts)).2
  have e : s.leaf (Formula.mkPbc c rhs ts) = (s', r) := Option.some.inj hc
  rw [e] at hd
  exact ⟨_, ⟨_, hd, rfl⟩, by rw [Formula.eval_mkPbc σ c rhs ts hp, test_rel, lhs_eq]⟩

/-- Example: `2 * a - 3 * ~b >= -1`. -/
example : ∃ s', Run (after demo).1 (after demo).2 ∧
    (after demo).1.call (.pbc .ge (-1) [(⟨.named 0, true⟩, 2), (⟨.named 1, false⟩, -3)]) = some (s', hk .pbc 0) ∧
    ((∀ t ∈ [((⟨.named 0, true⟩ : Lit), (2 : Int)), (⟨.named 1, false⟩, -3)], t.1.pos = true) →
      (∀ t ∈ [((⟨.named 0, true⟩ : Lit), (2 : Int)), (⟨.named 1, false⟩, -3)], t.2 = 1) → (-1 : Int) < 2 ^ 32) :=
  ⟨_, after_run _, rfl, by decide⟩

/-- `pbc` cuts the right-hand side of a cardinality constraint to 32 bits
(`rhs as u32`, formula_factory.rs:1328): `a <= 2^32` becomes `a <= 0`. -/
theorem C08_rhs_truncated : ∃ s pool s' r σ, Run s pool ∧ s.call (.pbc .le (2 ^ 32) [(⟨.named 0, true⟩, 1)]) = some (s', r) ∧
    Val s' σ r false ∧ Cmp.le.Rel (weight σ [(⟨.named 0, true⟩, 1)]) (2 ^ 32) := by
  refine ⟨_, _, _, hk .cc 2, fun _ => true, after_run demo, rfl, ⟨.cc ⟨[.named 0], .le, 0⟩, ?_, by decide⟩, by simp [Cmp.Rel, weight]⟩
  simp only [Den]; decide

/-- Negating a constraint: the result holds iff the relation does not hold. -/
theorem C18_negated_constraint_partial {s s' : FF} {pool : List H} {x r : H} {f : Formula} (h : Run s pool) (hx : x ∈ pool)
    (hf : Den s x f) (hc : s.call (.negate x) = some (s', r)) (sm : Small s') (σ : Asg) :
    (∀ c, f = .cc c → ∃ b, Val s' σ r b ∧ (b = true ↔ ¬ c.cmp.Rel (countTrue σ c.vars) c.rhs)) ∧
    (∀ p, f = .pbc p → ∃ b, Val s' σ r b ∧ (b = true ↔ ¬ p.cmp.Rel (weight σ p.terms) p.rhs)) := by
  constructor
  · rintro c rfl
    refine ⟨_, C06_negation_partial h hx (.inr rfl) hc sm σ ⟨_, hf, rfl⟩, ?_⟩
    rw [← test_rel, ← cntV_eq]; simp [CC.eval]
  · rintro p rfl
    refine ⟨_, C06_negation_partial h hx (.inr rfl) hc sm σ ⟨_, hf, rfl⟩, ?_⟩
    rw [← test_rel, ← lhs_eq]; simp [PBC.eval]

/-- Example: the equation of the demo state. -/
example : ∃ s', Run (after demo).1 (after demo).2 ∧ hk .cc 1 ∈ (after demo).2 ∧
    Den (after demo).1 (hk .cc 1) (.cc ⟨[.named 0, .named 1, .named 2], .eq, 1⟩) ∧
    (after demo).1.call (.negate (hk .cc 1)) = some (s', hc .or 1) ∧ Small s' :=
  ⟨_, after_run _, by decide, by simp only [Den]; decide, rfl, small_of_smallB (by decide)⟩

/-! ### C16, the part computed by the factory -/

/-- Clauses (specification): constants, literals, and disjunctions of them. -/
inductive IsClause : Formula → Prop
  | tru : IsClause .tru
  | fls : IsClause .fls
  | lit (l) : IsClause (.lit l)
  | or {fs} : (∀ f ∈ fs, ∃ l, f = .lit l) → IsClause (.nary .disj fs)

/-- Conjunctive normal form (specification). -/
inductive IsCnf : Formula → Prop
  | clause {f} : IsClause f → IsCnf f
  | and {fs} : (∀ f ∈ fs, IsClause f) → IsCnf (.nary .conj fs)

theorem isClauseF_iff {f : Formula} (hc : f.isConst = false) : f.isClauseF = true ↔ IsClause f := by
  constructor
  · intro h
    cases f with
    | lit l => exact .lit l
    | nary o fs =>
      cases o
      · simp [Formula.isClauseF] at h
      · simp only [Formula.isClauseF, List.all_eq_true] at h
        refine .or fun f hf => ?_
        have := h f hf
        cases f <;> simp [Formula.isLit] at this
        exact ⟨_, rfl⟩
    | _ => simp_all [Formula.isClauseF, Formula.isConst]
  · intro h
    cases h with
    | tru => simp [Formula.isConst] at hc
    | fls => simp [Formula.isConst] at hc
    | lit l => rfl
    | or h =>
      simp only [Formula.isClauseF, List.all_eq_true]
      intro f hf
      obtain ⟨l, rfl⟩ := h f hf
      rfl

theorem isCnfF_iff {f : Formula} (hn : f.Norm) : f.isCnfF = true ↔ IsCnf f := by
  cases hn with
  | tru => exact ⟨fun _ => .clause .tru, fun _ => rfl⟩
  | fls => exact ⟨fun _ => .clause .fls, fun _ => rfl⟩
  | lit l => exact ⟨fun _ => .clause (.lit l), fun _ => rfl⟩
  | @nary o fs h2 hall hg =>
    cases o
    · simp only [Formula.isCnfF, List.all_eq_true]
      constructor
      · intro h; exact .and fun f hf => (isClauseF_iff (hg.notConst f hf)).1 (h f hf)
      · intro h
        cases h with
        | clause h => cases h
        | and h => exact fun f hf => (isClauseF_iff (hg.notConst f hf)).2 (h f hf)
    · simp only [Formula.isCnfF, List.all_eq_true]
      constructor
      · intro h
        refine .clause (.or fun f hf => ?_)
        have := h f hf
        cases f <;> simp [Formula.isLit] at this
        exact ⟨_, rfl⟩
      · intro h
        cases h with
        | clause h =>
          cases h with
          | or h =>
            intro f hf
            obtain ⟨l, rfl⟩ := h f hf
            rfl
  | _ =>
    simp only [Formula.isCnfF, Bool.false_eq_true, false_iff]
    intro h
    cases h with
    | clause h => cases h

/-- `is_cnf` (answered from a set the factory fills while constructing formulas) is exact
in every reachable state. -/
theorem C16_is_cnf_partial {s : FF} {pool : List H} {x : H} (h : Run s pool) (sm : Small s) (hx : x ∈ pool) :
    ∃ f, Den s x f ∧ (s.isCnfH x = true ↔ IsCnf f) := by
  obtain ⟨w, hv⟩ := h.inv sm
  obtain ⟨f, v⟩ := hv x hx
  exact ⟨f, v.den, by rw [isCnfH_eq w v.den, isCnfF_iff v.norm]⟩

/-- Example: `(a & b) | c` is not in CNF, `a & b` is. -/
example : Run (after demo).1 (after demo).2 ∧ Small (after demo).1 ∧ hc .or 0 ∈ (after demo).2 ∧
    (after demo).1.isCnfH (hc .or 0) = false ∧ (after demo).1.isCnfH (hc .and 0) = true :=
  ⟨after_run _, small_of_smallB demo_small, by decide, by decide, by decide⟩

/-! ### C27 -/

theorem newAux_lt {s s1 : FF} {t : AuxTy} {v : Var} (h : s.newAux t = some (s1, v)) : v = .aux t (s.cnt t) ∧ s.cnt t < s1.cnt t := by
  unfold FF.newAux at h
  split at h
  · simp at h
  · cases h; exact ⟨rfl, by simp⟩

/-- An auxiliary variable differs from every auxiliary variable handed out by an earlier
call and from every named variable.  The counters are incremented atomically, so the calls
of several threads are one sequence of calls. -/
theorem C27_fresh {s s1 s2 s3 : FF} {t t' : AuxTy} {v v' : Var} (h1 : s.newAux t = some (s1, v)) (hl : Later s1 s2)
    (h2 : s2.newAux t' = some (s3, v')) : v' ≠ v ∧ ∀ i, v' ≠ .named i := by
  obtain ⟨rfl, h3⟩ := newAux_lt h1
  obtain ⟨rfl, _⟩ := newAux_lt h2
  refine ⟨?_, by simp⟩
  intro e
  injection e with e1 e2
  subst e1
  have := hl.ext.cnt t'
  omega

/-- Example: the second CNF variable, with other calls in between. -/
example : ∃ s1 s2 s3, (after demo).1.newAux .cnf = some (s1, .aux .cnf 0) ∧ s1.call (.aux .cc) = some (s2, H.ofLit (Var.p (.aux .cc 0))) ∧
    Later s1 s2 ∧ s2.newAux .cnf = some (s3, .aux .cnf 1) :=
  ⟨_, _, _, rfl, rfl, .step (c := .aux .cc) (r := H.ofLit (Var.p (.aux .cc 0))) .refl rfl, rfl⟩

end Verif
