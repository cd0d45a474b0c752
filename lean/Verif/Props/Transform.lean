import Verif.F.CnfAlg
import Verif.Props.Pb
/-
Normal-form transformations: C11 (NNF), C12 (factorization), C13 (limits), C14 (Tseitin), C15 (Plaisted-Greenbaum).

All statements are about every state the factory can reach from a fresh one by any sequence of
transformations in any order, with any caches switched on and any number of encoders with their own state.
-/
namespace Verif
open ER

/-- `v` exists in a factory whose auxiliary counters are `c`: user variables and auxiliaries made so far. -/
def Known (c : AuxTy → Nat) : Var → Prop
  | .named _ => True
  | .aux .tmp _ => False
  | .aux t n => n < c t

/-- Admissible input: built by the factory, over existing variables, constraints small enough (see `TFit`). -/
structure Input (cfg : FCfg) (c : AuxTy → Nat) (f : Formula) : Prop where
  norm : f.Norm
  fit : Fit cfg f
  known : ∀ v, Occ v f → Known c v

/-- The states reachable from a fresh factory with counters `c`, with all inputs and results so far. -/
inductive TReach (C : Canon) (cfg : FCfg) (c : AuxTy → Nat) : World → List (CnfAlg × EncSt) → List (Formula × Formula) → Prop
  | fresh : TReach C cfg c (World.fresh c) [] []
  /-- some other use of the factory's auxiliary variables -/
  | aux {w es rs c'} : TReach C cfg c w es rs → (∀ t, w.cnt t ≤ c' t) → TReach C cfg c { w with cnt := c' } es rs
  | encoder {w es rs} (a : CnfAlg) (stateful : Bool) : TReach C cfg c w es rs →
      TReach C cfg c w (es ++ [(a, if stateful then .new else .stateless)]) rs
  | nnf {w es rs f g w'} : TReach C cfg c w es rs → Input cfg w.cnt f → nnf C cfg f w = some (g, w') → TReach C cfg c w' es ((f, g) :: rs)
  | factor {w es rs o f l r w' l'} : TReach C cfg c w es rs → Input cfg w.cnt f → factorize C cfg o f l w = some (r, w', l') →
      TReach C cfg c w' es ((r.toList.map fun g => (f, g)) ++ rs)
  | cnf {w es rs a s f g s' w'} (i : Nat) : TReach C cfg c w es rs → Input cfg w.cnt f → es[i]? = some (a, s) →
      a.transform C cfg f s w = some (g, s', w') → TReach C cfg c w' (es.set i (a, s')) ((f, g) :: rs)

section
variable {C : Canon} {cfg : FCfg} {c : AuxTy → Nat}

theorem known_iff {c v} : Known c v ↔ (cER c).Old v := by
  cases v with
  | named n => simp [Known, Old]
  | aux t n => cases t <;> simp [Known, Old, cER]

theorem Input.top {f} (h : Input cfg c f) : PTop cfg c f := ⟨h.norm, h.fit, fun v hv => known_iff.1 (h.known v hv)⟩

/-- Results for which nothing is claimed but the semantics. -/
def ResOk (E : List Ent) (c : AuxTy → Nat) (p : Formula × Formula) : Prop := TrI (fun _ => True) E c (It.wk p.1) p.2

theorem resOk_of {S E c f g} {pl} (h : TrI S E c ⟨fun σ => f.eval σ = true, pl, (Occ · f)⟩ g) : ResOk E c (f, g) :=
  ⟨h.sound, h.compl, fun h => h.elim, fun h => h.elim, trivial, h.norm, h.old, h.aux⟩

structure TInv (c : AuxTy → Nat) (w : World) (es : List (CnfAlg × EncSt)) (rs : List (Formula × Formula)) (E : List Ent) : Prop where
  es : ∀ p ∈ es, EncInv E w.cnt p.2
  rs : ∀ p ∈ rs, ResOk E w.cnt p
  w : WInv c w E

theorem TInv.mono {w es rs E w' E'} (h : TInv c w es rs E) (hw : WInv c w' E') (hx : GExt w.cnt E w'.cnt E') : TInv c w' es rs E' :=
  ⟨fun p hp => (h.es p hp).mono hx, fun p hp => TrOk.mono (h.rs p hp) hx, hw⟩

theorem TReach.inv (hcfg : cfg.cc.Good) {w es rs} (h : TReach C cfg c w es rs) : ∃ E, TInv c w es rs E := by
  induction h with
  | fresh => exact ⟨[], by simp, by simp, WInv.fresh c⟩
  | aux _ hle ih =>
    obtain ⟨E, i⟩ := ih
    have hx : GExt _ E _ E := ⟨hle, fun _ h => h⟩
    exact ⟨E, i.mono (i.w.grow (i.w.base.mono hle) hx) hx⟩
  | encoder a st _ ih =>
    obtain ⟨E, i⟩ := ih
    refine ⟨E, fun p hp => ?_, i.rs, i.w⟩
    rcases List.mem_append.1 hp with hp | hp
    · exact i.es p hp
    · rw [List.mem_singleton.1 hp]
      cases st
      · exact EncInv.stateless _ _
      · exact EncInv.new _ _
  | nnf _ hin e ih =>
    obtain ⟨E, i⟩ := ih
    obtain ⟨g', w', E', e', h', x', k'⟩ := nnf_ok (C := C) hcfg i.w hin.top
    rw [e] at e'; injection e' with e'; injection e' with e1 e2; subst e1; subst e2
    have j := i.mono h' x'
    refine ⟨E', j.es, fun p hp => ?_, j.w⟩
    rcases List.mem_cons.1 hp with rfl | hp
    · exact resOk_of k'
    · exact j.rs p hp
  | @factor w es rs o f l r w' l' _ hin e ih =>
    obtain ⟨E, i⟩ := ih
    obtain ⟨r', w2, l2, E', e', h', x', k'⟩ := factorize_ok (C := C) hcfg i.w hin.top o l
    rw [e] at e'; injection e' with e'; injection e' with e1 e2; injection e2 with e2 e3; subst e1; subst e2
    have j := i.mono h' x'
    refine ⟨E', j.es, fun p hp => ?_, j.w⟩
    rcases List.mem_append.1 hp with hp | hp
    · obtain ⟨g, hg, rfl⟩ := List.mem_map.1 hp
      exact resOk_of (k' g (by simpa using hg))
    · exact j.rs p hp
  | @cnf w es rs a s f g s' w' n _ hin hes e ih =>
    obtain ⟨E, i⟩ := ih
    have hs := i.es _ (List.mem_of_getElem? hes)
    obtain ⟨g', s2, w2, E', e', h', x', i', k'⟩ := transform_ok (C := C) hcfg a i.w hs hin.top
    rw [e] at e'; injection e' with e'; injection e' with e1 e2; injection e2 with e2 e3; subst e1; subst e2; subst e3
    have j := i.mono h' x'
    refine ⟨E', fun p hp => ?_, fun p hp => ?_, j.w⟩
    · rcases List.mem_or_eq_of_mem_set hp with hp | rfl
      · exact j.es p hp
      · exact i'
    · rcases List.mem_cons.1 hp with rfl | hp
      · exact resOk_of k'
      · exact j.rs p hp

/-- `f` and `g` have the same value under every assignment, and `g` has no further variables. -/
def SameMeaning (f g : Formula) : Prop := (∀ σ, g.eval σ = f.eval σ) ∧ ∀ v, Occ v g → Occ v f

theorem sameMeaning_of {S E c f g} (h : TrI S E c (It.of true f) g) (hn : NoCon f) : SameMeaning f g := by
  refine ⟨fun σ => ?_, h.vars hn⟩
  rw [Bool.eq_iff_iff]
  exact ⟨h.sound σ, h.plain hn σ⟩

/-- **All results ever computed are jointly correct**: each implies its input, and every assignment of the
variables that existed at the start can be extended to the auxiliary variables such that all results have the
same value as their inputs at once. -/
theorem C14_all_results_conservative (hcfg : cfg.cc.Good) {w es rs} (h : TReach C cfg c w es rs) :
    (∀ p ∈ rs, ∀ σ, p.2.eval σ = true → p.1.eval σ = true) ∧
    ∀ σ : Asg, ∃ σ' : Asg, (∀ v, Known c v → σ' v = σ v) ∧ ∀ p ∈ rs, p.2.eval σ' = p.1.eval σ' := by
  obtain ⟨E, i⟩ := h.inv hcfg
  refine ⟨fun p hp => (i.rs p hp).sound, fun σ => ?_⟩
  obtain ⟨σ', ag, ok⟩ := i.w.base.ext σ
  refine ⟨σ', fun v hv => (ag v (known_iff.1 hv)).symm, fun p hp => ?_⟩
  rw [Bool.eq_iff_iff]
  exact ⟨(i.rs p hp).sound σ', (i.rs p hp).compl σ' ok⟩

/-- For an input over the variables that existed at the start, the result is satisfied by some extension of an
assignment exactly if the assignment satisfies the input. -/
theorem C14_conservative (hcfg : cfg.cc.Good) {w es rs} (h : TReach C cfg c w es rs) {f g} (hm : (f, g) ∈ rs)
    (hf : ∀ v, Occ v f → Known c v) (σ : Asg) :
    (∃ σ' : Asg, (∀ v, Known c v → σ' v = σ v) ∧ g.eval σ' = true) ↔ f.eval σ = true := by
  obtain ⟨h1, h2⟩ := C14_all_results_conservative hcfg h
  constructor
  · rintro ⟨σ', ag, hg⟩
    rw [← Formula.eval_congr fun v hv => ag v (hf v hv)]
    exact h1 _ hm _ hg
  · intro hs
    obtain ⟨σ', ag, hall⟩ := h2 σ
    refine ⟨σ', ag, ?_⟩
    rw [hall _ hm, Formula.eval_congr (τ := σ) fun v hv => ag v (hf v hv)]
    exact hs

/-- **C11**: the NNF never panics, is in negation normal form, implies its input; without constraints
it has the same meaning and variables. (With constraints: `C14_all_results_conservative`.) -/
theorem C11_nnf (hcfg : cfg.cc.Good) {w es rs} (h : TReach C cfg c w es rs) {f} (hin : Input cfg w.cnt f) :
    ∃ g w', nnf C cfg f w = some (g, w') ∧ TReach C cfg c w' es ((f, g) :: rs) ∧ IsNnf g ∧ g.Norm ∧
      (∀ σ, g.eval σ = true → f.eval σ = true) ∧ (NoCon f → SameMeaning f g) := by
  obtain ⟨E, i⟩ := h.inv hcfg
  obtain ⟨g, w', E', e, h', x', k⟩ := nnf_ok (C := C) hcfg i.w hin.top
  exact ⟨g, w', e, .nnf h hin e, k.shape, k.norm, k.sound, sameMeaning_of k⟩

/-- **C12** for both normal forms and any handler: no panic; a result is in normal form and implies the input;
without constraints it has the same meaning and variables. -/
theorem C12_factorization (hcfg : cfg.cc.Good) {w es rs} (h : TReach C cfg c w es rs) {f} (hin : Input cfg w.cnt f) (o : Op) (l : Lim) :
    ∃ r w' l', factorize C cfg o f l w = some (r, w', l') ∧ TReach C cfg c w' es ((r.toList.map fun g => (f, g)) ++ rs) ∧
      ∀ g, r = some g → (o = .conj → IsCnf g) ∧ (o = .disj → IsDnf g) ∧ g.Norm ∧
        (∀ σ, g.eval σ = true → f.eval σ = true) ∧ (NoCon f → SameMeaning f g) := by
  obtain ⟨E, i⟩ := h.inv hcfg
  obtain ⟨r, w', l', E', e, h', x', k⟩ := factorize_ok (C := C) hcfg i.w hin.top o l
  refine ⟨r, w', l', e, .factor h hin e, fun g hg => ?_⟩
  have k := k g hg
  refine ⟨fun ho => ?_, fun ho => ?_, k.norm, k.sound, sameMeaning_of k⟩
  · subst ho; exact k.shape
  · subst ho; exact k.shape

/-- **C12**, without a limiting handler there always is a result. -/
theorem C12_unlimited (hcfg : cfg.cc.Good) {w es rs} (h : TReach C cfg c w es rs) {f} (hin : Input cfg w.cnt f) (o : Op) :
    ∃ g w' l', factorize C cfg o f Lim.nop w = some (some g, w', l') ∧ (o = .conj → IsCnf g) ∧ (o = .disj → IsDnf g) ∧
        (∀ σ, g.eval σ = true → f.eval σ = true) ∧ (NoCon f → SameMeaning f g) := by
  obtain ⟨r, w', l', e, _, k⟩ := C12_factorization (C := C) hcfg h hin o Lim.nop
  obtain ⟨g, rfl, _⟩ := factorize_limits (l := Lim.nop) e
  obtain ⟨k1, k2, _, k4, k5⟩ := k g rfl
  exact ⟨g, w', l', e, k1, k2, k4, k5⟩

/-- One of the handler's limits is exceeded by these counts. -/
def Exceeds (dl cl : Option Nat) (dists clauses : Nat) : Prop := (∃ d, dl = some d ∧ dists > d) ∨ ∃ k, cl = some k ∧ clauses > k

theorem over_iff (l : Lim) : l.Over ↔ Exceeds l.dl l.cl l.dists l.clauses := by
  rcases l with ⟨d, k, _ | dl, _ | cl⟩ <;> simp [Lim.Over, Exceeds, above]

theorem Exceeds.mono {dl cl d k d' k'} (h : Exceeds dl cl d k) (hd : d ≤ d') (hk : k ≤ k') : Exceeds dl cl d' k' := by
  rcases h with ⟨x, e, h⟩ | ⟨x, e, h⟩
  · exact .inl ⟨x, e, Nat.lt_of_lt_of_le h hd⟩
  · exact .inr ⟨x, e, Nat.lt_of_lt_of_le h hk⟩

/-- **C13**: let the unlimited factorization need `n.dists` distributions and create `n.clauses` clauses.
If these exceed a limit the limited factorization aborts, at counts that exceed a limit; otherwise it returns
exactly the same formula and leaves the same state. -/
theorem C13_limits {w es rs} (hcfg : cfg.cc.Good) (h : TReach C cfg c w es rs) {f} (hin : Input cfg w.cnt f) (o : Op) (l : Lim) :
    ∃ g w' n, factorize C cfg o f Lim.nop w = some (some g, w', n) ∧
      ((¬ Exceeds l.dl l.cl n.dists n.clauses ∧ factorize C cfg o f l w = some (some g, w', { n with dl := l.dl, cl := l.cl })) ∨
       (Exceeds l.dl l.cl n.dists n.clauses ∧ ∃ w'' t, factorize C cfg o f l w = some (none, w'', t) ∧
          Exceeds l.dl l.cl t.dists t.clauses ∧ t.dists ≤ n.dists ∧ t.clauses ≤ n.clauses)) := by
  obtain ⟨r, w', n, e, _⟩ := C12_factorization (C := C) hcfg h hin o Lim.nop
  obtain ⟨g, rfl, k⟩ := factorize_limits (l := l) e
  refine ⟨g, w', n, e, ?_⟩
  rcases k with ⟨k1, k2⟩ | ⟨w'', t, k1, k2, k3, k4, k5, k6⟩
  · exact .inl ⟨fun hx => k2 ((over_iff _).2 hx), k1⟩
  · rw [over_iff, k3, k4] at k2
    exact .inr ⟨k2.mono k5 k6, w'', t, k1, k2, k5, k6⟩

/-- **C14/C15** for every algorithm of `CnfEncoder` but `Bdd`: no panic, a CNF, implying its input. (Extension of
models: `C14_conservative`, `C14_all_results_conservative`.) -/
theorem C15_cnf_encoder (hcfg : cfg.cc.Good) {w es rs} (h : TReach C cfg c w es rs) {f} (hin : Input cfg w.cnt f)
    {i : Nat} {a s} (he : es[i]? = some (a, s)) :
    ∃ g s' w', a.transform C cfg f s w = some (g, s', w') ∧ TReach C cfg c w' (es.set i (a, s')) ((f, g) :: rs) ∧
      IsCnf g ∧ g.Norm ∧ (∀ σ, g.eval σ = true → f.eval σ = true) ∧
      ((∀ v, Occ v f → Known c v) → ∀ σ, f.eval σ = true → ∃ σ' : Asg, (∀ v, Known c v → σ' v = σ v) ∧ g.eval σ' = true) := by
  obtain ⟨E, j⟩ := h.inv hcfg
  obtain ⟨g, s', w', E', e, h', x', i', k⟩ := transform_ok (C := C) hcfg a j.w (j.es _ (List.mem_of_getElem? he)) hin.top
  have hr : TReach C cfg c w' (es.set i (a, s')) ((f, g) :: rs) := .cnf i h hin he e
  exact ⟨g, s', w', e, hr, k.shape, k.norm, k.sound, fun hf σ hs => (C14_conservative hcfg hr (by simp) hf σ).2 hs⟩

/-- The Plaisted-Greenbaum case of it, in the words of C15. -/
theorem C15_plaisted_greenbaum (hcfg : cfg.cc.Good) {w es rs} (h : TReach C cfg c w es rs) {f} (hin : Input cfg w.cnt f)
    (hf : ∀ v, Occ v f → Known c v) {i b : Nat} {s} (he : es[i]? = some (.pg b, s)) :
    ∃ g s' w', (CnfAlg.pg b).transform C cfg f s w = some (g, s', w') ∧ IsCnf g ∧
      ∀ σ, (∃ σ' : Asg, (∀ v, Known c v → σ' v = σ v) ∧ g.eval σ' = true) ↔ f.eval σ = true := by
  obtain ⟨g, s', w', e, hr, k1, _⟩ := C15_cnf_encoder (C := C) hcfg h hin he
  exact ⟨g, s', w', e, k1, C14_conservative hcfg hr (by simp) hf⟩

/-- **C14**: the Tseitin CNF; without constraints the extension is unique: two models of the CNF that agree on the
variables of the input agree on all variables of the CNF. -/
theorem C14_tseitin (hcfg : cfg.cc.Good) {w es rs} (h : TReach C cfg c w es rs) {f} (hin : Input cfg w.cnt f)
    (hf : ∀ v, Occ v f → Known c v) {i b : Nat} {s} (he : es[i]? = some (.tseitin b, s)) :
    ∃ g s' w', (CnfAlg.tseitin b).transform C cfg f s w = some (g, s', w') ∧ IsCnf g ∧
      (∀ σ, (∃ σ' : Asg, (∀ v, Known c v → σ' v = σ v) ∧ g.eval σ' = true) ↔ f.eval σ = true) ∧
      (NoCon f → ∀ σ τ, g.eval σ = true → g.eval τ = true → (∀ v, Occ v f → σ v = τ v) → ∀ v, Occ v g → σ v = τ v) := by
  obtain ⟨g, s', w', e, hr, k1, _⟩ := C15_cnf_encoder (C := C) hcfg h hin he
  refine ⟨g, s', w', e, k1, C14_conservative hcfg hr (by simp) hf, fun hn => ?_⟩
  unfold CnfAlg.transform at e
  split at e
  · injection e with e; injection e with e _; subst e
    intro σ τ _ _ ag v hv; exact ag v hv
  · obtain ⟨E, j⟩ := h.inv hcfg
    have hi := j.es _ (List.mem_of_getElem? he)
    have ht : TsInv E w.cnt (s.ts.getD .empty) := by
      cases hs : s.ts with
      | none => exact TsInv.empty _ _
      | some t => exact hi.ts t hs
    obtain ⟨g', t, w2, E', e', _, _, _, _, hu⟩ := tseitin_ok (C := C) hcfg j.w ht b hin.top
    rw [e'] at e
    simp only [Option.map_some, Option.some.injEq, Prod.mk.injEq] at e
    obtain ⟨rfl, _⟩ := e
    exact (hu hn).1

end

/-! ### The hypotheses are met -/

/-- `(~(a & b) <=> c) | (d & e & ~a)` and a pseudo-Boolean constraint. -/
def exT : Formula :=
  .nary .disj [.equiv (.not (.nary .conj [.lit ⟨.named 0, true⟩, .lit ⟨.named 1, true⟩])) (.lit ⟨.named 2, true⟩),
    .nary .conj [.lit ⟨.named 3, true⟩, .lit ⟨.named 4, true⟩, .lit ⟨.named 0, false⟩]]
def exTc : Formula := .nary .disj [.lit ⟨.named 5, true⟩, .pbc ⟨[(⟨.named 0, true⟩, 3), (⟨.named 1, false⟩, -2), (⟨.named 2, true⟩, 4)], .le, 2⟩]

/-- All transformations of a sample run succeed: results of each transformation, in one state. -/
def exRun (a : CnfAlg) (on : Bool) : Option (List (Formula × Formula)) := do
  let cfg := exFCfg .swc on
  let w := World.fresh fun _ => 7
  let (g1, w) ← nnf canon0 cfg exT w
  let (g2, w, _) ← factorize canon0 cfg .disj exT Lim.nop w
  let (g3, w, _) ← factorize canon0 cfg .conj exT ⟨0, 0, some 1, some 3⟩ w
  let (g4, s, w) ← a.transform canon0 cfg exT .new w
  let (g5, s, w) ← a.transform canon0 cfg exTc s w
  let (g6, _, _) ← a.transform canon0 cfg (.nary .conj [exT, exTc]) s w
  some [(exT, g1), (exT, g2.getD .tru), (exT, g3.getD .tru), (exT, g4), (exTc, g5), (.nary .conj [exT, exTc], g6)]

/-- Sizes of the results: the limited factorization (third) has aborted; Tseitin and Plaisted-Greenbaum introduce variables. -/
def exSizes (a : CnfAlg) (on : Bool) : List (Nat × Bool) :=
  ((exRun a on).getD []).map fun p => (p.2.operands.length, p.2.isCnfF)

example : exSizes (.tseitin 0) true = [(2, false), (4, false), (0, true), (18, true), (88, true), (112, true)] := by decide +kernel
example : exSizes (.pg 0) true = [(2, false), (4, false), (0, true), (10, true), (43, true), (55, true)] := by decide +kernel
example : exSizes (.advanced 2 3 (.tseitin 2)) false = [(2, false), (4, false), (0, true), (18, true), (88, true), (106, true)] := by decide +kernel

theorem noCon_node {f : Formula} (h : (∀ c, f ≠ .cc c) ∧ ∀ p, f ≠ .pbc p) (ho : ∀ g ∈ f.operands, NoCon g) : NoCon f := by
  intro g hg
  rcases sub_operands.1 hg with rfl | ⟨k, hk, hs⟩
  · exact h
  · exact ho k hk g hs

theorem exT_input : Input (exFCfg .swc true) (fun _ => 7) exT ∧ NoCon exT := by
  have hn : NoCon exT := by
    have hl : ∀ l, NoCon (.lit l) := fun l => noCon_node (by simp) (by simp [Formula.operands])
    refine noCon_node (by simp [exT]) ?_
    simp only [exT, Formula.operands, List.mem_cons, List.not_mem_nil, or_false, forall_eq_or_imp, forall_eq]
    refine ⟨noCon_node (by simp) ?_, noCon_node (by simp) ?_⟩
    · simp only [Formula.operands, List.mem_cons, List.not_mem_nil, or_false, forall_eq_or_imp, forall_eq]
      refine ⟨noCon_node (by simp) ?_, hl _⟩
      simp only [Formula.operands, List.mem_cons, List.not_mem_nil, or_false, forall_eq]
      refine noCon_node (by simp) ?_
      simp [Formula.operands, hl]
    · simp [Formula.operands, hl]
  refine ⟨⟨?_, ⟨fun c hc => absurd rfl ((hn _ hc).1 c), fun p hp => absurd rfl ((hn _ hp).2 p)⟩, fun v hv => ?_⟩, hn⟩
  · have e : exT = Formula.mkOr canon0 [Formula.mkEquiv canon0 (Formula.mkNot (Formula.mkAnd canon0 [.lit ⟨.named 0, true⟩, .lit ⟨.named 1, true⟩])) (.lit ⟨.named 2, true⟩),
        Formula.mkAnd canon0 [.lit ⟨.named 3, true⟩, .lit ⟨.named 4, true⟩, .lit ⟨.named 0, false⟩]] := by decide +kernel
    have hl : ∀ ls : List Lit, ∀ f ∈ ls.map Formula.lit, f.Norm := fun ls f hf => by obtain ⟨l, _, rfl⟩ := List.mem_map.1 hf; exact .lit l
    rw [e]
    refine Formula.norm_mkNary _ _ fun f hf => ?_
    simp only [List.mem_cons, List.not_mem_nil, or_false] at hf
    rcases hf with rfl | rfl
    · exact Formula.norm_mkEquiv _ (Formula.norm_mkNot (Formula.norm_mkNary _ _ (hl [⟨.named 0, true⟩, ⟨.named 1, true⟩]))) (.lit _)
    · exact Formula.norm_mkNary _ _ (hl [⟨.named 3, true⟩, ⟨.named 4, true⟩, ⟨.named 0, false⟩])
  · simp [exT] at hv
    rcases hv with h | h <;> (repeat' (rcases h with h | h)) <;> subst_vars <;> trivial

theorem exTc_input : Input (exFCfg .swc true) (fun _ => 7) exTc := by
  have hs : ∀ g, Sub g exTc → g = exTc ∨ g = .lit ⟨.named 5, true⟩ ∨ g = .pbc ⟨[(⟨.named 0, true⟩, 3), (⟨.named 1, false⟩, -2), (⟨.named 2, true⟩, 4)], .le, 2⟩ := by
    intro g hg
    rcases sub_operands.1 hg with h | ⟨k, hk, hs⟩
    · exact .inl h
    · simp only [exTc, Formula.operands, List.mem_cons, List.not_mem_nil, or_false] at hk
      rcases hk with rfl | rfl
      · rcases sub_operands.1 hs with h | ⟨k, hk, hs⟩
        · exact .inr (.inl h)
        · simp [Formula.operands] at hk
      · rcases sub_operands.1 hs with h | ⟨k, hk, hs⟩
        · exact .inr (.inr h)
        · simp [Formula.operands] at hk
  refine ⟨.nary (by decide) ?_ ⟨by decide, by decide, ?_, ?_, ?_⟩, ⟨fun c hc => ?_, fun p hp => ?_⟩, fun v hv => ?_⟩
  · intro f hf
    simp only [List.mem_cons, List.not_mem_nil, or_false] at hf
    rcases hf with rfl | rfl
    · exact .lit _
    · exact .pbc ⟨by decide, by decide, by unfold I64; decide, by unfold I64; decide⟩
  · intro f hf; simp at hf; rcases hf with rfl | rfl <;> simp
  · intro l hl; simp at hl; subst hl; simp [Lit.neg]
  · intro f hf; simp at hf
  · rcases hs _ hc with h | h | h <;> simp [exTc] at h
  · rcases hs _ hp with h | h | h
    · simp [exTc] at h
    · simp at h
    · injection h with h; subst h; exact ⟨by decide, by decide, fun _ => by decide⟩
  · simp [exTc] at hv
    rcases hv with rfl | rfl | rfl | rfl <;> trivial

/-- So the theorems apply, e.g., to the second call of a stateful Tseitin encoder after an NNF. -/
example : ∃ w es rs, TReach canon0 (exFCfg .swc true) (fun _ => 7) w es rs ∧ rs.length = 2 ∧ es.length = 1 ∧ Input (exFCfg .swc true) w.cnt exTc := by
  have hc : (exFCfg .swc true).cc.Good := trivial
  obtain ⟨g1, w1, _, r1, _⟩ := C11_nnf (C := canon0) hc .fresh exT_input.1
  have mono : ∀ {w : World}, (∀ t, 7 ≤ w.cnt t) → ∀ {f}, Input (exFCfg .swc true) (fun _ => 7) f → Input (exFCfg .swc true) w.cnt f := by
    intro w hw f h
    refine ⟨h.norm, h.fit, fun v hv => ?_⟩
    have := h.known v hv
    rcases v with n | ⟨t, n⟩
    · trivial
    · cases t <;> first | exact this | exact Nat.lt_of_lt_of_le this (hw _)
  have le : ∀ {w es rs}, TReach canon0 (exFCfg .swc true) (fun _ => 7) w es rs → ∀ t, 7 ≤ w.cnt t := by
    intro w es rs h
    obtain ⟨E, i⟩ := h.inv hc
    exact i.w.base.le
  have r2 := TReach.encoder (.tseitin 0) true r1
  obtain ⟨g3, s3, w3, _, r3, _⟩ := C15_cnf_encoder (i := 0) hc r2 (mono (le r2) exT_input.1) rfl
  exact ⟨_, _, _, r3, rfl, rfl, mono (le r3) exTc_input⟩

end Verif
