import Verif.Ext.MaxSat
import Verif.Props.Transform
import Verif.Props.Core
/-
C61: the MaxSAT solver translates formulas such that a right answer of the external library for the clauses is a
right answer for the formulas.
-/
namespace Verif.MaxSat
open ER

/-! ### Specification -/

/-- All hard formulas hold. -/
def Holds (H : List Formula) (σ : Asg) : Prop := ∀ h ∈ H, h.eval σ = true

/-- Weights of the soft formulas that do not hold. -/
def costF (S : List (Nat × Formula)) (σ : Asg) : Nat := (S.map fun p => if p.2.eval σ then 0 else p.1).sum

/-- The least cost of a model of the hard formulas. -/
def IsMin (H : List Formula) (S : List (Nat × Formula)) (k : Nat) : Prop :=
  (∃ σ, Holds H σ ∧ costF S σ = k) ∧ ∀ σ, Holds H σ → k ≤ costF S σ

/-- A formula of the user, in factory states with counters `c` or more: it uses variables that exist at the start, and no
selector. -/
def User (sel : Nat → Var) (c : AuxTy → Nat) (f : Formula) : Prop := ∀ v, Occ v f → Known c v ∧ ∀ n, v ≠ sel n

/-- Other uses of the factory. -/
inductive FStep (C : Canon) (cfg : FCfg) : World → List (CnfAlg × EncSt) → World → List (CnfAlg × EncSt) → Prop
  | aux {w es c'} : (∀ t, w.cnt t ≤ c' t) → FStep C cfg w es { w with cnt := c' } es
  | encoder {w es} (a : CnfAlg) (stateful : Bool) : FStep C cfg w es w (es ++ [(a, if stateful then .new else .stateless)])
  | nnf {w es f g w'} : Input cfg w.cnt f → nnf C cfg f w = some (g, w') → FStep C cfg w es w' es
  | factor {w es o f l r w' l'} : Input cfg w.cnt f → factorize C cfg o f l w = some (r, w', l') → FStep C cfg w es w' es
  | cnf {w es a s f g s' w'} (i : Nat) : Input cfg w.cnt f → es[i]? = some (a, s) → a.transform C cfg f s w = some (g, s', w') →
      FStep C cfg w es w' (es.set i (a, s'))

/-- A solver (`wt`: weights allowed) to which the hard formulas `H` and the soft formulas `S` have been added, in any
order, with other uses of the factory in between, and with soft formulas that were refused. -/
inductive Runs (C : Canon) (cfg : FCfg) (sel : Nat → Var) (wt : Bool) (c : AuxTy → Nat) :
    World → List (CnfAlg × EncSt) → Solver → List Formula → List (Nat × Formula) → Prop
  | new {w es rs} : TReach C cfg c w es rs → Runs C cfg sel wt c w es (.new wt) [] []
  | factory {w es s H S w' es'} : Runs C cfg sel wt c w es s H S → FStep C cfg w es w' es' → Runs C cfg sel wt c w' es' s H S
  | hard {w es s H S f s' w'} (alg : CnfAlg) : Runs C cfg sel wt c w es s H S → Input cfg w.cnt f → User sel c f →
      s.addHard C cfg alg f w = some (s', w') → Runs C cfg sel wt c w' es s' (f :: H) S
  | soft {w es s H S n f s' w'} (alg : CnfAlg) : Runs C cfg sel wt c w es s H S → Input cfg w.cnt f → User sel c f →
      s.addSoft C cfg alg sel n f w = some (true, s', w') → Runs C cfg sel wt c w' es s' H ((n, f) :: S)
  | refused {w es s H S n f s' w'} (alg : CnfAlg) : Runs C cfg sel wt c w es s H S → Input cfg w.cnt f → User sel c f →
      s.addSoft C cfg alg sel n f w = some (false, s', w') → Runs C cfg sel wt c w' es s' H S

/-! ### Adding clauses -/

structure Wf (s : Solver) : Prop where
  nodup : s.vars.Nodup
  len : s.prob.nVars = s.vars.length

/-- `s'` is `s` with clauses that say `φ` and soft clauses of cost `k`. -/
structure Adds (s s' : Solver) (φ : Asg → Prop) (k : Asg → Nat) : Prop where
  wf : Wf s'
  pre : s.vars <+: s'.vars
  sels : s'.sels = s.sels
  wt : s'.weighted = s.weighted
  status : s'.status = s.status
  model : s'.model = s.model
  ok : ∀ ρ σ, Agr s'.vars ρ σ → (s'.prob.Ok ρ ↔ s.prob.Ok ρ ∧ φ σ)
  cost : ∀ ρ σ, Agr s'.vars ρ σ → s'.prob.cost ρ = s.prob.cost ρ + k σ

theorem Adds.refl {s : Solver} (h : Wf s) : Adds s s (fun _ => True) (fun _ => 0) :=
  ⟨h, List.prefix_rfl, rfl, rfl, rfl, rfl, by simp, by simp⟩

theorem Adds.trans {a b c : Solver} {φ ψ k l} (h : Adds a b φ k) (h' : Adds b c ψ l) : Adds a c (fun σ => φ σ ∧ ψ σ) (fun σ => k σ + l σ) where
  wf := h'.wf
  pre := h.pre.trans h'.pre
  sels := h'.sels.trans h.sels
  wt := h'.wt.trans h.wt
  status := h'.status.trans h.status
  model := h'.model.trans h.model
  ok ρ σ ha := by rw [h'.ok ρ σ ha, h.ok ρ σ (ha.prefix h'.pre), and_assoc]
  cost ρ σ ha := by rw [h'.cost ρ σ ha, h.cost ρ σ (ha.prefix h'.pre), Nat.add_assoc]

theorem Adds.congr {a b : Solver} {φ ψ k l} (h : Adds a b φ k) (h1 : ∀ σ, φ σ ↔ ψ σ) (h2 : ∀ σ, k σ = l σ) : Adds a b ψ l :=
  ⟨h.wf, h.pre, h.sels, h.wt, h.status, h.model, fun ρ σ ha => by rw [h.ok ρ σ ha, h1], fun ρ σ ha => by rw [h.cost ρ σ ha, h2]⟩

theorem clause_any {f : Formula} (hf : IsClause f) (ht : f ≠ .tru) (σ : Asg) : (fnLits.val f).any (Lit.eval σ) = f.eval σ := by
  rw [Bool.eq_iff_iff, ← clause_eval clauseLits_fn hf ht σ, List.any_eq_true]
  rfl

theorem addHardC_ok {s : Solver} (h : Wf s) {f : Formula} (hf : IsClause f) (ht : f ≠ .tru) :
    Adds s (s.addHardC f) (fun σ => f.eval σ = true) (fun _ => 0) := by
  obtain ⟨h1, h2, h3, h4⟩ := conv_ok (fnLits.val f) h.nodup
  rw [← h.len] at h1 h2 h3 h4
  refine ⟨⟨h2, h3⟩, h1, rfl, rfl, rfl, rfl, fun ρ σ ha => ?_, fun ρ σ _ => rfl⟩
  have e := h4 ρ σ ha
  rw [clause_any hf ht] at e
  show (∀ c ∈ s.prob.hard ++ [(conv (fnLits.val f) s.vars s.prob.nVars).1], _) ↔ _
  rw [List.forall_mem_append, List.forall_mem_singleton, e]; rfl

theorem addSoftC_ok {s : Solver} (h : Wf s) {f : Formula} (hf : IsClause f) (ht : f ≠ .tru) (n : Nat) :
    Adds s (s.addSoftC n f).2 (fun _ => True) (fun σ => if (s.addSoftC n f).1 then (if f.eval σ then 0 else n) else 0) := by
  unfold Solver.addSoftC
  split
  · exact (Adds.refl h).congr (fun _ => Iff.rfl) fun _ => rfl
  · obtain ⟨h1, h2, h3, h4⟩ := conv_ok (fnLits.val f) h.nodup
    rw [← h.len] at h1 h2 h3 h4
    refine ⟨⟨h2, h3⟩, h1, rfl, rfl, rfl, rfl, fun ρ σ ha => (by rw [and_true]; rfl), fun ρ σ ha => ?_⟩
    have e := h4 ρ σ ha
    rw [clause_any hf ht] at e
    show (List.map _ (s.prob.soft ++ [(n, (conv (fnLits.val f) s.vars s.prob.nVars).1)])).sum = _
    rw [List.map_append, List.sum_append, List.map_singleton, List.sum_singleton, e]; rfl

theorem addSoftC_iff {s : Solver} {n : Nat} {f : Formula} : (s.addSoftC n f).1 = true ↔ 1 ≤ n ∧ (s.weighted = false → n = 1) := by
  unfold Solver.addSoftC
  cases s.weighted
  · split <;> simp_all <;> omega
  · split <;> simp_all <;> omega

theorem addAll_ok : ∀ (fs : List Formula) {s : Solver}, Wf s → (∀ f ∈ fs, IsClause f ∧ f ≠ .tru) →
    Adds s (fs.foldl Solver.addHardC s) (fun σ => ∀ f ∈ fs, f.eval σ = true) (fun _ => 0)
  | [], s, h, _ => (Adds.refl h).congr (by simp) fun _ => rfl
  | f :: fs, s, h, hf => by
    have a := addHardC_ok h (hf f (by simp)).1 (hf f (by simp)).2
    have b := addAll_ok fs a.wf fun g hg => hf g (List.mem_cons_of_mem _ hg)
    exact (a.trans b).congr (by simp) fun _ => rfl

theorem addCnf_ok {s : Solver} (h : Wf s) {g : Formula} (hc : IsCnf g) (hn : g.Norm) :
    ∃ s', s.addCnf g = some s' ∧ Adds s s' (fun σ => g.eval σ = true) (fun _ => 0) := by
  cases hc with
  | clause hc =>
    cases hc with
    | tru => exact ⟨s, rfl, (Adds.refl h).congr (by simp) fun _ => rfl⟩
    | fls => exact ⟨_, rfl, addHardC_ok h .fls (by simp)⟩
    | lit l => exact ⟨_, rfl, addHardC_ok h (.lit l) (by simp)⟩
    | or hc => exact ⟨_, rfl, addHardC_ok h (.or hc) (by simp)⟩
  | @and fs hc =>
    have ht : ∀ f ∈ fs, f ≠ .tru := by
      cases hn with
      | nary _ _ h =>
        rintro f hf rfl
        exact absurd (h.notConst _ hf) (by simp [Formula.isConst])
    refine ⟨_, rfl, (addAll_ok fs h fun f hf => ⟨hc f hf, ht f hf⟩).congr (fun σ => ?_) fun _ => rfl⟩
    simp [Op.eval, List.all_eq_true]

theorem fit_mkNeg {C : Canon} {cfg : FCfg} {f : Formula} (h : Fit cfg f) : Fit cfg (Formula.mkNeg C f) := by
  have hl : ∀ g : Formula, g.operands = [] → ¬ IsCon g → Fit cfg g := fun g hg hc =>
    ⟨fun c hs => by
      rcases sub_operands.1 hs with e | ⟨_, h, _⟩
      · exact absurd (.inl ⟨c, e.symm⟩) hc
      · rw [hg] at h; exact (nomatch h),
     fun p hs => by
      rcases sub_operands.1 hs with e | ⟨_, h, _⟩
      · exact absurd (.inr ⟨p, e.symm⟩) hc
      · rw [hg] at h; cases h⟩
  have hnot : ∀ g : Formula, Fit cfg g → Fit cfg (.not g) := fun g hg =>
    ⟨fun c hs => by
      rcases sub_operands.1 hs with e | ⟨k, h, h'⟩
      · cases e
      · simp only [Formula.operands, List.mem_singleton] at h; subst h; exact hg.cc c h',
     fun p hs => by
      rcases sub_operands.1 hs with e | ⟨k, h, h'⟩
      · cases e
      · simp only [Formula.operands, List.mem_singleton] at h; subst h; exact hg.pbc p h'⟩
  cases f with
  | pbc p => exact (mkNeg_con (.inr ⟨p, rfl⟩) h).1
  | cc p => exact (mkNeg_con (.inl ⟨p, rfl⟩) h).1
  | not g => exact h.sub (sub_operands.2 (.inr ⟨g, by simp [Formula.operands], .refl _⟩))
  | lit l => exact hl _ rfl (by simp [IsCon, Formula.mkNeg])
  | tru => exact hl _ rfl (by simp [IsCon, Formula.mkNeg])
  | fls => exact hl _ rfl (by simp [IsCon, Formula.mkNeg])
  | equiv a b => exact hnot _ h
  | impl a b => exact hnot _ h
  | nary o fs => exact hnot _ h

theorem fit_lit {cfg : FCfg} (l : Lit) : Fit cfg (.lit l) :=
  ⟨fun c hs => by
    rcases sub_operands.1 hs with e | ⟨_, h, _⟩
    · cases e
    · simp [Formula.operands] at h,
   fun p hs => by
    rcases sub_operands.1 hs with e | ⟨_, h, _⟩
    · cases e
    · simp [Formula.operands] at h⟩

section
variable {C : Canon} {cfg : FCfg} {c : AuxTy → Nat} {sel : Nat → Var} {wt : Bool}

theorem FStep.inv (hcfg : cfg.cc.Good) {w es w' es' G E} (i : TInv c w es G E) (h : FStep C cfg w es w' es') : ∃ E', TInv c w' es' G E' := by
  cases h with
  | aux hle =>
    have hx : GExt _ E _ E := ⟨hle, fun _ h => h⟩
    exact ⟨E, i.mono (i.w.grow (i.w.base.mono hle) hx) hx⟩
  | encoder a st =>
    refine ⟨E, fun p hp => ?_, i.rs, i.w⟩
    rcases List.mem_append.1 hp with hp | hp
    · exact i.es p hp
    · rw [List.mem_singleton.1 hp]
      cases st
      · exact EncInv.stateless _ _
      · exact EncInv.new _ _
  | nnf hin e =>
    obtain ⟨g', w', E', e', h', x', k'⟩ := nnf_ok (C := C) hcfg i.w hin.top
    rw [e] at e'; injection e' with e'; injection e' with e1 e2; subst e1; subst e2
    exact ⟨E', i.mono h' x'⟩
  | @factor o f l r _ l' hin e =>
    obtain ⟨r', w2, l2, E', e', h', x', k'⟩ := factorize_ok (C := C) hcfg i.w hin.top o l
    rw [e] at e'; injection e' with e'; injection e' with e1 e2; injection e2 with e2 e3; subst e1; subst e2
    exact ⟨E', i.mono h' x'⟩
  | @cnf a s f g s' _ n hin hes e =>
    have hs := i.es _ (List.mem_of_getElem? hes)
    obtain ⟨g', s2, w2, E', e', h', x', i', k'⟩ := transform_ok (C := C) hcfg a i.w hs hin.top
    rw [e] at e'; injection e' with e'; injection e' with e1 e2; injection e2 with e2 e3; subst e1; subst e2; subst e3
    have j := i.mono h' x'
    refine ⟨E', fun p hp => ?_, j.rs, j.w⟩
    rcases List.mem_or_eq_of_mem_set hp with hp | rfl
    · exact j.es p hp
    · exact i'

/-- Adding one formula: its CNF `g` is added. -/
theorem addHard_ok (hcfg : cfg.cc.Good) {w es G E s} (i : TInv c w es G E) (hs : Wf s) {f} (hin : Input cfg w.cnt f) (alg : CnfAlg) :
    ∃ s' w' g E', s.addHard C cfg alg f w = some (s', w') ∧ TInv c w' es ((f, g) :: G) E' ∧ (∀ t, w.cnt t ≤ w'.cnt t) ∧
      Adds s s' (fun σ => g.eval σ = true) (fun _ => 0) := by
  obtain ⟨g, st, w', E', e, h', x', i', k⟩ := transform_ok (C := C) hcfg alg i.w (EncInv.stateless _ _) hin.top
  obtain ⟨s', e2, a⟩ := addCnf_ok hs k.shape k.norm
  have j := i.mono h' x'
  refine ⟨s', w', g, E', by simp [Solver.addHard, cnfOf, e, e2], ⟨j.es, fun p hp => ?_, j.w⟩, x'.1, a⟩
  rcases List.mem_cons.1 hp with rfl | hp
  · exact resOk_of k
  · exact j.rs p hp

/-- The invariant.  `G`: formulas turned into hard clauses, with their CNFs; `D`: selectors with their formulas. -/
structure MInv (wt : Bool) (sel : Nat → Var) (c : AuxTy → Nat) (w : World) (es : List (CnfAlg × EncSt)) (s : Solver) (H : List Formula) (S : List (Nat × Formula))
    (G : List (Formula × Formula)) (D : List (Var × Formula)) (E : List Ent) : Prop where
  t : TInv c w es G E
  wf : Wf s
  ok : ∀ ρ σ, Agr s.vars ρ σ → (s.prob.Ok ρ ↔ ∀ p ∈ G, p.2.eval σ = true)
  mean : ∀ σ, (∀ p ∈ G, p.1.eval σ = true) ↔ Holds H σ ∧ ∀ d ∈ D, σ d.1 = d.2.eval σ
  cost : ∀ ρ σ, Agr s.vars ρ σ → (∀ d ∈ D, σ d.1 = d.2.eval σ) → s.prob.cost ρ = costF S σ
  fst : D.map (·.1) = s.sels
  sels : s.sels = (List.range D.length).map sel
  userH : ∀ f ∈ H, User sel c f
  userD : ∀ d ∈ D, User sel c d.2
  userS : ∀ p ∈ S, User sel c p.2
  cnt : ∀ t, c t ≤ w.cnt t
  status : s.status = .unknown
  model : s.model = none
  wt : s.weighted = wt

theorem isSoftClause_ok {f : Formula} (hn : f.Norm) (h : isSoftClause f = true) : IsClause f ∧ f ≠ .tru := by
  unfold isSoftClause at h
  split at h
  · exact ⟨.lit _, by simp⟩
  · have := (isCnfF_iff hn).1 h
    cases this with
    | clause h => exact ⟨h, by simp⟩
  · cases h

theorem MInv.hard (hcfg : cfg.cc.Good) {w es s H S G D E} (i : MInv wt sel c w es s H S G D E) {f} (hin : Input cfg w.cnt f) (hu : User sel c f) (alg : CnfAlg) :
    ∃ s' w' G' E', s.addHard C cfg alg f w = some (s', w') ∧ MInv wt sel c w' es s' (f :: H) S G' D E' := by
  obtain ⟨s', w', g, E', e, t, le, a⟩ := addHard_ok (C := C) hcfg i.t i.wf hin alg
  refine ⟨s', w', (f, g) :: G, E', e, ⟨t, a.wf, fun ρ σ ha => ?_, fun σ => ?_, fun ρ σ ha hd => ?_, by rw [a.sels]; exact i.fst, by rw [a.sels]; exact i.sels,
    ?_, i.userD, i.userS, fun t => Nat.le_trans (i.cnt t) (le t), by rw [a.status]; exact i.status, by rw [a.model]; exact i.model, by rw [a.wt]; exact i.wt⟩⟩
  · rw [a.ok ρ σ ha, i.ok ρ σ (ha.prefix a.pre), List.forall_mem_cons, and_comm]
  · rw [List.forall_mem_cons, i.mean, ← and_assoc]
    simp only [Holds, List.forall_mem_cons]
  · rw [a.cost ρ σ ha]; exact i.cost ρ σ (ha.prefix a.pre) hd
  · exact List.forall_mem_cons.2 ⟨hu, i.userH⟩

theorem MInv.soft (hcfg : cfg.cc.Good) (hs : ∀ m n, sel m = sel n → m = n) (hname : ∀ n, ∃ k, sel n = .named k) {w es s H S G D E}
    (i : MInv wt sel c w es s H S G D E) {f} (hin : Input cfg w.cnt f) (hu : User sel c f) (alg : CnfAlg) (n : Nat) :
    ∃ b s' w' G' D' E', s.addSoft C cfg alg sel n f w = some (b, s', w') ∧ MInv wt sel c w' es s' H (if b then (n, f) :: S else S) G' D' E' ∧
      (b = true ↔ 1 ≤ n ∧ (wt = false → n = 1)) := by
  unfold Solver.addSoft
  split
  · rename_i hc
    obtain ⟨h1, h2⟩ := isSoftClause_ok hin.norm hc
    have a := addSoftC_ok i.wf h1 h2 n
    refine ⟨_, _, _, G, D, E, rfl, ⟨?_, ?_⟩⟩
    rotate_left
    · rw [addSoftC_iff, i.wt]
    refine ⟨i.t, a.wf, fun ρ σ ha => ?_, i.mean, fun ρ σ ha hd => ?_, by rw [a.sels]; exact i.fst, by rw [a.sels]; exact i.sels,
      i.userH, i.userD, ?_, i.cnt, by rw [a.status]; exact i.status, by rw [a.model]; exact i.model, by rw [a.wt]; exact i.wt⟩
    · rw [a.ok ρ σ ha, i.ok ρ σ (ha.prefix a.pre), and_true]
    · rw [a.cost ρ σ ha, i.cost ρ σ (ha.prefix a.pre) hd]
      split
      · simp [costF, Nat.add_comm]
      · rfl
    · split
      · exact List.forall_mem_cons.2 ⟨hu, i.userS⟩
      · exact i.userS
  · have hlen : s.sels.length = D.length := by rw [i.sels]; simp
    have hx : sel s.sels.length ∉ s.sels := by
      rw [hlen, i.sels]
      intro hm
      obtain ⟨k, hk, e⟩ := List.mem_map.1 hm
      have := hs _ _ e
      rw [List.mem_range] at hk; omega
    obtain ⟨k, hk⟩ := hname s.sels.length
    generalize hxe : sel s.sels.length = x at *
    simp only [if_neg hx]
    have kn : ∀ c', Known c' x := fun c' => by rw [hk]; trivial
    have in1 : ∀ l : Lit, l.v = x → ∀ g, Input cfg w.cnt g → ∀ fs, (∀ h ∈ fs, h = .lit l ∨ h = g) → Input cfg w.cnt (Formula.mkOr C fs) := by
      intro l hl g hg fs hfs
      refine ⟨Formula.norm_mkNary _ _ fun h hh => ?_, Fit.mkNary fun h hh => ?_, fun v hv => ?_⟩
      · rcases hfs h hh with rfl | rfl
        · exact .lit _
        · exact hg.norm
      · rcases hfs h hh with rfl | rfl
        · exact fit_lit _
        · exact hg.fit
      · obtain ⟨h, hh, ho⟩ := Formula.occ_mkNary hv
        rcases hfs h hh with rfl | rfl
        · rw [Formula.occ_lit] at ho
          rw [← ho, hl]; exact kn _
        · exact hg.known v ho
    have hneg : Input cfg w.cnt (Formula.mkNeg C f) := ⟨Formula.norm_mkNeg _ hin.norm, fit_mkNeg hin.fit, fun v hv => hin.known v (Formula.occ_mkNeg hv)⟩
    have i1 := in1 x.n rfl f hin [.lit x.n, f] (by simp)
    have i2 := in1 x.p rfl _ hneg [Formula.mkNeg C f, .lit x.p] (by simp)
    have wf0 : Wf { s with sels := s.sels ++ [x] } := ⟨i.wf.nodup, i.wf.len⟩
    obtain ⟨s1, w1, g1, E1, e1, t1, le1, a1⟩ := addHard_ok (C := C) hcfg i.t wf0 i1 alg
    obtain ⟨s2, w2, g2, E2, e2, t2, le2, a2⟩ := addHard_ok (C := C) hcfg t1 a1.wf (Sat.Input.le i2 le1) alg
    have a3 := addSoftC_ok a2.wf (.lit x.p) (by simp) n
    have a := (a1.trans a2).trans a3
    have hsel : (s2.addSoftC n (.lit x.p)).2.sels = s.sels ++ [x] := a.sels
    refine ⟨_, _, _, (Formula.mkOr C [Formula.mkNeg C f, .lit x.p], g2) :: (Formula.mkOr C [.lit x.n, f], g1) :: G, D ++ [(x, f)], E2, by rw [e1, Option.bind_some, e2]; rfl, ⟨?_, ?_⟩⟩
    rotate_left
    · rw [addSoftC_iff, (a1.trans a2).wt, i.wt]
    refine ⟨t2, a.wf, fun ρ σ ha => ?_, fun σ => ?_, fun ρ σ ha hd => ?_, ?_, ?_,
      i.userH, ?_, ?_, fun t => Nat.le_trans (i.cnt t) (Nat.le_trans (le1 t) (le2 t)), by rw [a.status]; exact i.status, by rw [a.model]; exact i.model, by rw [a.wt]; exact i.wt⟩
    · have h0 : ({ s with sels := s.sels ++ [x] } : Solver).prob.Ok ρ ↔ _ := i.ok ρ σ (ha.prefix a.pre)
      rw [a.ok ρ σ ha, h0, List.forall_mem_cons, List.forall_mem_cons]
      tauto
    · rw [List.forall_mem_cons, List.forall_mem_cons, i.mean, List.forall_mem_append, List.forall_mem_singleton]
      simp only [Formula.eval_mkOr, List.any_cons, List.any_nil, Formula.eval_mkNeg C σ f hin.norm.fits1, Formula.eval_lit, Bool.or_false]
      have h1 : x.n.eval σ = !σ x := rfl
      have h2 : x.p.eval σ = σ x := rfl
      rw [h1, h2]
      cases σ x <;> cases f.eval σ <;> simp
    · rw [List.forall_mem_append, List.forall_mem_singleton] at hd
      have h0 : ({ s with sels := s.sels ++ [x] } : Solver).prob.cost ρ = _ := i.cost ρ σ (ha.prefix a.pre) hd.1
      have h2 : (Formula.lit x.p).eval σ = f.eval σ := by rw [Formula.eval_lit]; exact hd.2
      rw [a.cost ρ σ ha, h0, h2]
      split
      · simp [costF, Nat.add_comm]
      · simp
    · rw [hsel, List.map_append, i.fst]; rfl
    · rw [hsel, List.length_append, List.length_singleton, List.range_succ, List.map_append, ← i.sels, List.map_singleton, ← hlen, hxe]
    · rw [List.forall_mem_append, List.forall_mem_singleton]; exact ⟨i.userD, hu⟩
    · split
      · exact List.forall_mem_cons.2 ⟨hu, i.userS⟩
      · exact i.userS

theorem Runs.inv (hcfg : cfg.cc.Good) (hs : ∀ m n, sel m = sel n → m = n) (hname : ∀ n, ∃ k, sel n = .named k) {w es s H S}
    (h : Runs C cfg sel wt c w es s H S) : ∃ G D E, MInv wt sel c w es s H S G D E := by
  induction h with
  | new h =>
    obtain ⟨E, i⟩ := h.inv hcfg
    exact ⟨[], [], E, ⟨i.es, by simp, i.w⟩, ⟨by simp [Solver.new], rfl⟩, by simp [Prob.Ok, Solver.new], by simp [Holds], fun _ _ _ _ => rfl, rfl, rfl, by simp, by simp, by simp,
      i.w.base.le, rfl, rfl, rfl⟩
  | @factory w es s H S w' es' _ hf ih =>
    obtain ⟨G, D, E, i⟩ := ih
    obtain ⟨E', t⟩ := hf.inv hcfg i.t
    exact ⟨G, D, E', t, i.wf, i.ok, i.mean, i.cost, i.fst, i.sels, i.userH, i.userD, i.userS, t.w.base.le, i.status, i.model, i.wt⟩
  | hard alg _ hin hu e ih =>
    obtain ⟨G, D, E, i⟩ := ih
    obtain ⟨s', w', G', E', e', i'⟩ := i.hard (C := C) hcfg hin hu alg
    rw [e] at e'; cases e'
    exact ⟨_, _, _, i'⟩
  | @soft w es s H S n f s' w' alg _ hin hu e ih =>
    obtain ⟨G, D, E, i⟩ := ih
    obtain ⟨b, s', w', G', D', E', e', i', _⟩ := i.soft (C := C) hcfg hs hname hin hu alg n
    rw [e] at e'; cases e'
    exact ⟨_, _, _, i'⟩
  | @refused w es s H S n f s' w' alg _ hin hu e ih =>
    obtain ⟨G, D, E, i⟩ := ih
    obtain ⟨b, s', w', G', D', E', e', i', _⟩ := i.soft (C := C) hcfg hs hname hin hu alg n
    rw [e] at e'; cases e'
    exact ⟨_, _, _, i'⟩

/-- Values of all variables that agree with the library's. -/
theorem agr_of {vs : List Var} (hn : vs.Nodup) (ρ : Nat → Bool) (τ : Asg) : Agr vs ρ (fun v => if v ∈ vs then ρ (vs.idxOf v) else τ v) := by
  intro i v hv
  obtain ⟨hlt, e⟩ := List.getElem?_eq_some_iff.1 hv
  have hm : v ∈ vs := e ▸ List.getElem_mem hlt
  show ρ i = if v ∈ vs then ρ (vs.idxOf v) else τ v
  rw [if_pos hm]
  have h1 := List.idxOf_lt_length_iff.2 hm
  have : vs.idxOf v = i := (hn.getElem_inj_iff (hi := h1) (hj := hlt)).1 (by rw [List.getElem_idxOf, e])
  rw [this]

/-- What satisfies the clauses satisfies the hard formulas, at the same cost. -/
theorem MInv.down {w es s H S G D E} (i : MInv wt sel c w es s H S G D E) {ρ σ} (ha : Agr s.vars ρ σ) (ho : s.prob.Ok ρ) :
    Holds H σ ∧ s.prob.cost ρ = costF S σ := by
  have h1 := (i.ok ρ σ ha).1 ho
  have h2 := (i.mean σ).1 fun p hp => (i.t.rs p hp).sound σ (h1 p hp)
  exact ⟨h2.1, i.cost ρ σ ha h2.2⟩

theorem User.congr {f : Formula} (h : User sel c f) {σ τ : Asg} (hst : ∀ v, Known c v → (∀ n, v ≠ sel n) → σ v = τ v) : f.eval σ = f.eval τ :=
  Formula.eval_congr (τ := τ) fun v hv => hst v (h v hv).1 (h v hv).2

theorem costF_congr {S : List (Nat × Formula)} {σ τ : Asg} (h : ∀ p ∈ S, p.2.eval σ = p.2.eval τ) : costF S σ = costF S τ := by
  unfold costF
  congr 1
  exact List.map_congr_left fun p hp => by rw [h p hp]

/-- A model of the hard formulas gives values that satisfy the clauses, at the same cost. -/
theorem MInv.up (hs : ∀ m n, sel m = sel n → m = n) (hname : ∀ n, ∃ k, sel n = .named k) {w es s H S G D E} (i : MInv wt sel c w es s H S G D E) {σ} (hH : Holds H σ) :
    ∃ ρ, s.prob.Ok ρ ∧ s.prob.cost ρ = costF S σ := by
  have hfst : ∀ d ∈ D, ∃ n, d.1 = sel n := fun d hd => by
    have : d.1 ∈ s.sels := by rw [← i.fst]; exact List.mem_map_of_mem hd
    rw [i.sels] at this
    obtain ⟨n, _, e⟩ := List.mem_map.1 this
    exact ⟨n, e.symm⟩
  have hnd : (D.map (·.1)).Nodup := by
    rw [i.fst, i.sels]
    exact List.nodup_range.map fun a b h => hs a b h
  let σ1 : Asg := fun v => match D.find? (fun d => d.1 = v) with | some d => d.2.eval σ | none => σ v
  have h1 : ∀ v, (∀ n, v ≠ sel n) → σ1 v = σ v := fun v hv => by
    have : D.find? (fun d => d.1 = v) = none := List.find?_eq_none.2 fun d hd => by
      obtain ⟨n, e⟩ := hfst d hd
      simpa [e] using (hv n).symm
    simp only [σ1, this]
  have hD1 : ∀ d ∈ D, σ1 d.1 = d.2.eval σ := fun d hd => by
    have : D.find? (fun d' => d'.1 = d.1) = some d := by
      cases e : D.find? (fun d' => d'.1 = d.1) with
      | none => exact absurd (List.find?_eq_none.1 e d hd) (by simp)
      | some d' =>
        have h1 := List.find?_some e
        have h2 := List.mem_of_find?_eq_some e
        rw [List.inj_on_of_nodup_map hnd h2 hd (by simpa using h1)]
    simp only [σ1, this]
  obtain ⟨σ2, ag, ok⟩ := i.t.w.base.ext σ1
  have ag2 : ∀ v, Known c v → σ2 v = σ1 v := fun v hv => (ag v (known_iff.1 hv)).symm
  have hU : ∀ f, User sel c f → f.eval σ2 = f.eval σ := fun f hf => hf.congr fun v hk hv => by rw [ag2 v hk, h1 v hv]
  have hD : ∀ d ∈ D, σ2 d.1 = d.2.eval σ2 := fun d hd => by
    obtain ⟨n, e⟩ := hfst d hd
    obtain ⟨k, e'⟩ := hname n
    rw [ag2 d.1 (by rw [e, e']; trivial), hD1 d hd, hU _ (i.userD d hd)]
  have hG := (i.mean σ2).2 ⟨fun f hf => by rw [hU f (i.userH f hf)]; exact hH f hf, hD⟩
  have ha : Agr s.vars (fun j => match s.vars[j]? with | some v => σ2 v | none => false) σ2 := fun j v hv => by simp only [hv]
  refine ⟨_, (i.ok _ σ2 ha).2 fun p hp => (i.t.rs p hp).compl σ2 ok (hG p hp), ?_⟩
  rw [i.cost _ σ2 ha hD]
  exact costF_congr fun p hp => hU _ (i.userS p hp)

/-- **C61**: if the library answers rightly for the clauses it was given, the solver answers rightly for the formulas: it
reports unsatisfiability exactly if no assignment satisfies all hard formulas, and otherwise the least weight of violated
soft formulas. -/
theorem C61_solve (hcfg : cfg.cc.Good) (hs : ∀ m n, sel m = sel n → m = n) (hname : ∀ n, ∃ k, sel n = .named k) {w es s H S}
    (h : Runs C cfg sel wt c w es s H S) {ans} (ha : Right s.prob (ans s.prob)) :
    ((s.solve ans).1 = .unsat ↔ ¬ ∃ σ, Holds H σ) ∧ ∀ k, (s.solve ans).1 = .optimum k ↔ IsMin H S k := by
  obtain ⟨G, D, E, i⟩ := h.inv hcfg hs hname
  have e : (s.solve ans).1 = (ans s.prob).result := by unfold Solver.solve; rw [i.status]
  rw [e]
  generalize ans s.prob = a at ha
  cases ha with
  | unsat hu =>
    have hno : ¬ ∃ σ, Holds H σ := fun ⟨σ, hσ⟩ => by
      obtain ⟨ρ, ho, _⟩ := i.up hs hname hσ
      exact hu ρ ho
    refine ⟨⟨fun _ => hno, fun _ => rfl⟩, fun k => ⟨fun h => by simp [Status.result] at h, fun h => ?_⟩⟩
    obtain ⟨⟨σ, hσ, _⟩, _⟩ := h
    exact absurd ⟨σ, hσ⟩ hno
  | @opt n m hl ho hc hm =>
    obtain ⟨h1, h2⟩ := i.down (agr_of i.wf.nodup _ fun _ => false) ho
    have hmin : IsMin H S n := ⟨⟨_, h1, by rw [← h2]; exact hc⟩, fun σ hσ => by
      obtain ⟨ρ, ho, e⟩ := i.up hs hname hσ
      rw [← e]; exact hm ρ ho⟩
    refine ⟨⟨fun h => by simp [Status.result] at h, fun h => absurd ⟨_, h1⟩ h⟩, fun k => ?_⟩
    have : (Status.opt n m).result = .optimum k ↔ n = k := by simp [Status.result]
    rw [this]
    constructor
    · rintro rfl; exact hmin
    · rintro ⟨⟨σ, hσ, e⟩, hk⟩
      obtain ⟨⟨τ, hτ, e'⟩, hk'⟩ := hmin
      have h1 := hk τ hτ
      have h2 := hk' σ hσ
      omega

/-- **C61**: the model.  After a solve with a right answer, `model` does not panic; it reports an error exactly if there is
no optimum or no clause contains a variable; otherwise every assignment that agrees with the reported literals satisfies
all hard formulas at the reported cost.  The model contains no selector. -/
theorem C61_model (hcfg : cfg.cc.Good) (hs : ∀ m n, sel m = sel n → m = n) (hname : ∀ n, ∃ k, sel n = .named k) {w es s H S}
    (h : Runs C cfg sel wt c w es s H S) {ans} (ha : Right s.prob (ans s.prob)) :
    ∃ r s', (s.solve ans).2.getModel = some (r, s') ∧ (r = none ↔ ((s.solve ans).1 = .unsat ∨ s.vars = [])) ∧
      ∀ m, r = some m → (∀ v ∈ m.pos ++ m.neg, v ∉ s.sels) ∧
        ∃ k, (s.solve ans).1 = .optimum k ∧ ∀ σ, (∀ v ∈ m.pos, σ v = true) → (∀ v ∈ m.neg, σ v = false) → Holds H σ ∧ costF S σ = k := by
  obtain ⟨G, D, E, i⟩ := h.inv hcfg hs hname
  have e : s.solve ans = ((ans s.prob).result, { s with status := ans s.prob, prob := ⟨[], [], 0⟩ }) := by unfold Solver.solve; rw [i.status]
  rw [e]
  generalize ans s.prob = a at ha
  unfold Solver.getModel
  simp only [i.model]
  cases ha with
  | unsat hu => exact ⟨none, _, rfl, by simp [Status.result], fun m hm => nomatch hm⟩
  | @opt n m hl ho hc hm =>
    rw [i.wf.len] at hl
    dsimp only
    by_cases h0 : m.length = 0
    · rw [if_pos h0]
      refine ⟨none, _, rfl, ⟨fun _ => .inr (List.length_eq_zero_iff.1 (by omega)), fun _ => rfl⟩, fun m hm => nomatch hm⟩
    · rw [if_neg h0, if_pos (by omega)]
      refine ⟨_, _, rfl, ⟨fun h => (nomatch h), fun h => ?_⟩, fun r hr => ?_⟩
      · rcases h with h | h
        · simp [Status.result] at h
        · rw [h] at hl; exact absurd hl h0
      · simp only [Option.some.injEq] at hr
        subst hr
        have hmem : ∀ j v, s.vars[j]? = some v → v ∉ s.sels → (v, m.getD j false) ∈ (s.vars.zip m).filter fun p => decide (p.1 ∉ s.sels) := by
          intro j v hv hn
          obtain ⟨hlt, ev⟩ := List.getElem?_eq_some_iff.1 hv
          rw [List.mem_filter]
          refine ⟨?_, by simpa using hn⟩
          rw [List.mem_iff_getElem?]
          refine ⟨j, ?_⟩
          have hlt' : j < m.length := by omega
          rw [List.getElem?_zip_eq_some]
          exact ⟨hv, by rw [List.getD_eq_getElem?_getD, List.getElem?_eq_getElem hlt']; rfl⟩
        refine ⟨fun v hv => ?_, n, rfl, fun σ h1 h2 => ?_⟩
        · rcases List.mem_append.1 hv with hv | hv <;>
          · obtain ⟨p, hp, rfl⟩ := List.mem_map.1 hv
            have := (List.mem_filter.1 (List.mem_filter.1 hp).1).2
            simpa using this
        · have ag := agr_of i.wf.nodup (fun j => m.getD j false) σ
          obtain ⟨k1, k2⟩ := i.down ag ho
          have hσ : ∀ v, (∀ n, v ≠ sel n) → (if v ∈ s.vars then m.getD (s.vars.idxOf v) false else σ v) = σ v := by
            intro v hv
            split
            · rename_i hvm
              have hsel : v ∉ s.sels := by
                rw [i.sels]
                intro hm
                obtain ⟨n, _, e⟩ := List.mem_map.1 hm
                exact hv n e.symm
              have := hmem (s.vars.idxOf v) v (by rw [List.getElem?_eq_getElem (List.idxOf_lt_length_iff.2 hvm), List.getElem_idxOf]) hsel
              cases hb : m.getD (s.vars.idxOf v) false with
              | true =>
                rw [hb] at this
                exact (h1 v (List.mem_map.2 ⟨_, List.mem_filter.2 ⟨this, rfl⟩, rfl⟩)).symm
              | false =>
                rw [hb] at this
                exact (h2 v (List.mem_map.2 ⟨_, List.mem_filter.2 ⟨this, rfl⟩, rfl⟩)).symm
            · rfl
          refine ⟨fun f hf => ?_, ?_⟩
          · rw [← (i.userH f hf).congr fun v _ hv => hσ v hv]; exact k1 f hf
          · rw [← costF_congr fun p hp => (i.userS p hp).congr fun v _ hv => hσ v hv, ← k2]; exact hc

/-- **C61**: adding formulas never panics. -/
theorem C61_no_panic (hcfg : cfg.cc.Good) (hs : ∀ m n, sel m = sel n → m = n) (hname : ∀ n, ∃ k, sel n = .named k) {w es s H S}
    (h : Runs C cfg sel wt c w es s H S) {f} (hin : Input cfg w.cnt f) (hu : User sel c f) (alg : CnfAlg) (n : Nat) :
    (∃ s' w', s.addHard C cfg alg f w = some (s', w') ∧ Runs C cfg sel wt c w' es s' (f :: H) S) ∧
    ∃ b s' w', s.addSoft C cfg alg sel n f w = some (b, s', w') ∧ Runs C cfg sel wt c w' es s' H (if b then (n, f) :: S else S) ∧
      (b = true ↔ 1 ≤ n ∧ (wt = false → n = 1)) := by
  obtain ⟨G, D, E, i⟩ := h.inv hcfg hs hname
  obtain ⟨s1, w1, _, _, e1, _⟩ := i.hard (C := C) hcfg hin hu alg
  obtain ⟨b, s2, w2, _, _, _, e2, _, hb⟩ := i.soft (C := C) hcfg hs hname hin hu alg n
  refine ⟨⟨s1, w1, e1, .hard alg h hin hu e1⟩, b, s2, w2, e2, ?_, hb⟩
  cases b with
  | true => exact .soft alg h hin hu e2
  | false => exact .refused alg h hin hu e2

end

/-! ### Examples and counterexamples -/

/-- A call of the solver. -/
inductive MOp
  | hard (f : Formula)
  | soft (n : Nat) (f : Formula)

def MOp.f : MOp → Formula
  | .hard f => f
  | .soft _ f => f

/-- Calls one after the other. -/
def runM (C : Canon) (cfg : FCfg) (alg : CnfAlg) (sel : Nat → Var) : List MOp → Solver → World → Option (Solver × World)
  | [], s, w => some (s, w)
  | .hard f :: os, s, w => (s.addHard C cfg alg f w).bind fun p => runM C cfg alg sel os p.1 p.2
  | .soft n f :: os, s, w => (s.addSoft C cfg alg sel n f w).bind fun p => runM C cfg alg sel os p.2.1 p.2.2

/-- The hard formulas and the soft formulas with an admissible weight, latest first. -/
def hardOf (os : List MOp) (H : List Formula) : List Formula := os.foldl (fun H o => match o with | .hard f => f :: H | _ => H) H
def softOf (wt : Bool) (os : List MOp) (S : List (Nat × Formula)) : List (Nat × Formula) :=
  os.foldl (fun S o => match o with | .soft n f => if 1 ≤ n ∧ (wt = false → n = 1) then (n, f) :: S else S | _ => S) S

theorem runM_runs {C : Canon} {cfg : FCfg} {c : AuxTy → Nat} {sel : Nat → Var} {wt : Bool} (hcfg : cfg.cc.Good) (hs : ∀ m n, sel m = sel n → m = n)
    (hname : ∀ n, ∃ k, sel n = .named k) (alg : CnfAlg) : ∀ (os : List MOp), (∀ o ∈ os, Input cfg c o.f ∧ User sel c o.f) → ∀ {w es s H S},
    Runs C cfg sel wt c w es s H S → ∃ s' w', runM C cfg alg sel os s w = some (s', w') ∧ Runs C cfg sel wt c w' es s' (hardOf os H) (softOf wt os S)
  | [], _, w, es, s, H, S, h => ⟨s, w, rfl, h⟩
  | .hard f :: os, ho, w, es, s, H, S, h => by
    obtain ⟨_, _, _, i⟩ := h.inv hcfg hs hname
    have hf := ho (.hard f) (by simp)
    obtain ⟨⟨s', w', e, h'⟩, _⟩ := C61_no_panic hcfg hs hname h (Sat.Input.le hf.1 i.cnt) hf.2 alg 0
    obtain ⟨s2, w2, e2, h2⟩ := runM_runs hcfg hs hname alg os (fun o hm => ho o (List.mem_cons_of_mem _ hm)) h'
    exact ⟨s2, w2, by simp only [runM]; rw [show s.addHard C cfg alg f w = _ from e]; exact e2, h2⟩
  | .soft n f :: os, ho, w, es, s, H, S, h => by
    obtain ⟨_, _, _, i⟩ := h.inv hcfg hs hname
    have hf := ho (.soft n f) (by simp)
    obtain ⟨_, b, s', w', e, h', hb⟩ := C61_no_panic hcfg hs hname h (Sat.Input.le hf.1 i.cnt) hf.2 alg n
    obtain ⟨s2, w2, e2, h2⟩ := runM_runs hcfg hs hname alg os (fun o hm => ho o (List.mem_cons_of_mem _ hm)) h'
    refine ⟨s2, w2, by simp only [runM]; rw [show s.addSoft C cfg alg sel n f w = _ from e]; exact e2, ?_⟩
    have : softOf wt (.soft n f :: os) S = softOf wt os (if b then (n, f) :: S else S) := by
      simp only [softOf, List.foldl_cons]
      congr 1
      by_cases hc : 1 ≤ n ∧ (wt = false → n = 1)
      · rw [if_pos hc, if_pos (hb.2 hc)]
      · rw [if_neg hc, if_neg (fun h => hc (hb.1 h))]
    rw [this]
    exact h2

/-- `@SEL_SOFT_n`. -/
def exSel (n : Nat) : Var := .named (100 + n)

theorem exSel_inj : ∀ m n, exSel m = exSel n → m = n := fun m n h => by simp only [exSel, Var.named.injEq] at h; omega
theorem exSel_named : ∀ n, ∃ k, exSel n = .named k := fun n => ⟨_, rfl⟩

/-- Variables below 100: no selector. -/
def plainB (f : Formula) : Bool := (fnVars.val f).all fun v => match v with | .named n => decide (n < 100) | _ => false

theorem plainB_ok {c : AuxTy → Nat} {f : Formula} (h : plainB f = true) : User exSel c f := by
  intro v hv
  have := List.all_eq_true.1 h v (((vars_val f).1 v).2 hv)
  cases v with
  | named n =>
    refine ⟨trivial, fun k e => ?_⟩
    simp only [exSel, Var.named.injEq] at e
    simp only [decide_eq_true_eq] at this
    omega
  | aux t n => simp at this

def exV (n : Nat) : Formula := .lit ⟨.named n, true⟩
def exN (n : Nat) : Formula := .lit ⟨.named n, false⟩

/-- Hard `a | b`, soft `~a` (2), `~b` (3), `a & c` (4), `a & d` (0, refused). -/
def exOps : List MOp := [.hard (.nary .disj [exV 0, exV 1]), .soft 2 (exN 0), .soft 3 (exN 1), .soft 4 (.nary .conj [exV 0, exV 2]), .soft 0 (.nary .conj [exV 0, exV 3])]
def exProb : Prob := ⟨[[1, 2], [1, -3], [4, -3], [-1, -4, 3], [1, -5], [6, -5], [-1, -6, 5]], [(2, [-1]), (3, [-2]), (4, [3])], 6⟩

theorem exProb_right : Right exProb (.opt 2 [true, false, true, true, false, false]) := by
  refine .opt rfl ?_ (by decide) fun ρ h => ?_
  · simp only [Prob.Ok]; decide
  · have h1 : litV ρ 1 = ρ 0 := rfl
    have h2 : litV ρ 2 = ρ 1 := rfl
    have h3 : litV ρ (-1) = !ρ 0 := rfl
    have h4 : litV ρ (-2) = !ρ 1 := rfl
    have h5 : litV ρ 3 = ρ 2 := rfl
    have h6 : litV ρ (-3) = !ρ 2 := rfl
    have k1 := h [1, 2] (by decide)
    have k2 := h [1, -3] (by decide)
    simp only [List.any_cons, List.any_nil, h1, h2, h6] at k1 k2
    simp only [Prob.cost, exProb, List.map_cons, List.map_nil, List.any_cons, List.any_nil, h3, h4, h5]
    revert k1 k2
    cases ρ 0 <;> cases ρ 1 <;> cases ρ 2 <;> simp

/-- The calls are accepted, the clauses are these, and for a right answer of the library the cost is 2 and the model
`a, ~b, c, ~d`. -/
example : ∃ w s, Runs canon0 (exFCfg .swc true) exSel true (fun _ => 7) w [] s [.nary .disj [exV 0, exV 1]]
      [(4, .nary .conj [exV 0, exV 2]), (3, exN 1), (2, exN 0)] ∧ s.prob = exProb ∧
    (s.solve fun _ => .opt 2 [true, false, true, true, false, false]).1 = .optimum 2 ∧
    ((s.solve fun _ => .opt 2 [true, false, true, true, false, false]).2.getModel.map (·.1)) = some (some ⟨[.named 0, .named 2], [.named 1, .named 3]⟩) := by
  obtain ⟨s, w, e, h⟩ := runM_runs (C := canon0) (cfg := exFCfg .swc true) (c := fun _ => 7) (wt := true) trivial exSel_inj exSel_named .factorization exOps
    (fun o ho => ⟨Sat.inB_ok (n := 5) ((by decide +kernel : ∀ f ∈ exOps.map MOp.f, Sat.inB 5 f = true) _ (List.mem_map_of_mem ho)),
      plainB_ok ((by decide +kernel : ∀ f ∈ exOps.map MOp.f, plainB f = true) _ (List.mem_map_of_mem ho))⟩) (.new .fresh)
  have es : (runM canon0 (exFCfg .swc true) .factorization exSel exOps (.new true) (World.fresh fun _ => 7)).map (·.1) =
      some ⟨true, exProb, [.named 0, .named 1, .named 100, .named 2, .named 101, .named 3], [.named 100, .named 101], .unknown, none⟩ := by decide +kernel
  rw [e] at es
  simp only [Option.map_some, Option.some.injEq] at es
  subst es
  exact ⟨w, _, h, rfl, rfl, by decide +kernel⟩

/-- The condition on names is needed: with the hard formula `~@SEL_SOFT_0` and the soft formula `a & b` of weight 1, a
right answer of the library makes the solver report cost 1, though `a & b` can be true. -/
theorem C61_selector_name : ∃ s P, (runM canon0 (exFCfg .swc true) .factorization exSel [.hard (.lit (exSel 0).n), .soft 1 (.nary .conj [exV 0, exV 1])]
      (.new true) (World.fresh fun _ => 7)).map (·.1) = some s ∧ s.prob = P ∧ Right P (.opt 1 [false, false, false]) ∧
    (s.solve fun _ => .opt 1 [false, false, false]).1 = .optimum 1 ∧ IsMin [.lit (exSel 0).n] [(1, .nary .conj [exV 0, exV 1])] 0 := by
  refine ⟨⟨true, ⟨[[-1], [2, -1], [3, -1], [-2, -3, 1]], [(1, [1])], 3⟩, [.named 100, .named 0, .named 1], [.named 100], .unknown, none⟩, _, by decide +kernel, rfl, ?_, rfl, ?_⟩
  · refine .opt rfl ?_ (by decide) fun ρ h => ?_
    · simp only [Prob.Ok]; decide
    · have h1 : litV ρ 1 = ρ 0 := rfl
      have h2 : litV ρ (-1) = !ρ 0 := rfl
      have k := h [-1] (by decide)
      simp only [List.any_cons, List.any_nil, h2] at k
      simp only [Prob.cost, List.map_cons, List.map_nil, List.any_cons, List.any_nil, h1]
      revert k
      cases ρ 0 <;> simp
  · refine ⟨⟨fun v => decide (v ≠ exSel 0), ?_, by decide⟩, fun _ _ => Nat.zero_le _⟩
    intro h hh
    rw [List.mem_singleton.1 hh]; decide

/-- A formula added after `solve` is ignored: the empty problem is solved, falsum is added, and `solve` still reports an
optimum. -/
theorem C61_added_late {C : Canon} {cfg : FCfg} {w : World} {ans : Prob → Status} {s s' : Solver} {alg f w'} (h0 : s.status ≠ .unknown)
    (h : s.addHard C cfg alg f w = some (s', w')) : (s'.solve ans).1 = s.status.result := by
  have key : ∀ g : Formula, (s.addHardC g).status = s.status := fun _ => rfl
  have hfold : ∀ (fs : List Formula) (s : Solver), (fs.foldl Solver.addHardC s).status = s.status := fun fs => by
    induction fs with
    | nil => intro s; rfl
    | cons f fs ih => intro s; rw [List.foldl_cons, ih]; rfl
  have e : s'.status = s.status := by
    unfold Solver.addHard at h
    obtain ⟨p, _, h⟩ := Option.bind_eq_some_iff.1 h
    obtain ⟨q, h1, h2⟩ := Option.map_eq_some_iff.1 h
    cases h2
    unfold Solver.addCnf at h1
    split at h1 <;> (try cases h1) <;> first | rfl | exact hfold _ _
  unfold Solver.solve
  rw [← e] at h0 ⊢
  cases hs : s'.status with
  | unknown => exact absurd hs h0
  | unsat => rfl
  | opt c m => rfl

example : ∃ s1 s2 w2, ((Solver.new true).solve fun _ => .opt 0 []) = (.optimum 0, s1) ∧ Right (Solver.new true).prob (.opt 0 []) ∧
    s1.addHard canon0 (exFCfg .swc true) .factorization .fls (World.fresh fun _ => 7) = some (s2, w2) ∧ ∀ ans, (s2.solve ans).1 = .optimum 0 :=
  ⟨_, _, _, rfl, .opt rfl (by simp [Prob.Ok, Solver.new]) rfl fun _ _ => Nat.zero_le _, rfl, fun _ => rfl⟩

/-- After a search without result the clauses are gone: the solver with the hard formula falsum reports an optimum if the
library first gives up and then answers rightly for what it is given. -/
theorem C61_inconclusive : ∃ s w, (Solver.new true).addHard canon0 (exFCfg .swc true) .factorization .fls (World.fresh fun _ => 7) = some (s, w) ∧
    ∀ ans1 ans2, ans1 s.prob = .unknown → Right ((s.solve ans1).2.prob) (ans2 (s.solve ans1).2.prob) → (((s.solve ans1).2).solve ans2).1 = .optimum 0 := by
  refine ⟨_, _, rfl, fun ans1 ans2 h1 h2 => ?_⟩
  simp only [Solver.solve, Solver.addHardC, Solver.new] at h1 h2 ⊢
  rw [h1]
  simp only
  generalize ans2 ⟨[], [], 0⟩ = a at h2
  cases h2 with
  | unsat h => exact absurd (fun c hc => by simp at hc) (h fun _ => false)
  | opt _ _ hc _ => rw [← hc]; rfl

end Verif.MaxSat
