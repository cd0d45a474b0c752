import Verif.Sat.AddFOk
/-
Property C56: a solver to which formulas have been added answers questions about these formulas; and C15 for the transformation on the solver.

The specification is `FSpec`: the formulas a user expects the solver to hold.  `FRuns E c X x` relates it to the solver, the factory and the encoders after any sequence
of calls, for all three CNF methods; `c` are the counters of auxiliary variables at the start.  `Verif.Known c v` says that the variable existed at the start.  As in
`Props/SatFun.lean` clause minimization must not be switched off, and the user loads states only under the condition explained there; hence `_partial`.
-/
namespace Verif

/-! ### C15 on the solver -/

/-- The variable cache, the factory, the formulas added and the clauses after a sequence of calls of `add_cnf_to_solver`, mixed with other uses of the factory. -/
inductive PgRuns (C : Canon) (cfg : FCfg) (full : Bool) (c : AuxTy → Nat) : List Formula → List (CnfAlg × EncSt) → PgS → Prop
  | new : PgRuns C cfg full c [] [] ⟨fun _ => none, World.fresh c, []⟩
  | world {fs es s w es'} : PgRuns C cfg full c fs es s → Sat.WStep C cfg s.w es w es' → PgRuns C cfg full c fs es' { s with w := w }
  | add {fs es s s' f} : PgRuns C cfg full c fs es s → Input cfg s.w.cnt f → addCnfToSolver C cfg full f s = some s' → PgRuns C cfg full c (fs ++ [f]) es s'

theorem PgRuns.inv {C cfg full c fs es s} (hcfg : cfg.cc.Good) (h : PgRuns C cfg full c fs es s) :
    ∃ G, PgGood c [] idle G s ∧ (∀ p ∈ es, EncInv G s.w.cnt p.2) ∧ Sat.Cov G s.out fs := by
  induction h with
  | new => exact ⟨[], Sat.pgGood_none (WInv.fresh c), by simp, ⟨by simp, fun σ _ _ d hd => by cases hd⟩⟩
  | world _ hw ih =>
    obtain ⟨G, h1, h2, h3⟩ := ih
    obtain ⟨G', k1, k2, k3⟩ := hw.ok hcfg h1.w h2
    exact ⟨G', h1.world k1 k2, k3, h3.mono k2.sub⟩
  | add _ hin e ih =>
    obtain ⟨G, h1, h2, h3⟩ := ih
    obtain ⟨s', G', e', k1, k2, k3⟩ := addCnfToSolver_ok (C := C) hcfg h1 full hin.top
    rw [e] at e'; injection e' with e'; subst e'
    obtain ⟨L, hL, hL2⟩ := k2.new
    refine ⟨G', k1, fun p hp => (h2 p hp).mono k2.ext, ?_⟩
    rw [hL]
    exact h3.add k2.ext.sub (fun σ hs => k3 σ (by rw [List.nil_append, hL]; exact hs)) hL2

/-- C15, on the solver: for any sequence of formulas, with and without a negation normal form first, no call panics, and the clauses added so far imply all
formulas added so far.  If the formulas are over variables that existed at the start, each assignment that satisfies them all can be extended to the auxiliary variables such that all
clauses hold. -/
theorem C15_on_solver {C : Canon} {cfg : FCfg} (hcfg : cfg.cc.Good) {full : Bool} {c : AuxTy → Nat} {fs : List Formula} {es : List (CnfAlg × EncSt)} {s : PgS} (h : PgRuns C cfg full c fs es s) :
    (∀ f, Input cfg s.w.cnt f → ∃ s', addCnfToSolver C cfg full f s = some s') ∧
    (∀ σ, (∀ d ∈ s.out, Clause.Sat σ d) → ∀ f ∈ fs, f.eval σ = true) ∧
    ((∀ f ∈ fs, ∀ v, Occ v f → Known c v) → ∀ σ, (∀ f ∈ fs, f.eval σ = true) → ∃ σ' : Asg, (∀ v, Known c v → σ' v = σ v) ∧ ∀ d ∈ s.out, Clause.Sat σ' d) := by
  obtain ⟨G, h1, _, h3⟩ := h.inv hcfg
  refine ⟨fun f hin => ?_, h3.sound, fun hk σ hσ => ?_⟩
  · obtain ⟨s', _, e, _⟩ := addCnfToSolver_ok (C := C) hcfg h1 full hin.top
    exact ⟨s', e⟩
  · obtain ⟨σ', ag, ok⟩ := h1.w.base.ext σ
    have hag : ∀ v, Known c v → σ' v = σ v := fun v hv => (ag v (known_iff.1 hv)).symm
    refine ⟨σ', hag, h3.compl σ' ok fun f hf => ?_⟩
    rw [Formula.eval_congr (τ := σ) fun v hv => hag v (hk f hf v hv)]
    exact hσ f hf

namespace Sat
open St

section
variable {F : Type} [LinearOrder F] [Flt F] {E : Env F} {c : AuxTy → Nat} {X : FSpec} {x : FMini F}

/-- All formulas added hold. -/
def FSpec.Sat (X : FSpec) (σ : Asg) : Prop := ∀ f ∈ X.fs, f.eval σ = true

/-- All formulas added are over variables that existed at the start. -/
def FSpec.Over (c : AuxTy → Nat) (X : FSpec) : Prop := ∀ f ∈ X.fs, ∀ v, Occ v f → Verif.Known c v

/-! ### C56 -/

/-- C56: adding a formula never panics. -/
theorem C56_add_no_panic_partial (hm : E.C.clauseMin ≠ .none) (hcfg : E.cfg.cc.Good) (h : FRuns E c X x) {f : Formula} (hin : Input E.cfg x.w.cnt f) :
    ∃ x', x.add E f = .ok x' := by
  obtain ⟨Y, G, i⟩ := h.inv hm hcfg
  obtain ⟨x', e, _⟩ := i.add hm hcfg hin
  exact ⟨x', e⟩

/-- C56: loading a valid state never panics. -/
theorem C56_load_no_panic_partial (hm : E.C.clauseMin ≠ .none) (hcfg : E.cfg.cc.Good) (h : FRuns E c X x) (hi : E.C.incremental = true) {k : Nat} (hk : x.m.y.Separate k)
    {X' : FSpec} (hX : X.load k = some X') : ∃ x', x.load E k = .ok x' := by
  obtain ⟨Y, G, i⟩ := h.inv hm hcfg
  obtain ⟨x', e, _⟩ := i.load hm hi hk hX
  exact ⟨x', e⟩

/-- C56: the model of a SAT answer satisfies all formulas added and the assumptions. -/
theorem C56_sat_partial (hm : E.C.clauseMin ≠ .none) (hcfg : E.cfg.cc.Good) (h : FRuns E c X x) {fuel : Nat} {sel as : List Lit} {m : Mini F}
    (e : x.m.solve E.C fuel sel as = .ok (m, true)) : X.Sat m.asg ∧ ∀ a ∈ as, a.eval m.asg = true := by
  obtain ⟨Y, G, i⟩ := h.inv hm hcfg
  obtain ⟨h1, h2⟩ := C28_named_partial hm i.runs e
  exact ⟨i.models.1 _ h1, h2⟩

/-- C56: after an UNSAT answer no assignment satisfies all formulas added and the assumptions. -/
theorem C56_unsat_partial (hm : E.C.clauseMin ≠ .none) (hcfg : E.cfg.cc.Good) (h : FRuns E c X x) (hX : X.Over c) {fuel : Nat} {sel as : List Lit}
    (has : ∀ a ∈ as, Verif.Known c a.v) {m : Mini F} (e : x.m.solve E.C fuel sel as = .ok (m, false)) : ∀ σ, X.Sat σ → ¬ ∀ a ∈ as, a.eval σ = true := by
  obtain ⟨Y, G, i⟩ := h.inv hm hcfg
  intro σ hσ ha
  obtain ⟨σ', hag, hs⟩ := i.models.2 hX σ hσ
  refine C29_named_partial hm i.runs e σ' hs fun a hm => ?_
  rw [Lit.eval, hag _ (has a hm)]
  exact ha a hm

/-- C56: without a bound, the models enumerated are those of the formulas: each satisfies all formulas, and each assignment that satisfies the formulas agrees with exactly
one of them on the variables asked for. -/
theorem C56_enumeration_partial (hm : E.C.clauseMin ≠ .none) (hcfg : E.cfg.cc.Good) (hi : E.C.incremental = true) (h : FRuns E c X x) (hX : X.Over c) {cfg : EnumCfg}
    (hmax : cfg.max = none) (hrel : ∀ v ∈ relVars E.C cfg x.m.names, isRelevant E.C v = true ∧ Verif.Known c v) {fuel : Nat} {m : Mini F} {ms : List NModel}
    (e : x.m.enumerate E.C fuel cfg = .ok (m, ms)) :
    (∀ M ∈ ms, ∃ σ, X.Sat σ ∧ M = restrictTo (allVars E.C cfg x.m.names) σ) ∧
    ∀ σ, X.Sat σ → ms.countP (fun M => decide (AgreesOn (relVars E.C cfg x.m.names) M σ)) = 1 := by
  obtain ⟨Y, G, i⟩ := h.inv hm hcfg
  have hn := (i.runs.holds hm).names
  rw [hn] at hrel
  obtain ⟨h1, h2, _⟩ := C33_enumeration_partial hm hi i.runs hmax (fun v hv => (hrel v hv).1) e
  rw [hn]
  refine ⟨fun M hM => ?_, fun σ hσ => ?_⟩
  · obtain ⟨σ, hs, rfl⟩ := h1 M hM
    exact ⟨σ, i.models.1 σ hs, rfl⟩
  · obtain ⟨σ', hag, hs⟩ := i.models.2 hX σ hσ
    rw [← h2 σ' hs]
    refine List.countP_congr fun M _ => ?_
    simp only [decide_eq_true_eq]
    unfold AgreesOn
    exact forall_congr' fun v => forall_congr' fun hv => by rw [hag v (hrel v hv).2]

/-- A variable has the same value in all models of the formulas. -/
def FForced (X : FSpec) (v : Var) (b : Bool) : Prop := ∀ σ, X.Sat σ → σ v = b

/-- The backbone says exactly which of the variables are forced by the formulas. -/
structure FBbSpec (X : FSpec) (t : BbType) (vars : List Var) (b : Backbone Var) : Prop where
  pos : if t = .onlyNegative then b.pos = none else ∃ l, b.pos = some l ∧ ∀ v, v ∈ l ↔ v ∈ vars ∧ FForced X v true
  neg : if t = .onlyPositive then b.neg = none else ∃ l, b.neg = some l ∧ ∀ v, v ∈ l ↔ v ∈ vars ∧ FForced X v false
  opt : if t = .positiveAndNegative then ∃ l, b.opt = some l ∧ ∀ v, v ∈ l ↔ v ∈ vars ∧ ¬ FForced X v true ∧ ¬ FForced X v false else b.opt = none

/-- C56: the backbone computed is that of the formulas. -/
theorem C56_backbone_partial (hm : E.C.clauseMin ≠ .none) (hcfg : E.cfg.cc.Good) (h : FRuns E c X x) (hX : X.Over c) {fuel : Nat} {vars : List Var} {t : BbType}
    (hv : ∀ v ∈ vars, Verif.Known c v) {m : Mini F} {r : Option (Backbone Var)} (e : x.m.backbone E.C fuel vars t = .ok (m, r)) :
    match r with
    | none => ∀ σ, ¬ X.Sat σ
    | some b => (∃ σ, X.Sat σ) ∧ FBbSpec X t vars b := by
  obtain ⟨Y, G, i⟩ := h.inv hm hcfg
  have hb := (C34_backbone_partial hm i.runs e).1
  have hfc : ∀ v ∈ vars, ∀ b, Forced Y.cls v b ↔ FForced X v b := by
    intro v hvv b
    constructor
    · intro hf σ hσ
      obtain ⟨σ', hag, hs⟩ := i.models.2 hX σ hσ
      rw [← hag v (hv v hvv)]
      exact hf σ' hs
    · exact fun hf σ hσ => hf σ (i.models.1 σ hσ)
  cases r with
  | none =>
    intro σ hσ
    obtain ⟨σ', _, hs⟩ := i.models.2 hX σ hσ
    exact hb σ' hs
  | some b =>
    obtain ⟨⟨σ, hσ⟩, h1, h2, h3⟩ := hb
    refine ⟨⟨σ, i.models.1 σ hσ⟩, ?_, ?_, ?_⟩
    · by_cases ht : t = .onlyNegative <;> simp only [ht, if_true, if_false] at h1 ⊢
      · exact h1
      · obtain ⟨l, e, hl⟩ := h1
        exact ⟨l, e, fun v => (hl v).trans (and_congr_right fun hvv => hfc v hvv _)⟩
    · by_cases ht : t = .onlyPositive <;> simp only [ht, if_true, if_false] at h2 ⊢
      · exact h2
      · obtain ⟨l, e, hl⟩ := h2
        exact ⟨l, e, fun v => (hl v).trans (and_congr_right fun hvv => hfc v hvv _)⟩
    · by_cases ht : t = .positiveAndNegative <;> simp only [ht, if_true, if_false] at h3 ⊢
      · obtain ⟨l, e, hl⟩ := h3
        exact ⟨l, e, fun v => (hl v).trans (and_congr_right fun hvv => and_congr (not_congr (hfc v hvv _)) (not_congr (hfc v hvv _)))⟩
      · exact h3

/-- C56: optimization finds a model of the formulas with the most (or fewest) true literals. -/
theorem C56_optimal_partial (hm : E.C.clauseMin ≠ .none) (hcfg : E.cfg.cc.Good) (h : FRuns E c X x) (hX : X.Over c) {fuel : Nat} {o : OptF} {sm : List (Var × Lit)}
    (hl : ∀ l ∈ o.lits, Verif.Known c l.v) (ho : OptOK { NSpec.empty with names := x.m.names } o sm x.w.cnt) {m : Mini F} {r : Option NModel}
    (e : x.m.optimize E.C E.cfg.cc fuel o sm x.w.cnt = .ok (m, r)) :
    match r with
    | none => ∀ σ, ¬ X.Sat σ
    | some M => ∃ σ, X.Sat σ ∧ M = restrictTo (optVars E.C x.m.names o) σ ∧
      ∀ τ, X.Sat τ → if o.maximize then cntL τ o.lits ≤ cntL σ o.lits else cntL σ o.lits ≤ cntL τ o.lits := by
  obtain ⟨Y, G, i⟩ := h.inv hm hcfg
  have hn := (i.runs.holds hm).names
  have hr := (C35_optimal_partial hm i.runs (optOK_names hn ho) e).1
  cases r with
  | none =>
    intro σ hσ
    obtain ⟨σ', _, hs⟩ := i.models.2 hX σ hσ
    exact hr σ' hs
  | some M =>
    obtain ⟨σ, h1, h2, h3⟩ := hr
    refine ⟨σ, i.models.1 σ h1, by rw [hn]; exact h2, fun τ hτ => ?_⟩
    obtain ⟨τ', hag, hs⟩ := i.models.2 hX τ hτ
    have : cntL τ o.lits = cntL τ' o.lits := by
      unfold cntL
      refine List.countP_congr fun l hll => ?_
      rw [Lit.eval, Lit.eval, hag _ (hl l hll)]
    rw [this]
    exact h3 τ' hs

end
/-! ### Examples -/

section
variable {F : Type} [LinearOrder F] [Flt F]

/-- Formulas added one after the other. -/
def addFs (E : Env F) : List Formula → FMini F → Res (FMini F)
  | [], x => .ok x
  | f :: fs, x =>
    match x.add E f with
    | .ok x => addFs E fs x
    | .panic => .panic
    | .diverge => .diverge

theorem Input.le {cfg : FCfg} {c c' : AuxTy → Nat} {f : Formula} (h : Input cfg c f) (hle : ∀ t, c t ≤ c' t) : Input cfg c' f := by
  refine ⟨h.norm, h.fit, fun v hv => ?_⟩
  have := h.known v hv
  rcases v with n | ⟨t, n⟩
  · trivial
  · cases t <;> first | exact this | exact Nat.lt_of_lt_of_le this (hle _)

theorem addFs_runs {E : Env F} {c : AuxTy → Nat} (hm : E.C.clauseMin ≠ .none) (hcfg : E.cfg.cc.Good) (fs : List Formula) (hin : ∀ f ∈ fs, Input E.cfg c f) :
    ∀ {X x x'}, FRuns E c X x → addFs E fs x = .ok x' → FRuns E c { X with fs := X.fs ++ fs } x' := by
  induction fs with
  | nil => intro X x x' h e; cases e; rw [List.append_nil]; exact h
  | cons f fs ih =>
    intro X x x' h e
    unfold addFs at e
    match e1 : x.add E f, e with
    | .ok x1, e =>
      obtain ⟨Y, G, i⟩ := h.inv hm hcfg
      have := ih (fun g hg => hin g (List.mem_cons_of_mem _ hg)) (h.add (Input.le (hin f (by simp)) i.pg.w.base.le) e1) e
      simpa using this
    | .panic, e => cases e
    | .diverge, e => cases e

end

/-- A solver with one of the three methods. -/
def exEnv (me : CnfMethod) : Env Int := ⟨canon0, exFCfg .swc true, .tseitin 0, demoM, me⟩

/-- A cardinality constraint. -/
def exK : Formula := .cc ⟨[.named 0, .named 1, .named 3, .named 4], .le, 2⟩

/-- A new solver and a new factory. -/
def exNew : FMini Int := ⟨.new demoM, fun _ => none, World.fresh fun _ => 7, []⟩

/-- The formulas have been added. -/
def exSpec : FSpec := { FSpec.empty with fs := [exT, exTc, exK] }

theorem exK_input : Input (exFCfg .swc true) (fun _ => 7) exK := by
  refine ⟨.cc ⟨by decide, by decide, by decide⟩, ⟨fun c hc => ?_, fun p hp => ?_⟩, fun v hv => ?_⟩
  · rcases sub_operands.1 hc with h | ⟨k, hk, _⟩
    · injection h with h
      subst h
      exact ⟨by decide, by decide, fun _ => by decide⟩
    · simp [exK, Formula.operands] at hk
  · rcases sub_operands.1 hp with h | ⟨k, hk, _⟩
    · cases h
    · simp [exK, Formula.operands] at hk
  · rw [exK, Formula.occ_cc] at hv
    simp only [List.mem_cons, List.not_mem_nil, or_false] at hv
    rcases hv with rfl | rfl | rfl | rfl <;> trivial

theorem exF_ex (me : CnfMethod) (p : FMini Int → Bool) (h : okB (addFs (exEnv me) [exT, exTc, exK] exNew) p = true) :
    ∃ x, FRuns (exEnv me) (fun _ => 7) exSpec x ∧ p x = true := by
  obtain ⟨x, e, hp⟩ := okB_ok h
  refine ⟨x, ?_, hp⟩
  refine addFs_runs (E := exEnv me) (c := fun _ => 7) (by unfold exEnv demoM demoCfg; exact fun h => by cases h) trivial [exT, exTc, exK] ?_ .new e
  intro f hf
  simp only [List.mem_cons, List.not_mem_nil, or_false] at hf
  rcases hf with rfl | rfl | rfl
  · exact exT_input.1
  · exact exTc_input
  · exact exK_input

/-- The hypotheses of `C15_on_solver`: one formula twice, one with a constraint, and a NNF of another formula in between. -/
example (full : Bool) : ∃ s, PgRuns canon0 (exFCfg .swc true) full (fun _ => 7) [exT, exTc, exT] [] s ∧ ∀ f ∈ [exT, exTc, exT], ∀ v, Occ v f → Verif.Known (fun _ => 7) v := by
  have hc : (exFCfg .swc true).cc.Good := trivial
  have step : ∀ {fs s f}, PgRuns canon0 (exFCfg .swc true) full (fun _ => 7) fs [] s → Input (exFCfg .swc true) (fun _ => 7) f →
      ∃ s', PgRuns canon0 (exFCfg .swc true) full (fun _ => 7) (fs ++ [f]) [] s' := by
    intro fs s f h hf
    obtain ⟨G, h1, _⟩ := h.inv hc
    obtain ⟨s', e⟩ := (C15_on_solver hc h).1 f (Input.le hf h1.w.base.le)
    exact ⟨s', h.add (Input.le hf h1.w.base.le) e⟩
  obtain ⟨s1, h1⟩ := step .new exT_input.1
  obtain ⟨s2, h2⟩ := step h1 exTc_input
  obtain ⟨G, i, _⟩ := h2.inv hc
  obtain ⟨g, w, _, e, _⟩ := nnf_ok (C := canon0) hc i.w (Input.le exK_input i.w.base.le).top
  obtain ⟨s3, h3⟩ := step (h2.world (.nnf (Input.le exK_input i.w.base.le) e)) exT_input.1
  refine ⟨s3, h3, fun f hf => ?_⟩
  simp only [List.mem_cons, List.not_mem_nil, or_false] at hf
  rcases hf with rfl | rfl | rfl
  · exact exT_input.1.known
  · exact exTc_input.known
  · exact exT_input.1.known

theorem exSpec_over : exSpec.Over fun _ => 7 := by
  intro f hf
  simp only [exSpec, List.mem_cons, List.not_mem_nil, or_false] at hf
  rcases hf with rfl | rfl | rfl
  · exact exT_input.1.known
  · exact exTc_input.known
  · exact exK_input.known

/-- The hypotheses of C56 for both answers: with each method there is a model, and none that meets the assumptions. -/
example (me : CnfMethod) : ∃ x, FRuns (exEnv me) (fun _ => 7) exSpec x ∧ exSpec.Over (fun _ => 7) ∧
    (∃ m, x.m.solve demoM 1000 [] [] = .ok (m, true)) ∧ ∃ m, x.m.solve demoM 1000 [] [(Var.named 5).n, (Var.named 0).p, (Var.named 2).p] = .ok (m, false) := by
  obtain ⟨x, h, hp⟩ := exF_ex me (fun x => okB (x.m.solve demoM 1000 [] []) (fun r => r.2) &&
    okB (x.m.solve demoM 1000 [] [(Var.named 5).n, (Var.named 0).p, (Var.named 2).p]) fun r => !r.2) (by cases me <;> decide +kernel)
  simp only [Bool.and_eq_true] at hp
  obtain ⟨⟨m1, b1⟩, e1, h1⟩ := okB_ok hp.1
  obtain ⟨⟨m2, b2⟩, e2, h2⟩ := okB_ok hp.2
  cases b1 <;> cases b2 <;> first | cases h1; done | cases h2; done | exact ⟨x, h, exSpec_over, ⟨m1, e1⟩, m2, e2⟩

/-- The hypotheses of C56 for enumeration: six of eight assignments of three variables are reported. -/
example : ∃ x, FRuns (exEnv .pg) (fun _ => 7) exSpec x ∧
    (∀ v ∈ relVars demoM ⟨some [vA, vC, .named 5], none, none⟩ x.m.names, isRelevant demoM v = true ∧ Verif.Known (fun _ => 7) v) ∧
    ∃ m ms, x.m.enumerate demoM 1000 ⟨some [vA, vC, .named 5], none, none⟩ = .ok (m, ms) ∧ ms.length = 6 := by
  obtain ⟨x, h, hp⟩ := exF_ex .pg (fun x => decide (relVars demoM ⟨some [vA, vC, .named 5], none, none⟩ x.m.names = [vA, vC, .named 5]) &&
    okB (x.m.enumerate demoM 1000 ⟨some [vA, vC, .named 5], none, none⟩) fun r => r.2.length == 6) (by decide +kernel)
  simp only [Bool.and_eq_true] at hp
  obtain ⟨⟨m, ms⟩, e, h1⟩ := okB_ok hp.2
  refine ⟨x, h, ?_, m, ms, e, by simpa using h1⟩
  rw [of_decide_eq_true hp.1]
  intro v hv
  simp only [List.mem_cons, List.not_mem_nil, or_false] at hv
  rcases hv with rfl | rfl | rfl <;> exact ⟨rfl, trivial⟩

/-- The hypotheses of C56 for backbones, after a state has been saved and a literal has been added. -/
example : ∃ X x, FRuns (exEnv .fullPg) (fun _ => 7) X x ∧ X.saved = [(0, exSpec.fs)] ∧ X.Over (fun _ => 7) ∧
    ∃ m b, x.m.backbone demoM 1000 [vA, vC, .named 5] .positiveAndNegative = .ok (m, some b) ∧ b.pos = some [vA, .named 5] := by
  have hex := exF_ex .fullPg (fun x => okB (x.m.save demoM) fun r => okB (FMini.add (exEnv .fullPg) (.lit vA.p) { x with m := r.1 }) fun y =>
    okB (y.m.backbone demoM 1000 [vA, vC, .named 5] .positiveAndNegative) fun r => r.2.any fun b => decide (b.pos = some [vA, .named 5])) (by decide +kernel)
  obtain ⟨x, h, hp⟩ := hex
  obtain ⟨⟨m1, k⟩, e1, h1⟩ := okB_ok hp
  obtain ⟨y, e2, h2⟩ := okB_ok h1
  obtain ⟨⟨m2, r⟩, e3, h3⟩ := okB_ok h2
  have hin : Input (exFCfg .swc true) x.w.cnt (.lit vA.p) := by
    refine ⟨.lit _, ⟨fun c hc => ?_, fun p hp => ?_⟩, fun v hv => ?_⟩
    · rcases sub_operands.1 hc with h | ⟨k, hk, _⟩
      · cases h
      · simp [Formula.operands] at hk
    · rcases sub_operands.1 hp with h | ⟨k, hk, _⟩
      · cases h
      · simp [Formula.operands] at hk
    · rw [Formula.occ_lit] at hv
      rw [← hv]
      trivial
  refine ⟨_, y, (h.save rfl e1).add hin e2, rfl, ?_, ?_⟩
  · intro f hf
    rcases List.mem_append.1 hf with hf | hf
    · exact exSpec_over f hf
    · rw [List.mem_singleton.1 hf]
      intro v hv
      rw [Formula.occ_lit] at hv
      rw [← hv]
      trivial
  · cases r with
    | none => cases h3
    | some b => exact ⟨m2, b, e3, of_decide_eq_true h3⟩

/-- Literals to optimize, and their selectors. -/
def exOpt : OptF := ⟨[vA.p, vB.p, (Var.named 3).p, (Var.named 5).n], [vA, vB, .named 3, .named 5], true⟩
def exSel : List (Var × Lit) := [(.named 10, vA.p), (.named 11, vB.p), (.named 12, (Var.named 3).p), (.named 13, (Var.named 5).n)]

/-- Whether a variable exists. -/
def oldB (c : AuxTy → Nat) : Var → Bool
  | .named _ => true
  | .aux .tmp _ => false
  | .aux t n => decide (n < c t)

theorem oldB_ok {c : AuxTy → Nat} {v : Var} (h : oldB c v = true) : (ER.mk c []).Old v := by
  refine known_iff.1 ?_
  rcases v with n | ⟨t, n⟩
  · trivial
  · cases t <;> first | cases h; done | exact (of_decide_eq_true h : n < c _)

/-- The hypotheses of C56 for optimization. -/
example : ∃ x, FRuns (exEnv .pg) (fun _ => 7) exSpec x ∧ (∀ l ∈ exOpt.lits, Verif.Known (fun _ => 7) l.v) ∧
    OptOK { NSpec.empty with names := x.m.names } exOpt exSel x.w.cnt ∧
    ∃ m M, x.m.optimize demoM (exFCfg .swc true).cc 1000 exOpt exSel x.w.cnt = .ok (m, some M) ∧ M = ([vB, .named 3, .named 5], [vA]) := by
  have hex := exF_ex .pg (fun x => decide (∀ s ∈ exSel.map Prod.fst, s ∉ x.m.names) && (x.m.names.all (oldB x.w.cnt) &&
    okB (x.m.optimize demoM (exFCfg .swc true).cc 1000 exOpt exSel x.w.cnt) fun r => decide (r.2 = some ([vB, .named 3, .named 5], [vA])))) (by decide +kernel)
  obtain ⟨x, h, hp⟩ := hex
  simp only [Bool.and_eq_true, List.all_eq_true] at hp
  obtain ⟨⟨m, r⟩, e, hr⟩ := okB_ok hp.2.2
  have hr : r = some ([vB, .named 3, .named 5], [vA]) := of_decide_eq_true hr
  subst hr
  refine ⟨x, h, ?_, ⟨List.Perm.refl _, by unfold exSel; decide, ?_, fun s hs => ⟨of_decide_eq_true hp.1 s hs, ?_⟩, ?_, by decide⟩, m, _, e, rfl⟩
  · intro l hl
    simp only [exOpt, List.mem_cons, List.not_mem_nil, or_false] at hl
    rcases hl with rfl | rfl | rfl | rfl <;> trivial
  · intro s hs
    simp only [exSel, List.map_cons, List.map_nil, List.mem_cons, List.not_mem_nil, or_false] at hs
    rcases hs with rfl | rfl | rfl | rfl <;> exact ⟨_, rfl⟩
  · revert s
    decide
  · rintro v (hv | hv | ⟨l, hl, rfl⟩)
    · exact oldB_ok (hp.2.1 v hv)
    · simp only [exOpt, List.mem_cons, List.not_mem_nil, or_false] at hv
      rcases hv with rfl | rfl | rfl | rfl <;> trivial
    · simp only [exOpt, List.mem_cons, List.not_mem_nil, or_false] at hl
      rcases hl with rfl | rfl | rfl | rfl <;> trivial

end Sat
end Verif
