import Verif.Sat.Demo
import Verif.Sat.Optimize
/-
Properties C33 (model enumeration), C34 (backbones) and C35 (optimization), and C28/C29 with named variables: `MiniSat` and its functions, for all sequences of calls.

The specification is `NSpec` (the variables and clauses a user expects the solver to hold), `Sats` (an assignment satisfies all clauses), `restrictTo` (an
assignment restricted to variables), `Forced` (a variable has the same value in all models) and `Optimal` (a model with the most or fewest true literals).  `NRuns C X m` relates the specification and the solver after
any sequence of calls.

As in `Props/Sat.lean`, clause minimization must not be switched off, and the user loads states only if no clause to be removed has the same literals as one
to be kept.  That is why the theorems are named `_partial`.  The states that the functions themselves load at their end need no such condition.
-/
namespace Verif.Sat
open St

section
variable {F : Type} [LinearOrder F] [Flt F] {C : MCfg F} {X : NSpec} {m : Mini F}

/-- The specification and the solver after a sequence of calls. -/
inductive NRuns (C : MCfg F) : NSpec → Mini F → Prop
  | new : NRuns C .empty (.new C)
  | step {X X' : NSpec} {m m' : Mini F} {op : NOp} {r : Option Bool} : NRuns C X m → ((op = .save ∨ ∃ k, op = .load k) → C.incremental = true) →
      (∀ k, op = .load k → m.y.Separate k) → X.step op = some X' → m.step C op = .ok (m', r) → NRuns C X' m'
  | enumerate {X : NSpec} {m m' : Mini F} {fuel : Nat} {cfg : EnumCfg} {ms : List NModel} : NRuns C X m → C.incremental = true →
      (∀ v ∈ relVars C cfg X.names, isRelevant C v = true) → m.enumerate C fuel cfg = .ok (m', ms) → NRuns C X.after m'
  | backbone {X : NSpec} {m m' : Mini F} {fuel : Nat} {vars : List Var} {t : BbType} {b : Option (Backbone Var)} : NRuns C X m →
      m.backbone C fuel vars t = .ok (m', b) → NRuns C (X.afterIf C.incremental) m'
  | optimize {X : NSpec} {m m' : Mini F} {cc : CcCfg} {fuel : Nat} {o : OptF} {sm : List (Var × Lit)} {cnt : AuxTy → Nat} {r : Option NModel} : NRuns C X m →
      C.incremental = true → OptOK X o sm cnt → m.optimize C cc fuel o sm cnt = .ok (m', r) → NRuns C X.after m'
  | reset {X : NSpec} {m : Mini F} : NRuns C X m → X.saved = [] → NRuns C { NSpec.empty with count := X.count } (m.reset C)

/-- Calls of `MiniSat` do what the specification says. -/
theorem NHolds.step (hm : C.clauseMin ≠ .none) (h : NHolds C X m) {op : NOp} (hinc : (op = .save ∨ ∃ k, op = .load k) → C.incremental = true)
    (htw : ∀ k, op = .load k → m.y.Separate k) {X' : NSpec} (hX : X.step op = some X') :
    match m.step C op with
    | .panic => False
    | .diverge => ∃ f sel as, op = .solve f sel as
    | .ok (m', _) => NHolds C X' m' := by
  cases op with
  | know phase v =>
    cases hX
    obtain ⟨m', e, h', _⟩ := h.know phase v
    unfold Mini.step
    simp only
    rw [e]
    exact h'
  | add c =>
    cases hX
    obtain ⟨m', e, h', _⟩ := h.addClause c
    unfold Mini.step
    simp only
    rw [e]
    exact h'
  | solve f sel as =>
    cases hX
    have hs := h.solve hm f sel as
    unfold Mini.step
    simp only
    revert hs
    match m.solve C f sel as with
    | .panic => exact fun h => h
    | .diverge => exact fun _ => ⟨f, sel, as, rfl⟩
    | .ok (m', b) => exact fun hs => hs.1
  | save =>
    cases hX
    obtain ⟨m', e, h', _⟩ := h.save hm (hinc (.inl rfl))
    unfold Mini.step
    simp only
    rw [e]
    exact h'
  | load k =>
    obtain ⟨r, hr, rfl⟩ := Option.map_eq_some_iff.1 hX
    obtain ⟨m', e, h'⟩ := h.load hm (hinc (.inr ⟨k, rfl⟩)) (htw k rfl) hr
    unfold Mini.step
    simp only
    rw [e]
    exact h'

/-- The solver always holds what the specification says. -/
theorem NRuns.holds (hm : C.clauseMin ≠ .none) (h : NRuns C X m) : NHolds C X m := by
  induction h with
  | new => exact nholds_new
  | step _ hinc htw hX e ih =>
    have := ih.step hm hinc htw hX
    rw [e] at this
    exact this
  | @enumerate _ _ _ fuel _ _ _ hi hrel e ih =>
    have := enumerate_ok hm hi fuel ih hrel
    rw [e] at this
    exact this.1
  | @backbone _ _ _ fuel vars t _ _ e ih =>
    have := backbone_ok hm fuel ih vars t
    rw [e] at this
    exact this.1
  | @optimize _ _ _ cc fuel _ _ _ _ _ hi ho e ih =>
    have := optimize_ok hm cc fuel ho ih
    rw [e] at this
    exact this.1 hi
  | reset _ hs ih => exact ih.reset hs

/-- C28 with names: the model of a SAT answer satisfies the clauses added and the assumptions. -/
theorem C28_named_partial (hm : C.clauseMin ≠ .none) (h : NRuns C X m) {f : Nat} {sel as : List Lit} {m' : Mini F} (e : m.solve C f sel as = .ok (m', true)) :
    Sats m'.asg X.cls ∧ ∀ a ∈ as, a.eval m'.asg = true := by
  have := (h.holds hm).solve hm f sel as
  rw [e] at this
  exact (this.2.2.2.2.1 rfl).2

/-- C29 with names: after an UNSAT answer no assignment satisfies the clauses added and the assumptions. -/
theorem C29_named_partial (hm : C.clauseMin ≠ .none) (h : NRuns C X m) {f : Nat} {sel as : List Lit} {m' : Mini F} (e : m.solve C f sel as = .ok (m', false)) :
    ∀ σ, Sats σ X.cls → ¬ ∀ a ∈ as, a.eval σ = true := by
  have := (h.holds hm).solve hm f sel as
  rw [e] at this
  exact this.2.2.2.2.2 rfl

/-! ### C33 -/

/-- A reported model has the values of the assignment for the variables. -/
def AgreesOn (R : List Var) (M : NModel) (σ : Asg) : Prop := ∀ v ∈ R, (v ∈ M.1 ↔ σ v = true) ∧ (v ∈ M.2 ↔ σ v = false)

instance (R : List Var) (M : NModel) (σ : Asg) : Decidable (AgreesOn R M σ) := by unfold AgreesOn; infer_instance

theorem agreesOn_restrictTo {R A : List Var} (hs : ∀ v ∈ R, v ∈ A) {σ τ : Asg} : AgreesOn R (restrictTo A τ) σ ↔ ∀ v ∈ R, σ v = τ v := by
  unfold AgreesOn restrictTo
  constructor
  · intro h v hv
    have := (h v hv).1
    simp only [List.mem_filter, hs v hv, true_and] at this
    cases h1 : σ v <;> cases h2 : τ v <;> simp_all
  · intro h v hv
    have := h v hv
    simp only [List.mem_filter, hs v hv, true_and, Bool.not_eq_eq_eq_not, Bool.not_true]
    rw [this]
    exact ⟨Iff.rfl, Iff.rfl⟩

theorem countP_pairwise {R : List Var} {A : List Var} (hs : ∀ v ∈ R, v ∈ A) (σ : Asg) : ∀ {vals : List Asg}, (vals.Pairwise fun σ τ => ∃ v ∈ R, σ v ≠ τ v) →
    (vals.map (restrictTo A)).countP (fun M => decide (AgreesOn R M σ)) ≤ 1
  | [], _ => by simp
  | a :: vals, h => by
    obtain ⟨h1, h2⟩ := List.pairwise_cons.1 h
    rw [List.map_cons, List.countP_cons]
    by_cases ha : AgreesOn R (restrictTo A a) σ
    · have hz : (vals.map (restrictTo A)).countP (fun M => decide (AgreesOn R M σ)) = 0 := by
        rw [List.countP_eq_zero]
        intro M hM hd
        obtain ⟨b, hb, rfl⟩ := List.mem_map.1 hM
        obtain ⟨v, hv, hne⟩ := h1 b hb
        have e1 := (agreesOn_restrictTo hs).1 ha v hv
        have e2 := (agreesOn_restrictTo hs).1 (of_decide_eq_true hd) v hv
        exact hne (e1.symm.trans e2)
      rw [hz]
      split <;> omega
    · rw [if_neg (by simpa using ha)]
      exact countP_pairwise hs σ h2

theorem relVars_allVars {cfg : EnumCfg} {names : List Var} (hrel : ∀ v ∈ relVars C cfg names, isRelevant C v = true) : ∀ v ∈ relVars C cfg names, v ∈ allVars C cfg names := by
  intro v hv
  unfold allVars
  split
  · exact relVars_sub v hv
  · exact List.mem_filter.2 ⟨List.mem_append_left _ hv, hrel v hv⟩

/-- C33: without bound on their number, enumeration returns restrictions of assignments that satisfy the clauses, and every assignment that satisfies the clauses
agrees with exactly one reported model on the variables asked for.  Afterwards the solver still holds the same variables, clauses and saved states (and
one more saved state).  The variables asked for must not be auxiliary variables when these are kept out of models (see `C33_auxiliary_counterexample`). -/
theorem C33_enumeration_partial (hm : C.clauseMin ≠ .none) (hi : C.incremental = true) (h : NRuns C X m) {cfg : EnumCfg} (hmax : cfg.max = none)
    (hrel : ∀ v ∈ relVars C cfg X.names, isRelevant C v = true) {fuel : Nat} {m' : Mini F} {ms : List NModel} (e : m.enumerate C fuel cfg = .ok (m', ms)) :
    (∀ M ∈ ms, ∃ σ, Sats σ X.cls ∧ M = restrictTo (allVars C cfg X.names) σ) ∧
    (∀ σ, Sats σ X.cls → ms.countP (fun M => decide (AgreesOn (relVars C cfg X.names) M σ)) = 1) ∧
    NRuns C X.after m' ∧ X.after.names = X.names ∧ X.after.cls = X.cls := by
  have := enumerate_ok hm hi fuel (h.holds hm) hrel
  rw [e] at this
  obtain ⟨_, vals, rfl, h1, h2, _, h3⟩ := this
  refine ⟨fun M hM => ?_, fun σ hσ => ?_, h.enumerate hi hrel e, rfl, rfl⟩
  · obtain ⟨σ, hσ, rfl⟩ := List.mem_map.1 hM
    exact ⟨σ, h1 σ hσ, rfl⟩
  · refine Nat.le_antisymm (countP_pairwise (relVars_allVars hrel) σ h2) ?_
    obtain ⟨τ, hτ, ha⟩ := h3 (by rw [hmax]; simp) σ hσ
    exact List.countP_pos_iff.2 ⟨_, List.mem_map_of_mem hτ, by simpa using (agreesOn_restrictTo (relVars_allVars hrel)).2 ha⟩

/-- C33: with a bound `k`, at most `k` models are returned, no two of them agree on the variables asked for, and all are found if there are less than `k`. -/
theorem C33_bounded_partial (hm : C.clauseMin ≠ .none) (hi : C.incremental = true) (h : NRuns C X m) {cfg : EnumCfg} {k : Nat} (hmax : cfg.max = some k)
    (hrel : ∀ v ∈ relVars C cfg X.names, isRelevant C v = true) {fuel : Nat} {m' : Mini F} {ms : List NModel} (e : m.enumerate C fuel cfg = .ok (m', ms)) :
    (∀ M ∈ ms, ∃ σ, Sats σ X.cls ∧ M = restrictTo (allVars C cfg X.names) σ) ∧
    (∀ σ, ms.countP (fun M => decide (AgreesOn (relVars C cfg X.names) M σ)) ≤ 1) ∧ ms.length ≤ k ∧
    (ms.length < k → ∀ σ, Sats σ X.cls → ms.countP (fun M => decide (AgreesOn (relVars C cfg X.names) M σ)) = 1) ∧ NRuns C X.after m' := by
  have := enumerate_ok hm hi fuel (h.holds hm) hrel
  rw [e] at this
  obtain ⟨_, vals, rfl, h1, h2, hk, h3⟩ := this
  refine ⟨fun M hM => ?_, fun σ => countP_pairwise (relVars_allVars hrel) σ h2, ?_, fun hlt σ hσ => ?_, h.enumerate hi hrel e⟩
  · obtain ⟨σ, hσ, rfl⟩ := List.mem_map.1 hM
    exact ⟨σ, h1 σ hσ, rfl⟩
  · rw [List.length_map]; exact hk k hmax
  · rw [List.length_map] at hlt
    refine Nat.le_antisymm (countP_pairwise (relVars_allVars hrel) σ h2) ?_
    obtain ⟨τ, hτ, ha⟩ := h3 (fun k' hk' => by rw [hmax] at hk'; cases hk'; exact hlt) σ hσ
    exact List.countP_pos_iff.2 ⟨_, List.mem_map_of_mem hτ, by simpa using (agreesOn_restrictTo (relVars_allVars hrel)).2 ha⟩

/-- C33: enumeration never panics (nor does it run out of iterations). -/
theorem C33_no_panic_partial (hm : C.clauseMin ≠ .none) (hi : C.incremental = true) (h : NRuns C X m) {cfg : EnumCfg}
    (hrel : ∀ v ∈ relVars C cfg X.names, isRelevant C v = true) (fuel : Nat) : m.enumerate C fuel cfg ≠ .panic := by
  intro e
  have := enumerate_ok hm hi fuel (h.holds hm) hrel
  rw [e] at this
  exact this

/-- C33: `count_models` counts the models over all variables of the solver, but never further than to `max + 1`. -/
theorem C33_count_partial (hm : C.clauseMin ≠ .none) (h : NRuns C X m) {fuel max : Nat} {m' : Mini F} {k : Nat} (e : m.countModels C fuel max = .ok (m', k)) :
    ∃ vals : List Asg, vals.length = k ∧ (∀ σ ∈ vals, Sats σ X.cls) ∧ (vals.Pairwise fun σ τ => ∃ v ∈ X.names, σ v ≠ τ v) ∧ k ≤ max + 1 ∧
      (k ≤ max → ∀ σ, Sats σ X.cls → ∃ τ ∈ vals, ∀ v ∈ X.names, σ v = τ v) := by
  have := countModels_ok hm fuel max (h.holds hm)
  rw [e] at this
  exact this

/-! ### C34 -/

/-- C34: if the clauses are satisfiable, the backbone contains a literal of the variables asked for iff it is true in all models (for the polarities asked for);
otherwise the result says that they are unsatisfiable.  The solver holds the same variables and clauses afterwards. -/
theorem C34_backbone_partial (hm : C.clauseMin ≠ .none) (h : NRuns C X m) {fuel : Nat} {vars : List Var} {t : BbType} {m' : Mini F}
    {r : Option (Backbone Var)} (e : m.backbone C fuel vars t = .ok (m', r)) :
    (match (generalizing := false) r with
      | none => ∀ σ, ¬ Sats σ X.cls
      | some b => (∃ σ, Sats σ X.cls) ∧ BbSpec X.cls t vars b) ∧
    NRuns C (X.afterIf C.incremental) m' ∧ (X.afterIf C.incremental).names = X.names ∧ (X.afterIf C.incremental).cls = X.cls := by
  have := backbone_ok hm fuel (h.holds hm) vars t
  rw [e] at this
  refine ⟨this.2, h.backbone e, ?_, ?_⟩ <;> · unfold NSpec.afterIf; split <;> rfl

/-- C34: computing a backbone never panics. -/
theorem C34_no_panic_partial (hm : C.clauseMin ≠ .none) (h : NRuns C X m) (fuel : Nat) (vars : List Var) (t : BbType) :
    m.backbone C fuel vars t ≠ .panic := by
  intro e
  have := backbone_ok hm fuel (h.holds hm) vars t
  rw [e] at this
  exact this

/-! ### C35 -/

/-- C35: the result is a model with the most (or fewest) true literals among all models, restricted to the variables asked for; without a result there is no
model.  An incremental solver holds the same variables and clauses afterwards.  The selectors `@SEL_OPT…` must not be used by anyone else
(see `C35_selector_counterexample`) and the constraints of the encoders have less than 2^30 literals. -/
theorem C35_optimal_partial (hm : C.clauseMin ≠ .none) (h : NRuns C X m) {cc : CcCfg} {fuel : Nat} {o : OptF} {sm : List (Var × Lit)} {cnt : AuxTy → Nat}
    (ho : OptOK X o sm cnt) {m' : Mini F} {r : Option NModel} (e : m.optimize C cc fuel o sm cnt = .ok (m', r)) :
    (match (generalizing := false) r with
      | none => ∀ σ, ¬ Sats σ X.cls
      | some M => ∃ σ, Sats σ X.cls ∧ M = restrictTo (optVars C X.names o) σ ∧
        ∀ τ, Sats τ X.cls → if o.maximize then cntL τ o.lits ≤ cntL σ o.lits else cntL σ o.lits ≤ cntL τ o.lits) ∧
    (C.incremental = true → NRuns C X.after m' ∧ X.after.names = X.names ∧ X.after.cls = X.cls) := by
  have := optimize_ok hm cc fuel ho (h.holds hm)
  rw [e] at this
  refine ⟨?_, fun hi => ⟨h.optimize hi ho e, rfl, rfl⟩⟩
  cases r with
  | none => exact this.2
  | some M =>
    obtain ⟨σ, h1, h2⟩ := this.2
    exact ⟨σ, h1.1, h2, h1.2⟩

/-- C35: optimization never panics (nor does it run out of iterations, nor has it to do without data of the incremental constraint). -/
theorem C35_no_panic_partial (hm : C.clauseMin ≠ .none) (h : NRuns C X m) (cc : CcCfg) (fuel : Nat) {o : OptF} {sm : List (Var × Lit)} {cnt : AuxTy → Nat}
    (ho : OptOK X o sm cnt) : m.optimize C cc fuel o sm cnt ≠ .panic := by
  intro e
  have := optimize_ok hm cc fuel ho (h.holds hm)
  rw [e] at this
  exact this

end

/-! ### Examples -/

section
variable {F : Type} [LinearOrder F] [Flt F]

/-- Whether the conditions of `NRuns` hold. -/
def nlegalB (C : MCfg F) (m : Mini F) : NOp → Bool
  | .save => C.incremental
  | .load k => C.incremental && separateB m.y k
  | _ => true

/-- Runs a list of calls. -/
def runN (C : MCfg F) : List NOp → NSpec → Mini F → Option (NSpec × Mini F)
  | [], X, m => some (X, m)
  | op :: ops, X, m =>
    if nlegalB C m op then
      match X.step op, m.step C op with
      | some X', .ok (m', _) => runN C ops X' m'
      | _, _ => none
    else none

theorem runN_runs {C : MCfg F} (ops : List NOp) : ∀ {X : NSpec} {m : Mini F} {z}, NRuns C X m → runN C ops X m = some z → NRuns C z.1 z.2 := by
  induction ops with
  | nil => intro X m z h e; cases e; exact h
  | cons op ops ih =>
    intro X m z h e
    unfold runN at e
    by_cases hl : nlegalB C m op = true
    · rw [if_pos hl] at e
      match hx : X.step op, hy : m.step C op, e with
      | some X', .ok (m', r), e =>
        refine ih (h.step ?_ ?_ hx hy) e
        · rintro (rfl | ⟨k, rfl⟩)
          · exact hl
          · simp only [nlegalB, Bool.and_eq_true] at hl
            exact hl.1
        · rintro k rfl
          simp only [nlegalB, Bool.and_eq_true] at hl
          exact separateB_ok hl.2
      | none, _, e => cases e
      | some _, .panic, e => cases e
      | some _, .diverge, e => cases e
    · rw [if_neg hl] at e
      cases e

end

/-- A configuration for examples. -/
def demoM : MCfg Int := { demoCfg with initialPhase := false, auxInModels := false }

/-- Variables and literals for examples. -/
abbrev vA : Var := .named 0
abbrev vB : Var := .named 1
abbrev vC : Var := .named 2
abbrev vX : Var := .aux .cnf 0

/-- `A`, `A → B ∨ C` (twice), and an auxiliary variable. -/
def demoN : List NOp := [.add [vA.p], .add [vA.n, vB.p, vC.p], .add [vA.n, vB.p, vC.p], .add [vB.p, vX.p], .solve 100 [] [vB.p]]

/-- Whether a result is a value that passes a test. -/
def okB {α : Type} (r : Res α) (q : α → Bool) : Bool :=
  match r with
  | .ok x => q x
  | _ => false

theorem okB_ok {α : Type} {r : Res α} {q : α → Bool} (h : okB r q = true) : ∃ x, r = .ok x ∧ q x = true := by
  match r, h with
  | .ok x, h => exact ⟨x, rfl, h⟩

theorem runN_ex {C : MCfg Int} (ops : List NOp) (p : NSpec → Mini Int → Bool) (h : (runN C ops .empty (.new C)).any (fun z => p z.1 z.2) = true) :
    ∃ X m, NRuns C X m ∧ p X m = true := by
  match e : runN C ops .empty (.new C), h with
  | some z, h => exact ⟨z.1, z.2, runN_runs ops .new e, h⟩

/-- The hypotheses of C33: three models. -/
example : ∃ X m, NRuns demoM X m ∧ (∀ v ∈ relVars demoM ⟨none, none, none⟩ X.names, isRelevant demoM v = true) ∧
    ∃ m' ms, m.enumerate demoM 100 ⟨none, none, none⟩ = .ok (m', ms) ∧ ms = [([vA, vB], [vC]), ([vA, vB, vC], []), ([vA, vC], [vB])] := by
  obtain ⟨X, m, h, hp⟩ := runN_ex (C := demoM) demoN (fun X m => ((relVars demoM ⟨none, none, none⟩ X.names).all (isRelevant demoM) &&
    okB (m.enumerate demoM 100 ⟨none, none, none⟩) fun x => decide (x.2 = [([vA, vB], [vC]), ([vA, vB, vC], []), ([vA, vC], [vB])]))) (by decide +kernel)
  simp only [Bool.and_eq_true, List.all_eq_true] at hp
  obtain ⟨x, e, hx⟩ := okB_ok hp.2
  exact ⟨X, m, h, hp.1, x.1, x.2, e, of_decide_eq_true hx⟩

/-- The hypotheses of C33 with a bound: two models for `B`, reported together with the additional variable `A`; and one model with bound one. -/
example : ∃ X m, NRuns demoM X m ∧
    (∃ m' ms, m.enumerate demoM 100 ⟨some [vB], some [vA, vB], some 5⟩ = .ok (m', ms) ∧ ms = [([vB, vA], []), ([vA], [vB])]) ∧
    ∃ m' ms, m.enumerate demoM 100 ⟨some [vB], some [vA, vB], some 1⟩ = .ok (m', ms) ∧ ms = [([vB, vA], [])] := by
  obtain ⟨X, m, h, hp⟩ := runN_ex (C := demoM) demoN (fun _ m => ((okB (m.enumerate demoM 100 ⟨some [vB], some [vA, vB], some 5⟩) fun x =>
    decide (x.2 = [([vB, vA], []), ([vA], [vB])])) && okB (m.enumerate demoM 100 ⟨some [vB], some [vA, vB], some 1⟩) fun x =>
    decide (x.2 = [([vB, vA], [])]))) (by decide +kernel)
  simp only [Bool.and_eq_true] at hp
  obtain ⟨x, e, hx⟩ := okB_ok hp.1
  obtain ⟨y, e', hy⟩ := okB_ok hp.2
  exact ⟨X, m, h, ⟨x.1, x.2, e, of_decide_eq_true hx⟩, y.1, y.2, e', of_decide_eq_true hy⟩

/-- C33 does not hold for auxiliary variables when these are kept out of models: `B` and an auxiliary variable have three assignments, the reported models
are the same twice.  (`create_assignment` leaves auxiliary variables out, but the blocking clause contains them.) -/
theorem C33_auxiliary_counterexample : ∃ X m, NRuns demoM X m ∧
    ∃ m' ms, m.enumerate demoM 100 ⟨some [vB, vX], none, none⟩ = .ok (m', ms) ∧ ms = [([vB], []), ([vB], []), ([], [vB])] := by
  obtain ⟨X, m, h, hp⟩ := runN_ex (C := demoM) demoN (fun _ m => okB (m.enumerate demoM 100 ⟨some [vB, vX], none, none⟩) fun x =>
    decide (x.2 = [([vB], []), ([vB], []), ([], [vB])])) (by decide +kernel)
  obtain ⟨x, e, hx⟩ := okB_ok hp
  exact ⟨X, m, h, x.1, x.2, e, of_decide_eq_true hx⟩

/-- The hypotheses of the theorem about `count_models`, which counts to two although the bound is one. -/
example : ∃ X m, NRuns demoM X m ∧ ∃ m' k, m.countModels demoM 100 1 = .ok (m', k) ∧ k = 2 := by
  obtain ⟨X, m, h, hp⟩ := runN_ex (C := demoM) demoN (fun _ m => okB (m.countModels demoM 100 1) fun x => decide (x.2 = 2)) (by decide +kernel)
  obtain ⟨x, e, hx⟩ := okB_ok hp
  exact ⟨X, m, h, x.1, x.2, e, of_decide_eq_true hx⟩

/-- The hypotheses of C34: `A` is true in all models, `B` and the auxiliary variable have both values. -/
example : ∃ X m, NRuns demoM X m ∧ ∃ m' b, m.backbone demoM 100 [vA, vB, vX] .positiveAndNegative = .ok (m', some b) ∧ b.pos = some [vA] ∧ b.neg = some [] ∧
    b.opt = some [vB, vX] := by
  have hex := runN_ex (C := demoM) demoN (fun _ m => okB (m.backbone demoM 100 [vA, vB, vX] .positiveAndNegative) fun x =>
    x.2.any fun b => decide (b.pos = some [vA] ∧ b.neg = some [] ∧ b.opt = some [vB, vX])) (by decide +kernel)
  obtain ⟨X, m, h, hp⟩ := hex
  obtain ⟨⟨m', r⟩, e, hx⟩ := okB_ok hp
  cases r with
  | none => cases hx
  | some b => exact ⟨X, m, h, m', b, e, of_decide_eq_true hx⟩

/-- Literals to optimize, and their selectors. -/
def demoOpt (maximize : Bool) : OptF := ⟨[vA.p, vB.p, vC.n, (Var.named 3).p], [vA, vB, vC, .named 3, .named 4], maximize⟩
def demoSel : List (Var × Lit) := [(.named 10, vA.p), (.named 11, vB.p), (.named 12, vC.n), (.named 13, (Var.named 3).p)]

/-- `A`, `A → B ∨ C`, `¬B ∨ ¬C`, and a variable that implies an auxiliary variable. -/
def demoOpts : List NOp := [.add [vA.p], .add [vA.n, vB.p, vC.p], .add [vB.n, vC.n], .add [(Var.named 3).n, vX.p]]

theorem demoOptOK {X : NSpec} (hX : X.names = [vA, vB, vC, .named 3, vX]) (maximize : Bool) : OptOK X (demoOpt maximize) demoSel (fun _ => 1) where
  lits := List.Perm.refl _
  nodup := by unfold demoSel; decide
  named s hs := by
    simp only [demoSel, List.map_cons, List.map_nil, List.mem_cons, List.not_mem_nil, or_false] at hs
    rcases hs with rfl | rfl | rfl | rfl <;> exact ⟨_, rfl⟩
  fresh := by rw [hX]; cases maximize <;> decide
  old v hv := by
    have : v ∈ [vA, vB, vC, .named 3, vX, .named 4] := by
      rw [hX] at hv
      simp only [demoOpt, List.mem_cons, List.not_mem_nil, or_false, exists_eq_or_imp, exists_eq_left] at hv ⊢
      rcases hv with hv | hv | hv
      · tauto
      · tauto
      · rcases hv with rfl | rfl | rfl | rfl <;> simp [Var.p, Var.n]
    simp only [List.mem_cons, List.not_mem_nil, or_false] at this
    rcases this with rfl | rfl | rfl | rfl | rfl | rfl <;> first | trivial | exact Nat.lt_one_iff.2 rfl
  small := show 4 < 2 ^ 30 by decide

/-- The hypotheses of C35: all four literals of the list can be true, and at least one is. -/
example : ∃ X m, NRuns demoM X m ∧ (∀ maximize, OptOK X (demoOpt maximize) demoSel (fun _ => 1)) ∧
    (∃ m' M, m.optimize demoM ⟨.best, .modular, .modular, .totalizer⟩ 100 (demoOpt true) demoSel (fun _ => 1) = .ok (m', some M) ∧ M = ([vA, vB, .named 3], [vC])) ∧
    ∃ m' M, m.optimize demoM ⟨.best, .totalizer, .totalizer, .totalizer⟩ 100 (demoOpt false) demoSel (fun _ => 1) = .ok (m', some M) ∧ M = ([vA, vC], [vB, .named 3]) := by
  have hex := runN_ex (C := demoM) demoOpts (fun X m => decide (X.names = [vA, vB, vC, .named 3, vX]) &&
    ((okB (m.optimize demoM ⟨.best, .modular, .modular, .totalizer⟩ 100 (demoOpt true) demoSel (fun _ => 1)) fun x => decide (x.2 = some ([vA, vB, .named 3], [vC]))) &&
    okB (m.optimize demoM ⟨.best, .totalizer, .totalizer, .totalizer⟩ 100 (demoOpt false) demoSel (fun _ => 1)) fun x => decide (x.2 = some ([vA, vC], [vB, .named 3])))) (by decide +kernel)
  obtain ⟨X, m, h, hp⟩ := hex
  simp only [Bool.and_eq_true] at hp
  obtain ⟨⟨m1, r1⟩, e1, h1⟩ := okB_ok hp.2.1
  obtain ⟨⟨m2, r2⟩, e2, h2⟩ := okB_ok hp.2.2
  refine ⟨X, m, h, demoOptOK (of_decide_eq_true hp.1), ⟨m1, _, ?_, rfl⟩, m2, _, ?_, rfl⟩
  · rw [e1, show r1 = _ from of_decide_eq_true h1]
  · rw [e2, show r2 = _ from of_decide_eq_true h2]

/-- C35 does not hold if a variable with the name of a selector is already in use: with the clauses `¬@SEL_OPT0 ∨ B` and `¬B`, maximizing `A` gives a model
without `A`, although `A` can be true. -/
theorem C35_selector_counterexample : ∃ X m, NRuns demoM X m ∧
    (∃ m' M, m.optimize demoM ⟨.best, .totalizer, .totalizer, .totalizer⟩ 100 ⟨[vA.p], [vA], true⟩ [(.named 10, vA.p)] (fun _ => 1) = .ok (m', some M) ∧ M = ([], [vA])) ∧
    ∃ σ, Sats σ X.cls ∧ σ vA = true := by
  have hex := runN_ex (C := demoM) [.add [(Var.named 10).n, vB.p], .add [vB.n]] (fun X m => decide (X.cls = [[(Var.named 10).n, vB.p], [vB.n]]) &&
    okB (m.optimize demoM ⟨.best, .totalizer, .totalizer, .totalizer⟩ 100 ⟨[vA.p], [vA], true⟩ [(.named 10, vA.p)] (fun _ => 1)) fun x => decide (x.2 = some ([], [vA]))) (by decide +kernel)
  obtain ⟨X, m, h, hp⟩ := hex
  simp only [Bool.and_eq_true] at hp
  obtain ⟨⟨m1, r1⟩, e1, h1⟩ := okB_ok hp.2
  refine ⟨X, m, h, ⟨m1, _, by rw [e1, show r1 = _ from of_decide_eq_true h1], rfl⟩, fun v => decide (v = vA), ?_, by simp⟩
  rw [of_decide_eq_true hp.1]
  intro c hc
  simp only [List.mem_cons, List.not_mem_nil, or_false] at hc
  rcases hc with rfl | rfl
  · exact ⟨(Var.named 10).n, by simp, by decide⟩
  · exact ⟨vB.n, by simp, by decide⟩

/-- A solver that is not incremental does not hold the same clauses after an optimization: it has no models any more (unless all literals could be true). -/
theorem C35_nonincremental_counterexample : ∃ X m, NRuns { demoM with incremental := false } X m ∧ (∃ σ, Sats σ X.cls) ∧
    ∃ m' M, m.optimize { demoM with incremental := false } ⟨.best, .totalizer, .totalizer, .totalizer⟩ 100 ⟨[vA.p, vB.p], [vA, vB], true⟩ [(.named 10, vA.p), (.named 11, vB.p)] (fun _ => 1) = .ok (m', some M) ∧
      ∃ m'', m'.solve { demoM with incremental := false } 100 [] [] = .ok (m'', false) := by
  have hex := runN_ex (C := { demoM with incremental := false }) [.add [vA.n, vB.n]] (fun X m => decide (X.cls = [[vA.n, vB.n]]) &&
    okB (m.optimize { demoM with incremental := false } ⟨.best, .totalizer, .totalizer, .totalizer⟩ 100 ⟨[vA.p, vB.p], [vA, vB], true⟩ [(.named 10, vA.p), (.named 11, vB.p)] (fun _ => 1))
      fun x => x.2.isSome && okB (x.1.solve { demoM with incremental := false } 100 [] []) fun y => !y.2) (by decide +kernel)
  obtain ⟨X, m, h, hp⟩ := hex
  simp only [Bool.and_eq_true] at hp
  obtain ⟨⟨m1, r1⟩, e1, h1⟩ := okB_ok hp.2
  simp only [Bool.and_eq_true] at h1
  obtain ⟨M, rfl⟩ := Option.isSome_iff_exists.1 h1.1
  obtain ⟨⟨m2, b⟩, e2, h2⟩ := okB_ok h1.2
  simp only [Bool.not_eq_true'] at h2
  subst h2
  refine ⟨X, m, h, ⟨fun _ => false, ?_⟩, m1, M, e1, m2, e2⟩
  rw [of_decide_eq_true hp.1]
  intro c hc
  rw [List.mem_singleton.1 hc]
  exact ⟨vA.n, by simp, rfl⟩

end Verif.Sat
