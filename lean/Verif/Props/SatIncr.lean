import Verif.Sat.Incr
import Verif.Props.SatFun
import Verif.Props.Card
/-
Property C71: cardinality constraints on a solver whose bounds are tightened between the solver calls.

The specification is `Goal` (the clauses, and the constraints with their current bounds), `Con.Holds` (the number of true variables respects the bound) and
`Legal` (what a user may call).  `IRuns C cnt X st` relates the specification and the solver after any sequence of legal calls, starting with a solver after any
sequence of calls (`NRuns`).

As in `Props/Sat.lean`, clause minimization must not be switched off.  A lower bound above the number of variables is not legal (see C25).
-/
namespace Verif.Sat.Incr
open St ER

section
variable {F : Type} [LinearOrder F] [Flt F] {C : MCfg F} {cnt : AuxTy → Nat} {X : Goal} {st : IncS F}

/-- The specification and the solver after a sequence of calls. -/
inductive IRuns (C : MCfg F) (cnt : AuxTy → Nat) : Goal → IncS F → Prop
  | start {N : NSpec} {m : Mini F} {r : Option Bool} : NRuns C N m → (∀ v ∈ N.names, ER.Old ⟨cnt, []⟩ v) → IRuns C cnt ⟨N.cls, []⟩ ⟨m, ⟨cnt, []⟩, [], r⟩
  | step {X : Goal} {st st' : IncS F} {op : Op} {r : Option Bool} : IRuns C cnt X st → Legal cnt X st op → st.step C op = .ok (st', r) → IRuns C cnt (X.step op) st'

theorem IRuns.inv (hm : C.clauseMin ≠ .none) (h : IRuns C cnt X st) : Inv C cnt X st := by
  induction h with
  | start h hN => exact .start (h.holds hm) hN _
  | step _ hl e ih =>
    have := ih.step hm hl
    rw [e] at this
    exact this

/-- The bound put on the solver for a constraint is the constraint. -/
theorem C71_constraint {cc : CC} (he : cc.cmp ≠ .eq) (hl : cc.cmp = .lt → cc.rhs ≠ 0) (σ : Asg) : (conOf cc).Holds σ ↔ cc.Holds σ := by
  obtain ⟨vs, cmp, r⟩ := cc
  cases cmp with
  | eq => exact absurd rfl he
  | le => exact Iff.rfl
  | ge => exact Iff.rfl
  | lt =>
    have : r ≠ 0 := hl rfl
    show cntV σ vs ≤ r - 1 ↔ cntV σ vs < r
    omega
  | gt =>
    show r + 1 ≤ cntV σ vs ↔ r < cntV σ vs
    omega

/-- **C71 (calls).** No legal call panics, and only the search may take forever. -/
theorem C71_calls_partial (hm : C.clauseMin ≠ .none) (h : IRuns C cnt X st) {op : Op} (hl : Legal cnt X st op) :
    match st.step C op with
    | .panic => False
    | .diverge => ∃ f sel as, op = .solve f sel as
    | .ok (st', _) => IRuns C cnt (X.step op) st' := by
  have := (h.inv hm).step hm hl
  revert this
  match e : st.step C op with
  | .panic => exact fun h => h
  | .diverge => exact fun h => h
  | .ok (st', r) => exact fun _ => .step h hl e

/-- **C71 (SAT).** After a SAT answer the model satisfies the clauses, every constraint with its current bound, and the assumptions. -/
theorem C71_sat_partial (hm : C.clauseMin ≠ .none) (h : IRuns C cnt X st) {f : Nat} {sel as : List Lit} (hl : ∀ l ∈ as, ER.Old ⟨cnt, []⟩ l.v) {st' : IncS F}
    (e : st.step C (.solve f sel as) = .ok (st', some true)) :
    Sats st'.m.asg X.base ∧ (∀ k ∈ X.cons, k.Holds st'.m.asg) ∧ ∀ a ∈ as, a.eval st'.m.asg = true := by
  have := (h.inv hm).solve hm (fuel := f) (sel := sel) hl
  rw [e] at this
  obtain ⟨_, b, hb, ht, _⟩ := this
  cases hb
  obtain ⟨⟨h1, h2⟩, h3⟩ := ht rfl
  exact ⟨h1, h2, h3⟩

/-- **C71 (UNSAT).** After an UNSAT answer no assignment satisfies the clauses, every constraint with its current bound, and the assumptions. -/
theorem C71_unsat_partial (hm : C.clauseMin ≠ .none) (h : IRuns C cnt X st) {f : Nat} {sel as : List Lit} (hl : ∀ l ∈ as, ER.Old ⟨cnt, []⟩ l.v) {st' : IncS F}
    (e : st.step C (.solve f sel as) = .ok (st', some false)) :
    ¬ ∃ σ, Sats σ X.base ∧ (∀ k ∈ X.cons, k.Holds σ) ∧ ∀ a ∈ as, a.eval σ = true := by
  have := (h.inv hm).solve hm (fuel := f) (sel := sel) hl
  rw [e] at this
  obtain ⟨_, b, hb, _, hf⟩ := this
  cases hb
  rintro ⟨σ, h1, h2, h3⟩
  exact hf rfl σ ⟨h1, h2⟩ h3

/-- **C71 (nothing else).** The clauses on the solver allow an assignment of the variables that existed at the start exactly when it satisfies the clauses and every
constraint with its current bound: the auxiliary variables can always be chosen. -/
theorem C71_exact_partial (hm : C.clauseMin ≠ .none) (h : IRuns C cnt X st) :
    ∃ N : NSpec, NHolds C N st.m ∧ ∀ σ, (∃ σ', Agree ⟨cnt, []⟩ σ σ' ∧ Sats σ' N.cls) ↔ X.Holds σ := by
  have hi := h.inv hm
  obtain ⟨N, hN, hs⟩ := hi.holds
  exact ⟨N, hN, fun σ => by rw [hi.sat]; simp only [hs]⟩

end

/-! ### Examples -/

section
variable {F : Type} [LinearOrder F] [Flt F] {C : MCfg F} {cnt : AuxTy → Nat}

instance (s : ER) (v : Var) : Decidable (s.Old v) :=
  match v with
  | .named _ => .isTrue trivial
  | .aux .tmp _ => .isFalse id
  | .aux .cnf n => inferInstanceAs (Decidable (n < s.cnt .cnf))
  | .aux .cc n => inferInstanceAs (Decidable (n < s.cnt .cc))
  | .aux .pb n => inferInstanceAs (Decidable (n < s.cnt .pb))

instance (k : Con) (r : Nat) : Decidable (k.Tighter r) := by unfold Con.Tighter; infer_instance

instance (k : Con) (σ : Asg) : Decidable (k.Holds σ) := by unfold Con.Holds; infer_instance

/-- Whether a call is legal. -/
def legalB (cnt : AuxTy → Nat) (X : Goal) (st : IncS F) : Op → Bool
  | .cc _ cc => decide (cc.cmp ≠ .eq) && decide (cc.cmp = .lt → cc.rhs ≠ 0) && decide cc.vars.Nodup && decide (cc.vars.length < 2 ^ 30) &&
      decide (∀ v ∈ cc.vars, ER.Old ⟨cnt, []⟩ v)
  | .upper i r => (st.data[i]?).any Option.isSome && (X.cons[i]?).any fun k => k.up && decide (k.Tighter r)
  | .lower i r => (st.data[i]?).any Option.isSome && (X.cons[i]?).any fun k => !k.up && decide (k.Tighter r)
  | .clause c => decide (∀ l ∈ c, ER.Old ⟨cnt, []⟩ l.v)
  | .solve _ _ as => decide (∀ l ∈ as, ER.Old ⟨cnt, []⟩ l.v)

theorem legalB_ok {X : Goal} {st : IncS F} {op : Op} (h : legalB cnt X st op = true) : Legal cnt X st op := by
  have hd : ∀ {i : Nat}, (st.data[i]?).any Option.isSome = true → ∃ d, st.data[i]? = some (some d) := by
    intro i h
    match st.data[i]?, h with
    | some (some d), _ => exact ⟨d, rfl⟩
  cases op with
  | cc cfg cc =>
    simp only [legalB, Bool.and_eq_true, decide_eq_true_eq] at h
    exact ⟨h.1.1.1.1, h.1.1.1.2, h.1.1.2, h.1.2, h.2⟩
  | upper i r =>
    simp only [legalB, Bool.and_eq_true] at h
    refine ⟨hd h.1, ?_⟩
    match X.cons[i]?, h.2 with
    | some k, h => simp at h; exact ⟨k, rfl, h⟩
  | lower i r =>
    simp only [legalB, Bool.and_eq_true] at h
    refine ⟨hd h.1, ?_⟩
    match X.cons[i]?, h.2 with
    | some k, h => simp at h; exact ⟨k, rfl, h⟩
  | clause c => simpa [legalB, Legal] using h
  | solve f sel as => simpa [legalB, Legal] using h

/-- Legal calls one after the other; the answers are collected. -/
def runI (C : MCfg F) (cnt : AuxTy → Nat) : List Op → Goal → IncS F → List Bool → Option (Goal × IncS F × List Bool)
  | [], X, st, bs => some (X, st, bs)
  | op :: ops, X, st, bs =>
    if legalB cnt X st op then
      match st.step C op with
      | .ok (st', r) => runI C cnt ops (X.step op) st' (bs ++ r.toList)
      | _ => none
    else none

theorem runI_runs : ∀ (ops : List Op) {X : Goal} {st : IncS F} {bs : List Bool} {z : Goal × IncS F × List Bool}, IRuns C cnt X st → runI C cnt ops X st bs = some z →
    IRuns C cnt z.1 z.2.1
  | [], _, _, _, _, h, e => by cases e; exact h
  | op :: ops, X, st, bs, z, h, e => by
    unfold runI at e
    by_cases hl : legalB cnt X st op = true
    · rw [if_pos hl] at e
      match e1 : st.step C op, e with
      | .ok (st', r), e => exact runI_runs ops (.step h (legalB_ok hl) e1) e
    · rw [if_neg hl] at e
      cases e

theorem runI_ex {C : MCfg Int} (ops : List Op) (p : Goal → IncS Int → List Bool → Bool)
    (h : (runI C cnt ops ⟨[], []⟩ ⟨.new C, ⟨cnt, []⟩, [], none⟩ []).any (fun z => p z.1 z.2.1 z.2.2) = true) : ∃ X st bs, IRuns C cnt X st ∧ p X st bs = true := by
  match e : runI C cnt ops ⟨[], []⟩ ⟨.new C, ⟨cnt, []⟩, [], none⟩ [], h with
  | some z, h => exact ⟨z.1, z.2.1, z.2.2, runI_runs ops (.start .new (by simp [NSpec.empty])) e, h⟩

end

abbrev vD : Var := .named 3
abbrev vE : Var := .named 4

/-- A configuration of the encoders. -/
def exCc (a b : AmkEnc) : CcCfg := ⟨.pure, a, b, .totalizer⟩

/-- `A + B + C ≤ 2`, `B + C + D + E ≥ 2`, `A`; then `A + B + C ≤ 1`, and finally `B + C + D + E > 2`. -/
def exOps (a b : AmkEnc) : List Op :=
  [.cc (exCc a b) ⟨[vA, vB, vC], .le, 2⟩, .clause [vA.p], .solve 1000 [] [vB.p], .cc (exCc a b) ⟨[vB, vC, vD, vE], .gt, 1⟩, .upper 0 1, .solve 1000 [] [], .lower 1 3]

/-- The hypotheses of C71 for all encoders: the answers are SAT (with `B`) and SAT; now the problem is unsatisfiable. -/
theorem exOps_runs (a b : AmkEnc) : ∃ X st, IRuns demoM (fun _ => 7) X st ∧ X.cons.length = 2 ∧ X.base = [[vA.p]] ∧ st.data.all Option.isSome = true ∧
    ∃ st', st.step demoM (.solve 1000 [] []) = .ok (st', some false) := by
  obtain ⟨X, st, bs, h, hp⟩ := runI_ex (C := demoM) (cnt := fun _ => 7) (exOps a b)
    (fun X st bs => decide (bs = [true, true]) && decide (X.cons.length = 2) && decide (X.base = [[vA.p]]) && st.data.all Option.isSome &&
      okB (st.step demoM (.solve 1000 [] [])) fun x => decide (x.2 = some false)) (by cases a <;> cases b <;> decide +kernel)
  simp only [Bool.and_eq_true, decide_eq_true_eq] at hp
  obtain ⟨⟨⟨⟨_, h2⟩, h3⟩, h4⟩, h5⟩ := hp
  obtain ⟨⟨st', r⟩, e, hr⟩ := okB_ok h5
  rw [decide_eq_true_eq] at hr
  simp only at hr
  subst hr
  exact ⟨X, st, h, h2, h3, h4, st', e⟩

/-- **C71, violated for `model`.** `add_incremental_cc` and the functions that tighten a bound leave the field `result` of the solver alone: `model` then returns the old
model, though it violates the bound just put on the solver (after `add` the same call panics, as documented). -/
theorem C71_stale_model_violated : ∃ X st M, IRuns demoM (fun _ => 7) X st ∧ st.model demoM none = .ok (some M) ∧
    (∃ k ∈ X.cons, ∀ σ : Asg, (∀ v ∈ M.1, σ v = true) → ¬ k.Holds σ) ∧ ∃ st', st.step demoM (.solve 1000 [] []) = .ok (st', some false) := by
  obtain ⟨X, st, bs, h, hp⟩ := runI_ex (C := demoM) (cnt := fun _ => 7)
    [.cc (exCc .totalizer .totalizer) ⟨[vA, vB, vC], .le, 2⟩, .clause [vA.p], .clause [vB.p], .solve 1000 [] [], .upper 0 1]
    (fun X st bs => okB (st.model demoM none) (fun M => decide (M = some ([vA, vB], [vC]))) &&
      decide (X.cons.map (fun k => (k.vars, k.up, k.bound)) = [([vA, vB, vC], true, 1)]) && okB (st.step demoM (.solve 1000 [] [])) fun x => decide (x.2 = some false)) (by decide +kernel)
  simp only [Bool.and_eq_true, decide_eq_true_eq] at hp
  obtain ⟨⟨h1, h2⟩, h3⟩ := hp
  obtain ⟨M, e1, hM⟩ := okB_ok h1
  obtain ⟨⟨st', r⟩, e, hr⟩ := okB_ok h3
  rw [decide_eq_true_eq] at hM hr
  simp only at hr
  subst hr hM
  refine ⟨X, st, _, h, e1, ?_, st', e⟩
  match hX : X.cons, h2 with
  | [⟨vs, up, b⟩], h2 =>
    simp at h2
    obtain ⟨rfl, rfl, rfl⟩ := h2
    refine ⟨_, List.mem_singleton.2 rfl, fun σ hσ hk => ?_⟩
    have hk : cntV σ [vA, vB, vC] ≤ 1 := hk
    simp [cntV, hσ] at hk

end Verif.Sat.Incr
