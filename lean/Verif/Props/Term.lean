import Verif.Props.Sat
import Verif.Sat.Conv
/-
Property C67: solving ends.

The model of `solve` (minisat2.rs:433-465) takes a number of rounds after which it gives up with `diverge`; a call of the code ends if, with enough
rounds, the model does not give up.  Three things are shown.

* `search` always ends: each of its rounds (propagation, and then a learnt clause or a decision) makes the trail larger in an order with at most
  `3 ^ n` elements, `n` the number of variables.
* `solve` ends, and answers correctly, under the condition `Ends`: either some restart may have `3 ^ n` conflicts, or the solver is incremental (the
  default; it never deletes learnt clauses then) and the first restart may have at least one conflict.  In the second case nothing is assumed of how the
  budgets grow: a conflict adds a clause or a unit that was not there, and there are finitely many.
* Without such a condition it is false: `C67_zero_budget_counterexample`.

Missing from the full statement (all configurations): non-incremental solvers whose budgets stay below `3 ^ n`.  (For the code this includes every
non-incremental solver with more than 40 variables, in principle, as a budget is a `usize`; `3 ^ 41 > 2 ^ 64`.)
-/
namespace Verif.Sat
open St

section
variable {F : Type} [LinearOrder F] [Flt F] {C : Cfg F} {x : Spec} {y : Sess F}

/-- C67: whenever a search begins while solving, it ends after at most `3 ^ n` rounds, whatever its budget of conflicts is. -/
theorem C67_search (hm : C.clauseMin ≠ .none) (h : Runs C x y) {f : Nat} {sel as : List Nat} (hl : x.Legal (.solve f sel as)) {s : St F} (hs : Solving C y sel as s)
    (budget : Nat) : ∀ rounds ≥ 3 ^ x.n, search C rounds budget s ≠ .diverge := by
  have hh := h.holds hm
  have hr : Ready x.cls C.incremental { y.s with sel := sel, assumptions := as } :=
    (hh.ready.setSel (sel := sel) (by rw [hh.nvars]; exact hl.1)).assume (as := as) (by show ∀ p ∈ as, p < 2 * y.s.nvars; rw [hh.nvars]; exact hl.2)
  obtain ⟨hi, ho, hn⟩ := hs.2.inv hm hr hs.1
  replace hn : s.nvars = x.n := hn.trans hh.nvars
  intro r hr
  exact (search_ends C hm budget hi ho).1 (by rw [hn]; exact hr)

/-- C67: solving ends with the right answer, after any sequence of calls and with any assumptions; the number of rounds needed depends on the configuration
and the number of variables only. -/
theorem C67_solve_partial (hm : C.clauseMin ≠ .none) {n : Nat} (hE : Ends C n) : ∃ f0, ∀ f ≥ f0, ∀ (x : Spec) (y : Sess F), Runs C x y → x.n = n → ∀ sel as,
    x.Legal (.solve f sel as) → ∃ y' b, y.step C (.solve f sel as) = .ok (y', some b) ∧ (b = true ↔ ∃ ρ, Models ρ x.cls ∧ ∀ a ∈ as, litT ρ a) := by
  obtain ⟨f0, hf0⟩ := solveSel_enough C hm hE
  refine ⟨f0, fun f hf x y h hn sel as hl => ?_⟩
  have hh := h.holds hm
  have hd := hf0 f hf x.cls y.s sel as (hh.nvars.trans hn) hh.ready (by rw [← hn]; exact hl.1) (by rw [← hn]; exact hl.2)
  have hst := hh.step hm hl (by rintro (h | ⟨k, h⟩) <;> cases h) (by rintro k h; cases h)
  match hr : y.step C (.solve f sel as), hst with
  | .diverge, _ =>
    refine absurd ?_ hd
    unfold Sess.step at hr
    simp only at hr
    revert hr
    cases Sess.solveSel C f sel as y.s with
    | panic => exact nofun
    | diverge => exact fun _ => rfl
    | ok a => exact nofun
  | .ok (y', r), ⟨x', _, _, hs⟩ =>
    obtain ⟨b, hb, hsol⟩ := hs f sel as rfl
    subst hb
    refine ⟨y', b, rfl, ?_⟩
    cases b with
    | true =>
      obtain ⟨_, _, h2, h3⟩ := hsol.sat rfl
      exact iff_of_true rfl ⟨_, h2, h3⟩
    | false =>
      refine iff_of_false nofun ?_
      rintro ⟨ρ, h1, h2⟩
      exact C29_unsat_partial hm h hl hr ρ h1 h2

/-- C67, why a condition on the budgets is needed: if all budgets are 0, no call of a solver that is not known to be unsatisfiable ends, whatever the
number of rounds is. -/
theorem C67_zero_budget (hm : C.clauseMin ≠ .none) (h : Runs C x y) (hb : ∀ e, Flt.toNat (Flt.mul (Flt.pow C.restartInc e) (Flt.ofInt C.restartFirst)) = 0)
    (ho : y.s.ok = true) (f : Nat) (sel as : List Nat) : y.step C (.solve f sel as) = .diverge := by
  have hr := (h.holds hm).ready
  have hb' : ∀ k, budget C k = 0 := by
    intro k
    unfold budget
    cases lubyExp k with
    | none => rfl
    | some e => exact hb e
  obtain ⟨hi, hq⟩ := hr.full ho
  have key : ∀ s : St F, s.qhead = s.trail.length → s.ok = true → s.lim = [] → solve C f s = .diverge := by
    intro s h1 h2 h3
    unfold solve
    simp only
    rw [if_neg (by rw [h2]; simp), restartLoop_zero C hb' f f 0 _ (by exact h1) (by exact h2) (by exact h3)]
  unfold Sess.step Sess.solveSel solveWith
  simp only
  rw [key { y.s with sel := sel, assumptions := as } hq ho hr.lim]

end

/-! ### Cases that meet the hypotheses -/

/-- The condition holds for the configuration of the examples (the default values of the code, over the integers) and all numbers of variables, because the solver is incremental. -/
example (n : Nat) : Ends demoCfg n := .inr ⟨rfl, by decide⟩

/-- It holds as well without incremental mode, because the budgets grow beyond all bounds (over the integers). -/
example (n : Nat) : Ends { demoCfg with incremental := false } n := by
  refine .inl ⟨2 * n, ?_⟩
  show 3 ^ n ≤ ((2 : Int) ^ (2 * n) * 100).toNat
  have h1 : (3 : Nat) ^ n ≤ 2 ^ (2 * n) * 100 := by
    rw [Nat.pow_mul]
    exact Nat.le_trans (Nat.pow_le_pow_left (by omega) n) (Nat.le_mul_of_pos_right _ (by omega))
  have h2 : ((2 : Int) ^ (2 * n) * 100).toNat = 2 ^ (2 * n) * 100 := by
    have : ((2 : Int) ^ (2 * n) * 100) = ((2 ^ (2 * n) * 100 : Nat) : Int) := by push_cast; rfl
    rw [this, Int.toNat_natCast]
  rw [h2]
  exact h1

/-- A solver with a variable, in which the call of the theorems is legal. -/
example : ∃ x : Spec, ∃ y : Sess Int, Runs demoCfg x y ∧ x.n = 1 ∧ x.Legal (.solve 5 [] [0]) :=
  ⟨_, _, Runs.step (op := .newVar false) .new trivial (by rintro (h | ⟨k, h⟩) <;> cases h) (by rintro k h; cases h) rfl rfl, rfl, by simp [Spec.Legal, Spec.empty]⟩

/-- `restart_first = 0`, in an otherwise sensible configuration. -/
def zeroCfg : Cfg Int := { demoCfg with restartFirst := 0 }

/-- C67, the full statement is false: a new solver with `restart_first = 0` does not end, although it holds no clause. -/
theorem C67_zero_budget_counterexample (f : Nat) : (Sess.new zeroCfg).step zeroCfg (.solve f [] []) = .diverge :=
  C67_zero_budget (by decide) .new (fun e => by show ((2 : Int) ^ e * 0).toNat = 0; simp) rfl f [] []

end Verif.Sat
