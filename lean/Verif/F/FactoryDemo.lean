import Verif.F.FactoryRun

/-
A way to build concrete reachable factory states, used for the non-vacuity examples and the
counterexamples.
-/
namespace Verif

instance (c : Cmd) : Decidable c.Pre := by
  cases c <;> simp only [Cmd.Pre, I64, Formula.RhsFits] <;> infer_instance

/-- Runs a list of calls, checking that only known handles are used. -/
def exec : FF → List H → List Cmd → Option (FF × List H)
  | s, p, [] => some (s, p)
  | s, p, c :: cs =>
    if (∀ h ∈ c.args, h ∈ p) ∧ c.Pre then
      match s.call c with
      | some (s', r) => exec s' (r :: p) cs
      | none => none
    else none

theorem exec_run {s s' : FF} {p p' : List H} : ∀ {cs : List Cmd}, Run s p → exec s p cs = some (s', p') → Run s' p'
  | [], h, e => by simp only [exec, Option.some.injEq, Prod.mk.injEq] at e; exact e.1 ▸ e.2 ▸ h
  | c :: cs, h, e => by
    simp only [exec] at e
    split at e
    · rename_i hc
      split at e
      · rename_i s1 r hr
        exact exec_run (.step h hc.1 hc.2 hr) e
      · simp at e
    · simp at e

def smallB (s : FF) : Bool :=
  decide (s.ands.small.vec.length ≤ 64 ∧ s.ors.small.vec.length ≤ 64 ∧ s.nots.small.vec.length ≤ 64 ∧
    s.impls.small.vec.length ≤ 64 ∧ s.equivs.small.vec.length ≤ 64 ∧ s.ccs.vec.length ≤ 64 ∧
    s.pbcs.vec.length ≤ 64 ∧ s.vars.vec.length ≤ 64 ∧ s.cnt .cnf ≤ 64 ∧ s.cnt .cc ≤ 64 ∧ s.cnt .pb ≤ 64 ∧ s.cnt .tmp ≤ 64)

theorem small_of_smallB {s : FF} (h : smallB s = true) : Small s := by
  simp only [smallB, decide_eq_true_eq] at h
  obtain ⟨h1, h2, h3, h4, h5, h6, h7, h8, h9, h10, h11, h12⟩ := h
  exact ⟨⟨by omega, by omega, by omega, by omega, by omega, by omega, by omega⟩, by omega,
    fun t => by cases t <;> omega⟩

/-- State and handles after the calls `cs` (the empty state if a call is not possible). -/
def after (cs : List Cmd) : FF × List H := (exec FF.empty [] cs).getD (FF.empty, [])

theorem after_run (cs : List Cmd) : Run (after cs).1 (after cs).2 := by
  unfold after
  cases h : exec FF.empty [] cs with
  | none => exact .start
  | some p => exact exec_run .start h

/-- Handle of the `i`-th variable. -/
def hv (i : Nat) : H := ⟨.lit true .ff, i, true⟩
/-- Handle of the `i`-th entry of a table. -/
def hc (ty : FTy) (i : Nat) : H := ⟨ty, i, false⟩
/-- Handle of the `i`-th entry of a table of constraints. -/
def hk (ty : FTy) (i : Nat) : H := ⟨ty, i, true⟩

/-- Variables a b c, then `a & b`, `~(a & b)`, `(a & b) | c`, `a + b + c <= 1`, `a + b + c = 1`. -/
def demo : List Cmd :=
  [.var "a", .var "b", .var "c", .nary .conj [hv 0, hv 1], .not (hc .and 0), .nary .disj [hc .and 0, hv 2],
   .cc .le 1 [.named 0, .named 1, .named 2], .cc .eq 1 [.named 0, .named 1, .named 2]]

theorem demo_pool : (after demo).2 =
    [hk .cc 1, hk .cc 0, hc .or 0, hc .not 0, hc .and 0, hv 2, hv 1, hv 0] := by decide

theorem demo_small : smallB (after demo).1 = true := by decide

/-- The state after `n` requests for an auxiliary CNF variable. -/
def auxS (n : Nat) : FF := { FF.empty with cnt := fun t => if t = .cnf then n else 0 }

theorem auxS_run (n : Nat) : ∃ pool, Run (auxS n) pool ∧ ∀ i < n, H.ofLit (Var.p (.aux .cnf i)) ∈ pool := by
  induction n with
  | zero =>
    have : auxS 0 = FF.empty := by simp [auxS, FF.empty]
    exact ⟨[], this ▸ .start, by simp⟩
  | succ n ih =>
    obtain ⟨pool, hr, hp⟩ := ih
    refine ⟨H.ofLit (Var.p (.aux .cnf n)) :: pool, .step hr (c := .aux .cnf) (by simp [Cmd.args]) trivial ?_, ?_⟩
    · simp only [FF.call, FF.newAux]
      rw [if_neg (by decide)]
      simp only [Option.map_some, auxS, if_true, Option.some.injEq, Prod.mk.injEq, and_true]
      congr 1
      funext t
      by_cases ht : t = .cnf <;> simp [ht]
    · intro i hi
      by_cases h : i = n
      · simp [h]
      · exact List.mem_cons_of_mem _ (hp i (by omega))

end Verif
