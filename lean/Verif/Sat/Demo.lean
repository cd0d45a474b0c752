import Verif.Sat.During
import Mathlib.Algebra.Order.Ring.Int
/-
Integers instead of floating-point numbers, to run the solver in examples.
-/
namespace Verif.Sat
open St

/-- Integers as numbers of the solver. -/
instance : Flt Int where
  ofInt n := n
  add a b := a + b
  mul a b := a * b
  div a b := a / b
  pow a n := a ^ n
  toNat := Int.toNat
  toInt n := n
  e20 := 1000000
  em20 := 1
  e100 := 1000000
  em100 := 1

/-- A configuration for examples; the defaults of minisat_config.rs:68-99 where they are integers. -/
def demoCfg : Cfg Int where
  incremental := true
  clauseMin := .deep
  removeSatisfied := true
  proofGen := false
  varInc := 1
  varDecay := 1
  clauseDecay := 1
  restartFirst := 100
  restartInc := 2
  learntsizeFactor := 1
  learntsizeInc := 1
  bbInitialRotatable := true
  bbComplement := true
  bbRotatable := true

section
variable {F : Type} [LinearOrder F] [Flt F]

/-- Whether a call is legal. -/
def legalB (x : Spec) : Op → Bool
  | .newVar _ => true
  | .add c => c.all (· < 2 * x.n)
  | .solve _ sel as => sel.all (· < 2 * x.n) && as.all (· < 2 * x.n)
  | .save => true
  | .load k => (Spec.cut k x.saved).isSome

/-- Whether no clause stored since state `k` was saved has the same literals as an older one. -/
def separateB (y : Sess F) (k : Nat) : Bool :=
  match y.handles[k]? with
  | none => true
  | some st => (y.s.clauses.take st.clauses).all fun i => (y.s.clauses.drop st.clauses).all fun j => !decide ((y.s.data i).Perm (y.s.data j))

theorem separateB_ok {y : Sess F} {k : Nat} (h : separateB y k = true) : y.Separate k := by
  intro st e i hi j hj hp
  unfold separateB at h
  rw [e] at h
  simp only [List.all_eq_true] at h
  simpa [hp] using h i hi j hj

/-- Whether the conditions of `Runs` on saving and loading hold. -/
def stateB (C : Cfg F) (y : Sess F) : Op → Bool
  | .save => C.incremental
  | .load k => C.incremental && separateB y k
  | _ => true

/-- Runs a list of calls if they are legal; the answers are collected. -/
def runOps (C : Cfg F) : List Op → Spec → Sess F → Option (List Bool × Spec × Sess F)
  | [], x, y => some ([], x, y)
  | op :: ops, x, y =>
    if legalB x op && stateB C y op then
      match x.step op, y.step C op with
      | some x', .ok (y', r) => (runOps C ops x' y').map fun z => (r.toList ++ z.1, z.2)
      | _, _ => none
    else none

theorem runOps_runs {C : Cfg F} (ops : List Op) : ∀ {x : Spec} {y : Sess F} {z}, Runs C x y → runOps C ops x y = some z → Runs C z.2.1 z.2.2 := by
  induction ops with
  | nil => intro x y z h e; cases e; exact h
  | cons op ops ih =>
    intro x y z h e
    unfold runOps at e
    by_cases hl : (legalB x op && stateB C y op) = true
    · rw [if_pos hl] at e
      rw [Bool.and_eq_true] at hl
      match hx : x.step op, hy : y.step C op, e with
      | some x', .ok (y', r), e =>
        simp only at e
        obtain ⟨w, hw, rfl⟩ := Option.map_eq_some_iff.1 e
        refine ih (z := w) (h.step ?_ ?_ ?_ hx hy) hw
        · cases op with
          | newVar p => trivial
          | add c =>
            have := hl.1
            simpa [legalB, Spec.Legal] using this
          | solve f sel as =>
            have := hl.1
            simpa [legalB, Spec.Legal] using this
          | save => trivial
          | load k => exact hl.1
        · rintro (rfl | ⟨k, rfl⟩)
          · exact hl.2
          · have := hl.2
            simp only [stateB, Bool.and_eq_true] at this
            exact this.1
        · rintro k rfl
          have := hl.2
          simp only [stateB, Bool.and_eq_true] at this
          exact separateB_ok this.2
      | none, _, e => cases e
      | some _, .panic, e => cases e
      | some _, .diverge, e => cases e
    · rw [if_neg hl] at e
      cases e

/-- One iteration of the loop of `search`, without restarts. -/
def walk1 (C : Cfg F) (s : St F) : Option (St F) :=
  match s.prop with
  | some (s1, some id) => if s1.lim.length ≠ 0 then learn C id s1 else none
  | some (s1, none) =>
    match noConflict C false s1 with
    | .again s2 => some s2
    | _ => none
  | none => none

/-- Several iterations. -/
def walk (C : Cfg F) : Nat → St F → Option (St F)
  | 0, s => some s
  | n + 1, s => (walk1 C s).bind (walk C n)

theorem walk_during {C : Cfg F} {s0 : St F} (n : Nat) : ∀ {s s' : St F}, During C s0 s → walk C n s = some s' → During C s0 s' := by
  induction n with
  | zero => intro s s' h e; cases e; exact h
  | succ n ih =>
    intro s s' h e
    obtain ⟨s1, e1, e2⟩ := Option.bind_eq_some_iff.1 e
    refine ih ?_ e2
    unfold walk1 at e1
    match hp : s.prop, e1 with
    | some (t, some id), e1 =>
      simp only at e1
      by_cases hz : t.lim.length ≠ 0
      · rw [if_pos hz] at e1
        exact h.conflict hp hz e1
      · rw [if_neg hz] at e1
        cases e1
    | some (t, none), e1 =>
      simp only at e1
      match hn : noConflict C false t, e1 with
      | .again s2, e1 =>
        cases e1
        exact h.again hp hn

/-- The state in which `solve` begins. -/
def begin_ (C : Cfg F) (s0 : St F) : St F := { s0 with
  model := []
  conflict := []
  adjConfl := Flt.ofInt 100
  adjCnt := 100
  maxLearnts := Flt.mul (Flt.ofInt s0.clauses.length) C.learntsizeFactor
  selIdx := 0 }

/-- The state after `n` iterations, and what propagation gives there. -/
def probe (C : Cfg F) (s0 : St F) (n : Nat) : Option (St F × St F × Option Nat) :=
  (walk C n (begin_ C s0)).bind fun s => s.prop.map fun r => (s, r)

theorem probe_during {C : Cfg F} {s0 : St F} {n : Nat} {r : St F × St F × Option Nat} (h : probe C s0 n = some r) : During C s0 r.1 ∧ r.1.prop = some r.2 := by
  obtain ⟨s, h1, h2⟩ := Option.bind_eq_some_iff.1 h
  obtain ⟨q, h3, rfl⟩ := Option.map_eq_some_iff.1 h2
  exact ⟨walk_during n .start h1, h3⟩

/-- Some iteration satisfies a condition. -/
theorem probe_ex {C : Cfg F} {s0 : St F} {n : Nat} {P : St F × St F × Option Nat → Bool} (h : (probe C s0 n).any P = true) : ∃ r, During C s0 r.1 ∧ r.1.prop = some r.2 ∧ P r = true := by
  cases hp : probe C s0 n with
  | none => rw [hp] at h; cases h
  | some r => rw [hp] at h; exact ⟨r, (probe_during hp).1, (probe_during hp).2, h⟩

end
end Verif.Sat
