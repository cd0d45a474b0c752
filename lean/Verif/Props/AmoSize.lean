import Verif.Enc.AmoSize
import Verif.Props.Amo
/-
C78: sizes of the at-most-one encodings.  `n` is the number of variables; square roots,
logarithms and quotients are given by any number that bounds them from above.
-/
namespace Verif
open ER

theorem clog2_le {m b : Nat} (h : m ≤ 2 ^ b) : clog2 m ≤ b := by
  unfold clog2
  by_cases h1 : m ≤ 1
  · rw [if_pos h1]; omega
  · rw [if_neg h1]
    have := (Nat.log2_lt (n := m - 1) (k := b) (by omega)).2 (by omega)
    omega

/-- C78: the pure encoding writes exactly one clause for each pair and no new variable. -/
theorem C78_pure {vars : List Var} {s s' : ER} {fuel : Nat} (h2 : 2 ≤ vars.length) (h : amo .pure fuel vars s = .ok s') :
    2 * s'.clauses.length = 2 * s.clauses.length + vars.length * (vars.length - 1) ∧ s'.cnt = s.cnt := by
  simp only [amo, if_neg (show ¬ vars.length ≤ 1 by omega)] at h
  injection h with h
  subst h
  have := pairNeg_length (vars.map Var.p)
  rw [List.length_map] at this
  simp only [amoPure, ER.addClauses, List.length_append, and_true]
  omega

/-- C78: the ladder encoding writes exactly `3n - 4` clauses and `n - 1` new variables. -/
theorem C78_ladder {vars : List Var} {s s' : ER} {fuel : Nat} (h2 : 2 ≤ vars.length) (h : amo .ladder fuel vars s = .ok s') :
    s'.clauses.length + 4 = s.clauses.length + 3 * vars.length ∧ s'.cnt .cc + 1 = s.cnt .cc + vars.length := by
  simp only [amo, if_neg (show ¬ vars.length ≤ 1 by omega)] at h
  injection h with h
  subst h
  exact amoLadder_size h2

/-- C78: the product encoding writes at most `2n + O(√n)` clauses, and never more than `14n`,
whatever the bound of the recursion; the number of new variables is `O(√n)`. -/
theorem C78_product {vars : List Var} {s s' : ER} {fuel rb r : Nat} (hrb : 2 ≤ rb) (hr : vars.length ≤ r * r)
    (h2 : 2 ≤ vars.length) (h : amo (.product rb) fuel vars s = .ok s') :
    Adds s s' (14 * vars.length) (14 * r) ∧ Adds s s' (2 * vars.length + (rb + 28) * r) (14 * r) := by
  simp only [amo, if_neg (show ¬ vars.length ≤ 1 by omega)] at h
  cases e : productRec rb fuel vars s with
  | none => rw [e] at h; cases h
  | some s1 =>
    rw [e] at h
    injection h with h
    subst h
    obtain ⟨a, b⟩ := productRec_size hrb fuel vars s s1 (by omega) e
    have hc : ceilSqrt vars.length ≤ r := ceilSqrt_le hr
    have b' := b.mono (k' := 2 * vars.length + (rb + 28) * r) (a' := 14 * r)
      (by have := Nat.mul_le_mul_left (rb + 28) hc; omega) (by omega)
    exact ⟨⟨a.1, b'.2.1, b'.2.2⟩, b'⟩

/-- C78: the nested encoding writes at most `(g + 2)(n - 2) / 2` clauses for groups of less than
`g` literals, `3n - 6` for the smallest groups, and at most `n - 3` new variables. -/
theorem C78_nested {vars : List Var} {s s' : ER} {fuel gs : Nat} (hg : 4 ≤ gs) (h3 : 3 ≤ vars.length)
    (h : amo (.nested gs) fuel vars s = .ok s') : Adds s s' ((gs + 2) * (vars.length - 2) / 2) (vars.length - 3) := by
  simp only [amo, if_neg (show ¬ vars.length ≤ 1 by omega), amoNested] at h
  cases e : nestedRec gs fuel (vars.map Var.p) s with
  | none => rw [e] at h; cases h
  | some s1 =>
    rw [e] at h
    injection h with h
    subst h
    have := nestedRec_size hg fuel _ s s1 (by simpa using h3) e
    rwa [List.length_map] at this

/-- C78: the commander encoding writes at most `(3k + 7)n / 2` clauses and `2n` new variables for
groups of `k` literals. -/
theorem C78_commander {vars : List Var} {s s' : ER} {fuel k : Nat} (hk : 2 ≤ k) (h2 : 2 ≤ vars.length)
    (h : amo (.commander k) fuel vars s = .ok s') : Adds s s' ((3 * k + 7) * vars.length / 2) (2 * vars.length) := by
  simp only [amo, if_neg (show ¬ vars.length ≤ 1 by omega), amoCommander] at h
  rw [if_neg (by omega)] at h
  cases e : commanderLoop k fuel false (vars.map Var.p) s with
  | none => rw [e] at h; cases h
  | some s1 =>
    rw [e] at h
    injection h with h
    subst h
    obtain ⟨c, hc, a⟩ := commanderLoop_size hk fuel false _ s s1 (by rw [List.length_map]; omega) e
    rw [List.length_map] at hc a
    exact a.mono (by omega) (Nat.le_refl _)

/-- C78: the binary encoding writes at most `n·⌈log₂ n⌉` clauses and `⌈log₂ n⌉` new variables. -/
theorem C78_binary {vars : List Var} {s s' : ER} {fuel b : Nat} (hb : vars.length ≤ 2 ^ b)
    (h : amo .binary fuel vars s = .ok s') : Adds s s' (vars.length * b) b := by
  simp only [amo] at h
  by_cases h1 : vars.length ≤ 1
  · rw [if_pos h1] at h
    injection h with h
    subst h
    exact Adds.rfl.mono (by omega) (by omega)
  · rw [if_neg h1] at h
    injection h with h
    subst h
    exact (amoBinary_size vars s).mono (Nat.mul_le_mul_left _ (clog2_le hb)) (clog2_le hb)

/-- The number of groups of a bimander encoding (specification of `BimanderGroupSize`). -/
def BimanderGroups (n m : Nat) : AmoCfg → Prop
  | .bimanderFixed k => m = k
  | .bimanderHalf => m = n / 2
  | .bimanderSqrt => m * m ≤ n ∧ n < (m + 1) * (m + 1)
  | _ => False

/-- C78: with `m` groups of at most `g` literals, the bimander encoding writes at most
`n(g - 1)/2 + n·⌈log₂ m⌉` clauses and `⌈log₂ m⌉` new variables. -/
theorem C78_bimander {cfg : AmoCfg} {vars : List Var} {s s' : ER} {fuel m g b : Nat} (hm : BimanderGroups vars.length m cfg)
    (h1 : 1 ≤ m) (hg : vars.length ≤ m * g) (hb : m ≤ 2 ^ b) (h : amo cfg fuel vars s = .ok s') :
    Adds s s' (vars.length * (g - 1) / 2 + vars.length * b) b := by
  simp only [amo] at h
  by_cases hl : vars.length ≤ 1
  · rw [if_pos hl] at h
    injection h with h
    subst h
    exact Adds.rfl.mono (by omega) (by omega)
  · rw [if_neg hl] at h
    have key : Adds s (amoBimander m vars s) (vars.length * (g - 1) / 2 + vars.length * b) b := by
      refine (amoBimander_size h1 vars s).mono ?_ (clog2_le hb)
      have x1 : ceilDiv vars.length m ≤ g := ceilDiv_le (by omega) hg
      have x2 : vars.length * (ceilDiv vars.length m - 1) ≤ vars.length * (g - 1) := Nat.mul_le_mul_left _ (by omega)
      have x3 := Nat.mul_le_mul_left vars.length (clog2_le hb)
      omega
    cases cfg with
    | bimanderFixed k =>
      obtain rfl : m = k := hm
      have h : (if m = 0 then Out.panic else .ok (amoBimander m vars s)) = .ok s' := h
      rw [if_neg (by omega)] at h
      injection h with h
      subst h
      exact key
    | bimanderHalf =>
      obtain rfl : m = vars.length / 2 := hm
      injection h with h
      subst h
      exact key
    | bimanderSqrt =>
      obtain ⟨y1, y2⟩ : m * m ≤ vars.length ∧ vars.length < (m + 1) * (m + 1) := hm
      have : floorSqrt vars.length = m := by
        unfold floorSqrt
        have z1 : ceilSqrt (vars.length + 1) ≤ m + 1 := ceilSqrt_le (by omega)
        have z2 : ¬ ceilSqrt (vars.length + 1) ≤ m := by
          intro hz
          have := ceilSqrt_spec (vars.length + 1)
          have := Nat.mul_le_mul hz hz
          omega
        omega
      rw [this] at h
      injection h with h
      subst h
      exact key
    | _ => exact absurd hm (by simp [BimanderGroups])

/-- C78: the default encoding writes at most `14n`, and `2n + 48·⌈√n⌉`, clauses. -/
theorem C78_best {vars : List Var} {s s' : ER} {fuel r : Nat} (hr : vars.length ≤ r * r) (h : amo .best fuel vars s = .ok s') :
    Adds s s' (14 * vars.length) (14 * r) ∧ Adds s s' (2 * vars.length + 48 * r) (14 * r) := by
  simp only [amo] at h
  by_cases hl : vars.length ≤ 1
  · rw [if_pos hl] at h
    injection h with h
    subst h
    exact ⟨Adds.rfl.mono (by omega) (by omega), Adds.rfl.mono (by omega) (by omega)⟩
  · rw [if_neg hl] at h
    by_cases h10 : vars.length ≤ 10
    · rw [if_pos h10] at h
      injection h with h
      subst h
      have e := pairNeg_length (vars.map Var.p)
      rw [List.length_map] at e
      have : vars.length * (vars.length - 1) ≤ vars.length * 9 := Nat.mul_le_mul_left _ (by omega)
      have hr2 : 2 ≤ r := by
        apply Nat.le_of_not_lt; intro hr1
        have := Nat.mul_le_mul (show r ≤ 1 by omega) (show r ≤ 1 by omega)
        omega
      exact ⟨(adds_clauses _ s).mono (by omega) (by omega), (adds_clauses _ s).mono (by omega) (by omega)⟩
    · rw [if_neg h10] at h
      have : amo (.product 20) fuel vars s = .ok s' := by
        simp only [amo, if_neg hl]; exact h
      exact C78_product (by omega) hr (by omega) this

/-! ### Cases -/

private def v40 : List Var := (List.range 40).map Var.named

/-- Case: 40 variables with the nested, commander, product and bimander encodings; the numbers of
clauses and new variables are within the bounds. -/
example : (match amo (.nested 4) 41 v40 ⟨fun _ => 0, []⟩ with | .ok s => some (s.clauses.length, s.cnt .cc) | _ => none) = some (114, 37) ∧
    (4 + 2) * (40 - 2) / 2 = 114 ∧ 40 - 3 = 37 := by
  refine ⟨by decide +kernel, rfl, rfl⟩

example : ∃ s', amo (.product 2) 41 v40 ⟨fun _ => 0, []⟩ = .ok s' ∧ Adds ⟨fun _ => 0, []⟩ s' (14 * 40) (14 * 7) := by
  have hw : Wf ⟨fun _ => 0, []⟩ := by intro c hc; simp at hc
  have hv : ∀ v ∈ v40, ER.Old ⟨fun _ => 0, []⟩ v := by
    intro v hv
    obtain ⟨i, _, rfl⟩ := List.mem_map.1 hv
    trivial
  obtain ⟨s', h, _⟩ := C21_amo_correct (.product 2) (Nat.le_refl 2) v40 ⟨fun _ => 0, []⟩ 41 (by simp [v40]) hw hv
  exact ⟨s', h, by simpa [v40] using (C78_product (r := 7) (Nat.le_refl 2) (by simp [v40]) (by simp [v40]) h).1⟩

example : BimanderGroups 40 6 .bimanderSqrt ∧ 40 ≤ 6 * 7 ∧ 6 ≤ 2 ^ 3 := ⟨⟨by omega, by omega⟩, by omega, by omega⟩

end Verif
