import Verif.Enc.ModSize
import Verif.Props.Card
/-
C82: size of the modular totalizer, the default of at-most and at-least constraints, on `n`
variables; `e` is any number with `n ≤ 2^e`.
-/
namespace Verif
open ER

/-- C82: at most `k < r²`: at most `12rn + 2n` clauses and `n(e + 3)` new variables. -/
theorem C82_amk {vars : List Var} {k r e : Nat} {inc : Bool} {s s' : ER} {d} (hr : k < r * r) (he : vars.length ≤ 2 ^ e)
    (h : ccAmk .best vars k inc s = .ok (d, s')) :
    Adds s s' (12 * (r * vars.length) + 2 * vars.length) (vars.length * (e + 3)) := by
  unfold ccAmk at h
  by_cases h1 : k ≥ vars.length
  · rw [if_pos h1] at h
    cases h
    exact Adds.rfl.mono (by omega) (by omega)
  rw [if_neg h1] at h
  by_cases h2 : k = 0
  · rw [if_pos h2] at h
    cases h
    exact (adds_clauses _ _).mono (by rw [List.length_map]; omega) (by omega)
  rw [if_neg h2] at h
  simp only at h
  unfold modAmk at h
  cases hb : modBuild (vars.map Var.p) k s with
  | none => rw [hb] at h; cases h
  | some x =>
    obtain ⟨⟨U, W, md⟩, s1⟩ := x
    rw [hb] at h
    cases h
    have := modBuild_size' (e := e) (by rw [List.length_map]; omega) (by omega) (by rw [List.length_map]; omega) hr
      (by rw [List.length_map]; exact he) hb
    rwa [List.length_map] at this

/-- C82: at least `k` with `n - k < r²`: the same, or one clause if `k` is 1 or more than `n`. -/
theorem C82_alk {vars : List Var} {k r e : Nat} {inc : Bool} {s s' : ER} {d} (hr : vars.length - k < r * r) (he : vars.length ≤ 2 ^ e)
    (h : ccAlk .best vars k inc s = .ok (d, s')) :
    Adds s s' (12 * (r * vars.length) + 2 * vars.length) (vars.length * (e + 3)) ∨ Adds s s' 1 0 ∧ (k = 1 ∨ vars.length < k) := by
  unfold ccAlk at h
  by_cases h1 : k > vars.length
  · rw [if_pos h1] at h
    cases h
    exact .inr ⟨adds_clauses _ _, .inr h1⟩
  rw [if_neg h1] at h
  by_cases h2 : k = 0
  · rw [if_pos h2] at h
    cases h
    exact .inl (Adds.rfl.mono (by omega) (by omega))
  rw [if_neg h2] at h
  by_cases h3 : k = 1
  · rw [if_pos h3] at h
    cases h
    exact .inr ⟨adds_clauses _ _, .inl h3⟩
  rw [if_neg h3] at h
  by_cases h4 : k = vars.length
  · rw [if_pos h4] at h
    cases h
    exact .inl ((adds_clauses _ _).mono (by rw [List.length_map]; omega) (by omega))
  rw [if_neg h4] at h
  simp only at h
  unfold modAlk at h
  cases hb : modBuild (vars.map Var.n) (vars.length - k) s with
  | none => rw [hb] at h; cases h
  | some x =>
    obtain ⟨⟨U, W, md⟩, s1⟩ := x
    rw [hb] at h
    cases h
    have := modBuild_size' (e := e) (by rw [List.length_map]; omega) (by omega) (by rw [List.length_map]; omega) hr
      (by rw [List.length_map]; exact he) hb
    rw [List.length_map] at this
    exact .inl this

private def v30 : List Var := (List.range 30).map Var.named

/-- Case: at most 8 of 30 variables, so `r = 3`; the totalizer writes 362 clauses. -/
example : (match ccAmk .best v30 8 false ⟨fun _ => 0, []⟩ with | .ok (_, s) => (s.clauses.length, s.cnt .cc) | _ => (0, 0)) = (249, 109) ∧
    8 < 3 * 3 ∧ v30.length = 30 ∧ 30 ≤ 2 ^ 5 := by
  decide +kernel

end Verif
