import Verif.Enc.TotSize
import Verif.Props.Card
/-
C79: sizes of the totalizer encodings of constraints on `n` variables with bound `k`; `e` is any
number with `n ≤ 2^e`.
-/
namespace Verif
open ER

/-- C79: at most `k`: at most `n·⌈log₂ n⌉ + 3(k + 2)n/2 + n` clauses, and never more than
`n(n - 1)/2 + n·⌈log₂ n⌉ + n`; at most `n·⌈log₂ n⌉` new variables. -/
theorem C79_amk {vars : List Var} {k e : Nat} {s : ER} (h2 : 2 ≤ vars.length) (he : vars.length ≤ 2 ^ e) :
    Adds s (totAmk vars k s).2 (vars.length * e + 3 * (k + 2) * vars.length / 2 + vars.length) (vars.length * e) ∧
    Adds s (totAmk vars k s).2 (vars.length * (vars.length - 1) / 2 + vars.length * e + vars.length) (vars.length * e) := by
  obtain ⟨d, x, y, ⟨t1, t2, z, t3, t4, t5⟩, h1, h3, h4, h5⟩ := totBuild_size .upper (vars := vars) (rhs := k) (s := s) h2
  have hd := t1 e he
  simp only [totAmk]
  generalize totBuild .upper vars k s = r at h1 h3 h4 h5
  obtain ⟨O, s1⟩ := r
  simp only at h1 h3 h4 h5 ⊢
  rw [if_pos (.inl trivial), if_neg (by simp)] at h5
  have hz : 2 * z ≤ 3 * (k + 2) * vars.length := by
    rcases Nat.lt_or_ge (2 * vars.length) (k + 2) with hc | hc
    · have : vars.length * (vars.length - 1) ≤ (k + 2) * vars.length := by
        rw [Nat.mul_comm]; exact Nat.mul_le_mul_right _ (by omega)
      have : (k + 2) * vars.length ≤ 3 * (k + 2) * vars.length := Nat.mul_le_mul_right _ (by omega)
      omega
    · have := t5 hc
      omega
  have hu : ((O.drop k).map fun o => [o.n]).length ≤ vars.length := by
    rw [List.length_map, List.length_drop]; omega
  constructor
  · refine ⟨?_, ?_, h4⟩
    · simp only [ER.addClauses, List.length_append]; omega
    · simp only [ER.addClauses]; omega
  · refine ⟨?_, ?_, h4⟩
    · simp only [ER.addClauses, List.length_append]; omega
    · simp only [ER.addClauses]; omega

/-- C79: at least `k`: exactly `n(n - 1)/2` clauses, one for each new variable, and `k` units,
however small `k` is. -/
theorem C79_alk {vars : List Var} {k e : Nat} {s : ER} (h2 : 2 ≤ vars.length) (hk : k ≤ vars.length) (he : vars.length ≤ 2 ^ e) :
    ∃ d, d ≤ vars.length * e ∧ (totAlk vars k s).2.cnt .cc = s.cnt .cc + d ∧ (∀ t, t ≠ .cc → (totAlk vars k s).2.cnt t = s.cnt t) ∧
    2 * (totAlk vars k s).2.clauses.length = 2 * s.clauses.length + vars.length * (vars.length - 1) + 2 * d + 2 * k := by
  obtain ⟨d, x, y, ⟨t1, t2, z, t3, t4, t5⟩, h1, h3, h4, h5⟩ := totBuild_size .lower (vars := vars) (rhs := k) (s := s) h2
  refine ⟨d, t1 e he, ?_⟩
  simp only [totAlk]
  generalize totBuild .lower vars k s = r at h1 h3 h4 h5
  obtain ⟨O, s1⟩ := r
  simp only at h1 h3 h4 h5 ⊢
  rw [if_neg (by simp), if_pos (.inl trivial)] at h5
  refine ⟨h3, h4, ?_⟩
  simp only [ER.addClauses, List.length_append, List.length_map, List.length_take]
  omega

/-- C79: exactly `k`: at least `n(n - 1)/2` clauses, and at most
`n(n - 1) + 2n·⌈log₂ n⌉ + n`; at most `n·⌈log₂ n⌉` new variables. -/
theorem C79_exk {vars : List Var} {k e : Nat} {s : ER} (h2 : 2 ≤ vars.length) (he : vars.length ≤ 2 ^ e) :
    Adds s (totExk vars k s) (vars.length * (vars.length - 1) + 2 * (vars.length * e) + vars.length) (vars.length * e) ∧
    2 * s.clauses.length + vars.length * (vars.length - 1) ≤ 2 * (totExk vars k s).clauses.length := by
  obtain ⟨d, x, y, ⟨t1, t2, z, t3, t4, t5⟩, h1, h3, h4, h5⟩ := totBuild_size .both (vars := vars) (rhs := k) (s := s) h2
  have hd := t1 e he
  simp only [totExk]
  generalize totBuild .both vars k s = r at h1 h3 h4 h5
  obtain ⟨O, s1⟩ := r
  simp only at h1 h3 h4 h5 ⊢
  rw [if_pos (.inr trivial), if_pos (.inr trivial)] at h5
  refine ⟨⟨?_, ?_, h4⟩, ?_⟩
  · simp only [ER.addClauses, List.length_append, List.length_map, List.length_take, List.length_drop]; omega
  · simp only [ER.addClauses]; omega
  · simp only [ER.addClauses, List.length_append]; omega

private def v20 : List Var := (List.range 20).map Var.named

/-- Case: at most and at least 2 of 20 variables.  190 of the clauses of the latter are those
for pairs. -/
example : (totAmk v20 2 ⟨fun _ => 0, []⟩).2.clauses.length = 121 ∧ (totAlk v20 2 ⟨fun _ => 0, []⟩).2.clauses.length = 280 ∧
    (totAlk v20 2 ⟨fun _ => 0, []⟩).2.cnt .cc = 88 ∧ 2 * 280 = 20 * 19 + 2 * 88 + 2 * 2 ∧ 20 ≤ 2 ^ 5 ∧ v20.length = 20 := by
  refine ⟨by decide +kernel, by decide +kernel, by decide +kernel, rfl, by omega, rfl⟩

end Verif
