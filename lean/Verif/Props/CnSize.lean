import Verif.Enc.CnSize
import Verif.Props.Card
/-
C81: sizes of the cardinality networks on `n` variables with bound `k`; `e` is any number with
`n ≤ 2^e`.
-/
namespace Verif
open ER

private theorem bind_ok {α β} {x : Out α} {f : α → Out β} {b : β} (h : x.bind f = .ok b) : ∃ a, x = .ok a ∧ f a = .ok b := by
  cases x with
  | ok a => exact ⟨a, rfl, h⟩
  | panic => cases h
  | diverge => cases h

private theorem sort_ok {m : Nat} {x : List Lit} {d : Dir} {s : ER} {r} (h : sortU m x d s = .ok r) : ccSort (x.length + 1) m x d s = some r := by
  unfold sortU at h
  cases e : ccSort (x.length + 1) m x d s with
  | none => rw [e] at h; cases h
  | some y => rw [e] at h; cases h; rfl

/-- The sorter with implications from inputs to outputs only is the counter. -/
private theorem sort_i2o {m : Nat} {x : List Lit} {s : ER} (h20 : 20 ≤ x.length) (hn : x.length < 2 ^ 30) (h2 : 2 ≤ m) (hm : m ≤ x.length) :
    ccSort (x.length + 1) m x .i2o s = some (counterSorter m x s) := by
  rw [ccSort]
  have e : min m x.length = m := Nat.min_eq_left hm
  simp only [e]
  rw [if_neg (by omega), if_neg (by omega), if_neg (by omega), if_neg (by simp), if_neg (by omega), if_pos (sorter_choice hm h20 hn)]

/-- C81: exactly `k`: at most `n·e(e + 1)/2` new variables and three clauses for each. -/
theorem C81_exk {vars : List Var} {k e : Nat} {s s' : ER} (he : vars.length ≤ 2 ^ e) (h : cnExk vars k s = .ok s') :
    ∃ v, 2 * v ≤ vars.length * (e * (e + 1)) ∧ s'.cnt .cc = s.cnt .cc + v ∧ (∀ t, t ≠ .cc → s'.cnt t = s.cnt t) ∧
    s'.clauses.length ≤ s.clauses.length + 3 * v + 2 := by
  obtain ⟨⟨o, s1⟩, h1, h⟩ := bind_ok h
  obtain ⟨l, _, h⟩ := bind_ok h
  obtain ⟨l', _, h⟩ := bind_ok h
  cases h
  obtain ⟨v, ⟨a, b, c⟩, hv⟩ := ccSort_net (by exact nofun) _ e _ _ _ _ _ (by simpa using he) (sort_ok h1)
  refine ⟨v, by simpa using hv, a, b, ?_⟩
  simp only [ER.addClauses, List.length_append, List.length_cons, List.length_nil]
  omega

/-- C81: at most `k` with `k > n/2`: the same, and `n - k` units. -/
theorem C81_amk_large {vars : List Var} {k e : Nat} {s s' : ER} {r} (he : vars.length ≤ 2 ^ e) (hk : vars.length / 2 < k)
    (h : cnAmk vars k false s = .ok (r, s')) :
    ∃ v, 2 * v ≤ vars.length * (e * (e + 1)) ∧ s'.cnt .cc = s.cnt .cc + v ∧ (∀ t, t ≠ .cc → s'.cnt t = s.cnt t) ∧
    s'.clauses.length ≤ s.clauses.length + 3 * v + (vars.length - k) := by
  unfold cnAmk at h
  rw [if_neg (by simp), if_pos hk] at h
  obtain ⟨⟨o, s1⟩, h1, h⟩ := bind_ok h
  cases h
  obtain ⟨v, ⟨a, b, c⟩, hv⟩ := ccSort_net (by exact nofun) _ e _ _ _ _ _ (by simpa using he) (sort_ok h1)
  refine ⟨v, by simpa using hv, a, b, ?_⟩
  simp only [ER.addClauses, List.length_append, List.length_map, List.length_take]
  omega

/-- C81: at most `k` with `k ≤ n/2` (from 20 variables on), or with any bound that may be
lowered later: exactly `(k + 1)(2n - k)/2` new variables and `(k + 1)(2n - k) - k` clauses. -/
theorem C81_amk {vars : List Var} {k : Nat} {inc : Bool} {s : ER} (h20 : 20 ≤ vars.length) (hn : vars.length < 2 ^ 30)
    (h1 : 1 ≤ k) (hk : k < vars.length) (hi : inc = true ∨ k ≤ vars.length / 2) :
    ∃ v r s', 2 * v = (k + 1) * (2 * vars.length - k) ∧ cnAmk vars k inc s = .ok (r, s') ∧ s'.cnt .cc = s.cnt .cc + v ∧
    (∀ t, t ≠ .cc → s'.cnt t = s.cnt t) ∧ s'.clauses.length + k = s.clauses.length + 2 * v := by
  obtain ⟨v, hv, a, b, c⟩ := counterSorter_size (k := k + 1) (x := vars.map Var.p) (s := s) (by omega) (by rw [List.length_map]; exact hk)
  have hs := sort_i2o (m := k + 1) (x := vars.map Var.p) (s := s) (by simpa using h20) (by simpa using hn) (by omega) (by rw [List.length_map]; exact hk)
  have ho : (counterSorter (k + 1) (vars.map Var.p) s).1.length = k + 1 := by simp [counterSorter]
  have e1 : sortU (k + 1) (vars.map Var.p) .i2o s = .ok (counterSorter (k + 1) (vars.map Var.p) s) := by
    unfold sortU; rw [hs]; rfl
  have e2 : getU (counterSorter (k + 1) (vars.map Var.p) s).1 k = .ok ((counterSorter (k + 1) (vars.map Var.p) s).1.nth k) := by
    unfold getU; rw [if_pos (by omega)]
  have e3 : ∃ r, cnAmk vars k inc s = .ok (r, (counterSorter (k + 1) (vars.map Var.p) s).2.addClauses
      [[((counterSorter (k + 1) (vars.map Var.p) s).1.nth k).neg]]) := by
    unfold cnAmk
    cases inc with
    | true => simp only [if_true, e1, Out.bind, e2]; exact ⟨_, rfl⟩
    | false =>
      have : ¬ k > vars.length / 2 := by rcases hi with hi | hi; cases hi; omega
      simp only [Bool.false_eq_true, if_false, if_neg this, e1, Out.bind, e2]; exact ⟨_, rfl⟩
  obtain ⟨r, e3⟩ := e3
  refine ⟨v, r, _, ?_, e3, a, b, ?_⟩
  · rw [hv, List.length_map]
    congr 1
    omega
  · simp only [ER.addClauses, List.length_append, List.length_cons, List.length_nil]
    omega

/-- C81: at least `k`: as at most `n - k` of the negated variables. -/
theorem C81_alk {vars : List Var} {k : Nat} {inc : Bool} {s : ER} (h20 : 20 ≤ vars.length) (hn : vars.length < 2 ^ 30)
    (h1 : 1 ≤ k) (hk : k < vars.length) (hi : inc = true ∨ vars.length - k ≤ vars.length / 2) :
    ∃ v r s', 2 * v = (vars.length - k + 1) * (vars.length + k) ∧ cnAlk vars k inc s = .ok (r, s') ∧ s'.cnt .cc = s.cnt .cc + v ∧
    (∀ t, t ≠ .cc → s'.cnt t = s.cnt t) ∧ s'.clauses.length + (vars.length - k) = s.clauses.length + 2 * v := by
  have hq : 1 ≤ vars.length - k ∧ vars.length - k < vars.length := by omega
  unfold cnAlk
  have hnk : vars.length + k = 2 * vars.length - (vars.length - k) := by omega
  rw [hnk]
  generalize vars.length - k = q at hq hi
  obtain ⟨v, hv, a, b, c⟩ := counterSorter_size (k := q + 1) (x := vars.map Var.n) (s := s) (by omega) (by rw [List.length_map]; exact hq.2)
  have hs := sort_i2o (m := q + 1) (x := vars.map Var.n) (s := s) (by simpa using h20) (by simpa using hn) (by omega) (by rw [List.length_map]; exact hq.2)
  have ho : (counterSorter (q + 1) (vars.map Var.n) s).1.length = q + 1 := by simp [counterSorter]
  have e1 : sortU (q + 1) (vars.map Var.n) .i2o s = .ok (counterSorter (q + 1) (vars.map Var.n) s) := by
    unfold sortU; rw [hs]; rfl
  have e2 : getU (counterSorter (q + 1) (vars.map Var.n) s).1 q = .ok ((counterSorter (q + 1) (vars.map Var.n) s).1.nth q) := by
    unfold getU; rw [if_pos (by omega)]
  have h2 : 2 * v = (q + 1) * (2 * vars.length - q) := by
    rw [hv, List.length_map]
    congr 1
    omega
  refine ⟨v, ?_⟩
  cases inc with
  | true =>
    simp only [if_true, e1, Out.bind, e2]
    refine ⟨_, _, h2, rfl, a, b, ?_⟩
    simp only [ER.addClauses, List.length_append, List.length_cons, List.length_nil]
    omega
  | false =>
    have : ¬ q > vars.length / 2 := by rcases hi with hi | hi; cases hi; omega
    simp only [Bool.false_eq_true, if_false, if_neg this, e1, Out.bind, e2]
    refine ⟨_, _, h2, rfl, a, b, ?_⟩
    simp only [ER.addClauses, List.length_append, List.length_cons, List.length_nil]
    omega

/-- C81: at most `k` of `2k` variables takes `3k² + 2k` clauses, where exactly `k` of them, which
implies it, takes at most `3k·e(e + 1) + 2`. -/
theorem C81_amk_quadratic {vars : List Var} {k e : Nat} {s : ER} (h10 : 10 ≤ k) (hl : vars.length = 2 * k) (hn : k < 2 ^ 29)
    (he : 2 * k ≤ 2 ^ e) :
    (∃ r s', cnAmk vars k false s = .ok (r, s') ∧ s'.clauses.length = s.clauses.length + 3 * (k * k) + 2 * k) ∧
    ∀ s', cnExk vars k s = .ok s' → s'.clauses.length ≤ s.clauses.length + 3 * (k * (e * (e + 1))) + 2 := by
  constructor
  · obtain ⟨v, r, s', hv, h, _, _, hc⟩ := C81_amk (vars := vars) (k := k) (inc := false) (s := s) (by omega) (by omega) (by omega) (by omega) (.inr (by omega))
    refine ⟨r, s', h, ?_⟩
    have e1 : 2 * vars.length - k = 3 * k := by omega
    rw [e1] at hv
    have : (k + 1) * (3 * k) = 3 * (k * k) + 3 * k := by ring
    omega
  · intro s' h
    obtain ⟨v, hv, _, _, hc⟩ := C81_exk (hl ▸ he) h
    rw [hl, Nat.mul_assoc] at hv
    omega

private def v40 : List Var := (List.range 40).map Var.named

/-- Case: 40 variables and bound 20: 1240 clauses for at most, and 1493 with 497 new variables
for exactly. -/
example : (match cnAmk v40 20 false ⟨fun _ => 0, []⟩ with | .ok (_, s) => s.clauses.length | _ => 0) = 1240 ∧
    (match cnExk v40 20 ⟨fun _ => 0, []⟩ with | .ok s => (s.clauses.length, s.cnt .cc) | _ => (0, 0)) = (1493, 497) ∧
    v40.length = 2 * 20 ∧ 2 * 20 ≤ 2 ^ 6 := by
  decide +kernel

end Verif
