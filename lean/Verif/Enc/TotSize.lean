import Verif.Enc.AmoSize
import Verif.Enc.CcEncoder
/-
How many clauses and auxiliary variables the totalizer writes.
-/
namespace Verif
open ER

theorem adderAlk_length (L R O : List Var) : (adderAlk L R O).length + 1 = (L.length + 1) * (R.length + 1) := by
  have row : ∀ i, i ≠ 0 → ((List.range (R.length + 1)).flatMap fun j =>
      if i = 0 ∧ j = 0 then ([] : List Clause)
      else if i = 0 then [[(R.nth (j - 1)).p, (O.nth (L.length + j - 1)).n]]
      else if j = 0 then [[(L.nth (i - 1)).p, (O.nth (R.length + i - 1)).n]]
      else [[(L.nth (i - 1)).p, (R.nth (j - 1)).p, (O.nth (i + j - 2)).n]]).length = R.length + 1 := by
    intro i hi
    rw [sum_const_range (R.length + 1) _ 1 (fun j _ => by
      rw [if_neg (by omega), if_neg hi]; split <;> rfl), Nat.mul_one]
  unfold adderAlk
  rw [List.range_succ_eq_map (n := L.length), List.flatMap_cons, List.length_append, List.flatMap_map,
    sum_const_range L.length _ (R.length + 1) (fun i _ => row (i + 1) (by omega))]
  rw [List.range_succ_eq_map (n := R.length), List.flatMap_cons, List.length_append, List.flatMap_map,
    sum_const_range R.length _ 1 (fun j _ => by rw [if_neg (by omega), if_pos (Eq.refl _)]; rfl)]
  simp only [and_self, if_true, List.length_nil, Nat.add_mul]
  omega

private def cell (L R O : List Var) (rhs i j : Nat) : List Clause :=
  if i = 0 ∧ j = 0 ∨ i + j > rhs + 1 then []
  else if i = 0 then [[(R.nth (j - 1)).n, (O.nth (j - 1)).p]]
  else if j = 0 then [[(L.nth (i - 1)).n, (O.nth (i - 1)).p]]
  else [[(L.nth (i - 1)).n, (R.nth (j - 1)).n, (O.nth (i + j - 1)).p]]

private theorem cell_none {L R O : List Var} {rhs i j : Nat} (h : i = 0 ∧ j = 0 ∨ i + j > rhs + 1) : (cell L R O rhs i j).length = 0 := by
  unfold cell; rw [if_pos h]; rfl

private theorem cell_le {L R O : List Var} {rhs i j : Nat} : (cell L R O rhs i j).length ≤ 1 := by
  unfold cell
  split
  · simp
  · split
    · simp
    · split <;> simp

/-- The pairs of inputs with a clause in the node of an at-most constraint. -/
theorem adderAmk_length (L R O : List Var) (rhs : Nat) : ∃ z, (adderAmk L R O rhs).length ≤ L.length + R.length + z ∧
    z ≤ L.length * R.length ∧ 2 * z ≤ (rhs + 2) * (rhs + 2) := by
  have row : ∀ i, ∀ r, ((List.range (r + 1)).flatMap fun j => cell L R O rhs i j).length ≤ 1 + min r (rhs + 1 - i) := by
    intro i r
    induction r with
    | zero =>
      have := cell_le (L := L) (R := R) (O := O) (rhs := rhs) (i := i) (j := 0)
      simp only [Nat.zero_add, List.range_one, List.flatMap_cons, List.flatMap_nil, List.append_nil]
      omega
    | succ r ih =>
      rw [List.range_succ, List.flatMap_append, List.length_append]
      simp only [List.flatMap_cons, List.flatMap_nil, List.append_nil]
      have := cell_le (L := L) (R := R) (O := O) (rhs := rhs) (i := i) (j := r + 1)
      by_cases h : i + (r + 1) > rhs + 1
      · have := cell_none (L := L) (R := R) (O := O) (rhs := rhs) (i := i) (j := r + 1) (.inr h)
        omega
      · omega
  have row0 : ∀ r, ((List.range (r + 1)).flatMap fun j => cell L R O rhs 0 j).length ≤ r := by
    intro r
    induction r with
    | zero =>
      have := cell_none (L := L) (R := R) (O := O) (rhs := rhs) (i := 0) (j := 0) (.inl ⟨Eq.refl _, Eq.refl _⟩)
      simp only [Nat.zero_add, List.range_one, List.flatMap_cons, List.flatMap_nil, List.append_nil]
      omega
    | succ r ih =>
      rw [List.range_succ, List.flatMap_append, List.length_append]
      simp only [List.flatMap_cons, List.flatMap_nil, List.append_nil]
      have := cell_le (L := L) (R := R) (O := O) (rhs := rhs) (i := 0) (j := r + 1)
      omega
  have H : ∀ l, ∃ z, ((List.range (l + 1)).flatMap fun i => (List.range (R.length + 1)).flatMap fun j =>
      cell L R O rhs i j).length ≤ l + R.length + z ∧ z ≤ l * R.length ∧
      2 * z + (rhs + 1 - l) * (rhs + 1 - l) ≤ (rhs + 1) * (rhs + 1) := by
    intro l
    induction l with
    | zero =>
      refine ⟨0, ?_, by omega, by simp⟩
      have := row0 R.length
      simp only [Nat.zero_add, List.range_one, List.flatMap_cons, List.flatMap_nil, List.append_nil, Nat.add_zero]
      exact this
    | succ l ih =>
      obtain ⟨z, h1, h2, h3⟩ := ih
      have hr := row (l + 1) R.length
      refine ⟨z + min R.length (rhs + 1 - (l + 1)), ?_, ?_, ?_⟩
      · rw [List.range_succ (n := l + 1), List.flatMap_append, List.length_append]
        simp only [List.flatMap_cons, List.flatMap_nil, List.append_nil]
        omega
      · rw [Nat.add_mul, Nat.one_mul]; omega
      · rcases Nat.lt_or_ge l (rhs + 1) with hc | hc
        · obtain ⟨x, hx⟩ : ∃ x, rhs + 1 - l = x + 1 := ⟨rhs - l, by omega⟩
          rw [hx] at h3
          have hx' : rhs + 1 - (l + 1) = x := by omega
          rw [hx']
          have : min R.length x ≤ x := Nat.min_le_right _ _
          nlinarith
        · have hx : rhs + 1 - l = 0 := by omega
          have hx' : rhs + 1 - (l + 1) = 0 := by omega
          rw [hx] at h3
          rw [hx']
          simpa using h3
  obtain ⟨z, h1, h2, h3⟩ := H L.length
  exact ⟨z, h1, h2, by nlinarith⟩

/-- The sizes of a subtree with `n` inputs: `d` outputs of inner nodes, `x` clauses of an at-most
and `y` of an at-least constraint. -/
def TotSz (rhs n d x y : Nat) : Prop :=
  (∀ e, n ≤ 2 ^ e → d ≤ n * e) ∧ 2 * y = n * (n - 1) + 2 * d ∧
  ∃ z, x ≤ d + z ∧ 2 * z ≤ n * (n - 1) ∧ (rhs + 2 ≤ 2 * n → 2 * z + (rhs + 2) * (rhs + 2) ≤ 3 * (rhs + 2) * n)

theorem TotSz.leaf (rhs : Nat) : TotSz rhs 1 0 0 0 :=
  ⟨fun _ _ => by omega, by omega, 0, by omega, by omega, fun h => by
    obtain rfl : rhs = 0 := by omega
    omega⟩

theorem TotSz.node {rhs n l r dl xl yl dr xr yr px pz : Nat} (hn : 2 ≤ n) (hl : l = n / 2) (hr : r = n - l)
    (a : TotSz rhs l dl xl yl) (b : TotSz rhs r dr xr yr) (h1 : px ≤ l + r + pz) (h2 : pz ≤ l * r)
    (h3 : 2 * pz ≤ (rhs + 2) * (rhs + 2)) :
    TotSz rhs n (n + dl + dr) (px + xl + xr) (((l + 1) * (r + 1) - 1) + yl + yr) := by
  obtain ⟨a1, a2, za, a3, a4, a5⟩ := a
  obtain ⟨b1, b2, zb, b3, b4, b5⟩ := b
  obtain ⟨l', rfl⟩ : ∃ l', l = l' + 1 := ⟨l - 1, by omega⟩
  obtain ⟨r', rfl⟩ : ∃ r', r = r' + 1 := ⟨r - 1, by omega⟩
  obtain rfl : n = l' + r' + 2 := by omega
  simp only [Nat.add_sub_cancel] at a2 a4 b2 b4
  have hn1 : l' + r' + 2 - 1 = l' + r' + 1 := by omega
  have hm : (l' + 1 + 1) * (r' + 1 + 1) - 1 = l' * r' + 2 * l' + 2 * r' + 3 := by
    have : (l' + 1 + 1) * (r' + 1 + 1) = l' * r' + 2 * l' + 2 * r' + 4 := by ring
    omega
  refine ⟨?_, ?_, pz + za + zb, by omega, ?_, ?_⟩
  · intro e he
    cases e with
    | zero => omega
    | succ e =>
      rw [Nat.pow_succ] at he
      have := a1 e (by omega)
      have := b1 e (by omega)
      nlinarith
  · rw [hm, hn1]
    nlinarith
  · rw [hn1]
    nlinarith
  · intro hK
    rcases Nat.lt_or_ge (rhs + 2) (l' + r' + 2) with hc | hc
    · have := a5 (by omega)
      have := b5 (by omega)
      nlinarith
    · have hz : 2 * (pz + za + zb) ≤ (l' + r' + 2) * (l' + r' + 1) := by nlinarith
      obtain ⟨u, hu⟩ : ∃ u, rhs + 2 = l' + r' + 2 + u := ⟨rhs - (l' + r'), by omega⟩
      have hN : l' + r' + 2 = (l' + r' + 1) + 1 := Eq.refl _
      have hz2 : (l' + r' + 2) * (l' + r' + 1) ≤ (l' + r' + 2) * (l' + r' + 2) := Nat.mul_le_mul_left _ (by omega)
      have hz3 := Nat.le_trans hz hz2
      rw [hu] at hK ⊢
      clear hz hz2 hN hu hm hn1 h1 h2 h3 a1 a2 a3 a4 a5 b1 b2 b3 b4 b5 hc hn hl hr
      generalize l' + r' + 2 = t at *
      have h4 : u * u ≤ t * u := Nat.mul_le_mul_right _ (by omega)
      have e1 : (t + u) * (t + u) = t * t + 2 * (t * u) + u * u := by ring
      have e2 : 3 * (t + u) * t = 3 * (t * t) + 3 * (t * u) := by ring
      omega

theorem popOrNew_size {k : Nat} {st : List Var} {s : ER} (hk : 1 ≤ k) (hst : k = 1 → 1 ≤ st.length) :
    (popOrNew k st s).1.length = k ∧ (popOrNew k st s).2.1.length + (if k = 1 then 1 else 0) = st.length ∧
    (popOrNew k st s).2.2.clauses = s.clauses ∧ (popOrNew k st s).2.2.cnt .cc = s.cnt .cc + (if k = 1 then 0 else k) ∧
    ∀ t, t ≠ .cc → (popOrNew k st s).2.2.cnt t = s.cnt t := by
  unfold popOrNew
  by_cases h : k = 1
  · have := hst h
    rw [if_pos h]
    simp only [if_pos h]
    exact ⟨by simp; omega, by simp; omega, trivial, by omega, fun _ _ => trivial⟩
  · rw [if_neg h]
    simp only [if_neg h]
    exact ⟨by simp [ER.newAuxs], by simp, by simp [ER.newAuxs], by simp [ER.newAuxs], fun t ht => by simp [ER.newAuxs, ht]⟩

/-- What the part of the tree below a list of outputs adds. -/
def TotAdds (rhs : Nat) (b : TBound) (n : Nat) (st : List Var) (s : ER) (res : List Var × ER) : Prop :=
  ∃ d x y, TotSz rhs n d x y ∧ res.1.length + (if n = 1 then 0 else n) = st.length ∧
    res.2.cnt .cc + (if n = 1 then 0 else n) = s.cnt .cc + d ∧ (∀ t, t ≠ .cc → res.2.cnt t = s.cnt t) ∧
    res.2.clauses.length = s.clauses.length + (if b = .upper ∨ b = .both then x else 0) + (if b = .lower ∨ b = .both then y else 0)

theorem totCnf_size (rhs : Nat) (b : TBound) : ∀ (fuel : Nat) (st O : List Var) (s : ER),
    2 ≤ O.length → O.length ≤ fuel → O.length ≤ st.length → TotAdds rhs b O.length st s (totCnf rhs b fuel st O s) := by
  intro fuel
  induction fuel with
  | zero => intro st O s h2 hf; omega
  | succ fuel ih =>
    intro st O s h2 hf hst
    simp only [totCnf]
    have hp1 := popOrNew_size (k := O.length / 2) (st := st) (s := s) (by omega) (by omega)
    generalize popOrNew (O.length / 2) st s = r1 at hp1 ⊢
    obtain ⟨L, st1, s1⟩ := r1
    obtain ⟨p1, p2, p3, p4, p5⟩ := hp1
    simp only at p1 p2 p3 p4 p5 ⊢
    have hst1 : O.length - O.length / 2 ≤ st1.length := by split at p2 <;> omega
    have hp2 := popOrNew_size (k := O.length - O.length / 2) (st := st1) (s := s1) (by omega) (by omega)
    generalize popOrNew (O.length - O.length / 2) st1 s1 = r2 at hp2 ⊢
    obtain ⟨R, st2, s2⟩ := r2
    obtain ⟨q1, q2, q3, q4, q5⟩ := hp2
    simp only at q1 q2 q3 q4 q5 ⊢
    have hst2 : (if L.length = 1 then 0 else L.length) + (if R.length = 1 then 0 else R.length) ≤ st2.length := by
      rw [p1, q1]
      by_cases x1 : O.length / 2 = 1
      · by_cases x2 : O.length - O.length / 2 = 1
        · simp only [if_pos x1, if_pos x2] at p2 q2 ⊢; omega
        · simp only [if_pos x1, if_neg x2] at p2 q2 ⊢; omega
      · by_cases x2 : O.length - O.length / 2 = 1
        · simp only [if_neg x1, if_pos x2] at p2 q2 ⊢; omega
        · simp only [if_neg x1, if_neg x2] at p2 q2 ⊢; omega
    generalize e3 : (if b = .upper ∨ b = .both then s2.addClauses (adderAmk L R O rhs) else s2) = s3
    generalize e4 : (if b = .lower ∨ b = .both then s3.addClauses (adderAlk L R O) else s3) = s4
    have c3 : s3.clauses.length = s2.clauses.length + (if b = .upper ∨ b = .both then (adderAmk L R O rhs).length else 0) := by
      rw [← e3]; split <;> simp [ER.addClauses]
    have c4 : s4.clauses.length = s3.clauses.length + (if b = .lower ∨ b = .both then (adderAlk L R O).length else 0) := by
      rw [← e4]; split <;> simp [ER.addClauses]
    have n3 : s3.cnt = s2.cnt := by rw [← e3]; split <;> simp [ER.addClauses]
    have n4 : s4.cnt = s2.cnt := by rw [← n3, ← e4]; split <;> simp [ER.addClauses]
    have sub : ∀ (X st : List Var) (s : ER), 1 ≤ X.length → X.length ≤ fuel → (if X.length = 1 then 0 else X.length) ≤ st.length →
        TotAdds rhs b X.length st s (if X.length > 1 then totCnf rhs b fuel st X s else (st, s)) := by
      intro X st s x1 x2 x3
      by_cases hx : X.length > 1
      · rw [if_pos hx]
        rw [if_neg (by omega)] at x3
        exact ih st X s (by omega) x2 x3
      · rw [if_neg hx]
        have : X.length = 1 := by omega
        rw [this]
        exact ⟨0, 0, 0, TotSz.leaf rhs, by simp, by simp, fun _ _ => rfl, by simp⟩
    obtain ⟨dl, xl, yl, tl, l1, l2, l3, l4⟩ := sub L st2 s4 (by omega) (by omega) (by omega)
    generalize (if L.length > 1 then totCnf rhs b fuel st2 L s4 else (st2, s4)) = r5 at l1 l2 l3 l4 ⊢
    obtain ⟨st5, s5⟩ := r5
    simp only at l1 l2 l3 l4 ⊢
    obtain ⟨dr, xr, yr, tr, m1, m2, m3, m4⟩ := sub R st5 s5 (by omega) (by omega) (by omega)
    generalize (if R.length > 1 then totCnf rhs b fuel st5 R s5 else (st5, s5)) = r6 at m1 m2 m3 m4 ⊢
    obtain ⟨pz, z1, z2, z3⟩ := adderAmk_length L R O rhs
    have hA := adderAlk_length L R O
    refine ⟨_, _, _, TotSz.node h2 p1 (q1.trans (by rw [p1])) tl tr z1 z2 z3, ?_, ?_, ?_, ?_⟩
    · rw [if_neg (by omega)]
      rw [p1] at l1
      rw [q1] at m1
      by_cases x1 : O.length / 2 = 1
      · by_cases x2 : O.length - O.length / 2 = 1
        · simp only [if_pos x1, if_pos x2] at p2 q2 l1 m1; omega
        · simp only [if_pos x1, if_neg x2] at p2 q2 l1 m1; omega
      · by_cases x2 : O.length - O.length / 2 = 1
        · simp only [if_neg x1, if_pos x2] at p2 q2 l1 m1; omega
        · simp only [if_neg x1, if_neg x2] at p2 q2 l1 m1; omega
    · rw [if_neg (by omega)]
      rw [n4] at l2
      rw [p1] at l2
      rw [q1] at m2
      by_cases x1 : O.length / 2 = 1
      · by_cases x2 : O.length - O.length / 2 = 1
        · simp only [if_pos x1, if_pos x2] at p4 q4 l2 m2; omega
        · simp only [if_pos x1, if_neg x2] at p4 q4 l2 m2; omega
      · by_cases x2 : O.length - O.length / 2 = 1
        · simp only [if_neg x1, if_pos x2] at p4 q4 l2 m2; omega
        · simp only [if_neg x1, if_neg x2] at p4 q4 l2 m2; omega
    · intro t ht
      rw [m3 t ht, l3 t ht, n4, q5 t ht, p5 t ht]
    · rw [m4, l4, c4, c3, q3, p3]
      have : (L.length + 1) * (R.length + 1) - 1 = (adderAlk L R O).length := by omega
      rw [this]
      cases b <;> simp <;> omega

/-- What `totBuild` adds for at least two variables. -/
theorem totBuild_size (b : TBound) {vars : List Var} {rhs : Nat} {s : ER} (h2 : 2 ≤ vars.length) :
    ∃ d x y, TotSz rhs vars.length d x y ∧ (totBuild b vars rhs s).1.length = vars.length ∧
    (totBuild b vars rhs s).2.cnt .cc = s.cnt .cc + d ∧ (∀ t, t ≠ .cc → (totBuild b vars rhs s).2.cnt t = s.cnt t) ∧
    (totBuild b vars rhs s).2.clauses.length = s.clauses.length + (if b = .upper ∨ b = .both then x else 0) +
      (if b = .lower ∨ b = .both then y else 0) := by
  have hl : (s.newAuxs .cc vars.length).1.length = vars.length := auxs_length _ _
  obtain ⟨d, x, y, t, h1, h3, h4, h5⟩ := totCnf_size rhs b (s.newAuxs .cc vars.length).1.length vars.reverse (s.newAuxs .cc vars.length).1
    (s.newAuxs .cc vars.length).2 (by omega) (by omega) (by rw [hl, List.length_reverse])
  rw [hl] at t h3
  rw [if_neg (by omega)] at h3
  refine ⟨d, x, y, t, hl, ?_, ?_, ?_⟩
  · simp only [totBuild]
    have : (s.newAuxs .cc vars.length).2.cnt .cc = s.cnt .cc + vars.length := by simp [ER.newAuxs]
    rw [this] at h3
    rw [hl]
    omega
  · intro u hu
    simp only [totBuild]
    rw [h4 u hu]
    simp [ER.newAuxs, hu]
  · simp only [totBuild]
    rw [h5]
    rfl

end Verif
