import Verif.Enc.CcEncoder
import Mathlib.Tactic.Linarith
import Mathlib.Tactic.Ring
/-
How many clauses and auxiliary variables the cardinality networks write.
-/
namespace Verif

/-- From `s` to `s'` exactly `v` auxiliary variables of kind `cc` and no others were added, and
at most `3v` clauses. -/
def NetAdds (s s' : ER) (v : Nat) : Prop :=
  s'.cnt .cc = s.cnt .cc + v ∧ (∀ t, t ≠ .cc → s'.cnt t = s.cnt t) ∧ s'.clauses.length ≤ s.clauses.length + 3 * v

theorem NetAdds.rfl {s : ER} : NetAdds s s 0 := ⟨Eq.refl _, fun _ _ => Eq.refl _, by omega⟩

theorem NetAdds.trans {s s1 s2 : ER} {v w : Nat} (h : NetAdds s s1 v) (h' : NetAdds s1 s2 w) : NetAdds s s2 (v + w) := by
  obtain ⟨a, b, c⟩ := h
  obtain ⟨a', b', c'⟩ := h'
  exact ⟨by omega, fun t ht => (b' t ht).trans (b t ht), by omega⟩

theorem newLits_net (k : Nat) (s : ER) : (newLits k s).2.cnt .cc = s.cnt .cc + k ∧ (∀ t, t ≠ .cc → (newLits k s).2.cnt t = s.cnt t) ∧
    (newLits k s).2.clauses = s.clauses :=
  ⟨by simp [newLits, ER.newAuxs], fun t ht => by simp [newLits, ER.newAuxs, ht], by simp [newLits, ER.newAuxs]⟩

theorem netAdds_new {k : Nat} {s : ER} {cs : List Clause} (h : cs.length ≤ 3 * k) : NetAdds s ((newLits k s).2.addClauses cs) k := by
  obtain ⟨a, b, c⟩ := newLits_net k s
  refine ⟨a, b, ?_⟩
  simp only [ER.addClauses, List.length_append, c]
  omega

theorem comp1_length {x1 x2 y : Lit} {d : Dir} {cs : List Clause} (e : comp1 x1 x2 y d = some cs) : cs.length ≤ 3 := by
  unfold comp1 at e
  by_cases h : x1 = x2
  · rw [if_pos h] at e; cases e
  · rw [if_neg h, Option.some.injEq] at e
    subst e
    cases d <;> simp

theorem comp2_length {x1 x2 y1 y2 : Lit} {d : Dir} {cs : List Clause} (e : comp2 x1 x2 y1 y2 d = some cs) : cs.length ≤ 6 := by
  unfold comp2 at e
  by_cases h : x1 = x2 ∨ y1 = y2
  · rw [if_pos h] at e; cases e
  · rw [if_neg h, Option.some.injEq] at e
    subst e
    cases d <;> simp

theorem mergeLoop_net {c : Nat} {odd even : List Lit} {d : Dir} : ∀ (fuel i : Nat) (out : List Lit) (s : ER) (out' : List Lit) (s' : ER),
    mergeLoop c odd even d fuel i out s = some (out', s') → ∃ v, NetAdds s s' v ∧ out.length + v ≤ out'.length := by
  intro fuel
  induction fuel with
  | zero => intro i out s out' s' e; cases e
  | succ fuel ih =>
    intro i out s out' s' e
    rw [mergeLoop] at e
    by_cases h1 : i < odd.length ∧ i - 1 < even.length
    · rw [if_pos h1] at e
      by_cases h2 : out.length + 2 ≤ c
      · rw [if_pos h2] at e
        simp only [Option.bind_eq_some_iff] at e
        obtain ⟨cs, e1, e2⟩ := e
        have hn := netAdds_new (k := 2) (s := s) (comp2_length e1)
        by_cases h3 : out.length + 2 = c
        · rw [if_pos h3] at e2
          simp only [Option.some.injEq, Prod.mk.injEq] at e2
          obtain ⟨rfl, rfl⟩ := e2
          exact ⟨2, hn, by simp⟩
        · rw [if_neg h3] at e2
          obtain ⟨v, hv, hl⟩ := ih _ _ _ _ _ e2
          exact ⟨2 + v, hn.trans hv, by simp at hl; omega⟩
      · rw [if_neg h2] at e
        by_cases h3 : out.length + 1 = c
        · rw [if_pos h3] at e
          simp only [Option.bind_eq_some_iff] at e
          obtain ⟨cs, e1, e2⟩ := e
          simp only [Option.some.injEq, Prod.mk.injEq] at e2
          obtain ⟨rfl, rfl⟩ := e2
          exact ⟨1, netAdds_new (comp1_length e1), by simp⟩
        · rw [if_neg h3] at e
          exact ih _ _ _ _ _ e
    · rw [if_neg h1] at e
      by_cases h2 : i ≥ odd.length ∧ i - 1 ≥ even.length
      · rw [if_pos h2] at e
        simp only [Option.some.injEq, Prod.mk.injEq] at e
        obtain ⟨rfl, rfl⟩ := e
        exact ⟨0, .rfl, by omega⟩
      · rw [if_neg h2] at e
        by_cases h3 : i ≥ odd.length
        · rw [if_pos h3] at e
          obtain ⟨v, hv, hl⟩ := ih _ _ _ _ _ e
          exact ⟨v, hv, by simp at hl; omega⟩
        · rw [if_neg h3] at e
          obtain ⟨v, hv, hl⟩ := ih _ _ _ _ _ e
          exact ⟨v, hv, by simp at hl; omega⟩

theorem ccMerge_net {d : Dir} (hd : d ≠ .i2o) : ∀ (fuel e m : Nat) (a b : List Lit) (s : ER) (out : List Lit) (s' : ER),
    a.length ≤ 2 ^ e → b.length ≤ 2 ^ e → ccMerge fuel m a b d s = some (out, s') →
    ∃ v, NetAdds s s' v ∧ v ≤ (a.length + b.length) * (e + 1) := by
  intro fuel
  induction fuel with
  | zero => intro e m a b s out s' _ _ h; cases h
  | succ fuel ih =>
    intro e m a b s out s' ha hb h
    rw [ccMerge] at h
    by_cases h1 : m = 0
    · rw [if_pos h1] at h
      simp only [Option.some.injEq, Prod.mk.injEq] at h
      obtain ⟨_, rfl⟩ := h
      exact ⟨0, .rfl, by omega⟩
    rw [if_neg h1] at h
    by_cases h2 : a.isEmpty = true
    · rw [if_pos h2] at h
      simp only [Option.some.injEq, Prod.mk.injEq] at h
      obtain ⟨_, rfl⟩ := h
      exact ⟨0, .rfl, by omega⟩
    rw [if_neg h2] at h
    by_cases h3 : b.isEmpty = true
    · rw [if_pos h3] at h
      simp only [Option.some.injEq, Prod.mk.injEq] at h
      obtain ⟨_, rfl⟩ := h
      exact ⟨0, .rfl, by omega⟩
    rw [if_neg h3] at h
    have la : 0 < a.length := List.length_pos_iff.2 (by simpa using h2)
    have lb : 0 < b.length := List.length_pos_iff.2 (by simpa using h3)
    simp only [if_neg hd] at h
    have hc : min m (a.length + b.length) ≤ a.length + b.length := Nat.min_le_right ..
    have hc0 : 1 ≤ min m (a.length + b.length) := by omega
    generalize min m (a.length + b.length) = c at h hc hc0
    have hN : a.length + b.length ≤ (a.length + b.length) * (e + 1) := Nat.le_mul_of_pos_right _ (by omega)
    rw [Option.bind_eq_some_iff] at h
    obtain ⟨⟨o, s1⟩, h, hend⟩ := h
    simp only at hend
    by_cases hoc : o.length = c
    case neg => rw [if_neg hoc] at hend; cases hend
    rw [if_pos hoc] at hend
    simp only [Option.some.injEq, Prod.mk.injEq] at hend
    obtain ⟨rfl, rfl⟩ := hend
    by_cases c1 : c = 1
    · rw [if_pos c1] at h
      simp only [Option.bind_eq_some_iff] at h
      obtain ⟨cs, e1, e2⟩ := h
      simp only [Option.some.injEq, Prod.mk.injEq] at e2
      obtain ⟨rfl, rfl⟩ := e2
      exact ⟨1, netAdds_new (comp1_length e1), by omega⟩
    rw [if_neg c1] at h
    by_cases c2 : min c a.length = 1 ∧ min c b.length = 1
    · rw [if_pos c2] at h
      by_cases c3 : c ≠ 2
      · rw [if_pos c3] at h; cases h
      rw [if_neg c3] at h
      simp only [Option.bind_eq_some_iff] at h
      obtain ⟨cs, e1, e2⟩ := h
      simp only [Option.some.injEq, Prod.mk.injEq] at e2
      obtain ⟨rfl, rfl⟩ := e2
      exact ⟨2, netAdds_new (comp2_length e1), by omega⟩
    rw [if_neg c2] at h
    simp only [Option.bind_eq_some_iff] at h
    obtain ⟨⟨od, s2⟩, e1, ⟨ev, s3⟩, e2, e3⟩ := h
    simp only at e2 e3
    obtain ⟨v3, n3, l3⟩ := mergeLoop_net _ _ _ _ _ _ e3
    have he : 1 ≤ e := by
      rcases e with _ | e
      · simp only [Nat.pow_zero] at ha hb
        exact absurd ⟨by omega, by omega⟩ c2
      · omega
    obtain ⟨e, rfl⟩ : ∃ e', e = e' + 1 := ⟨e - 1, by omega⟩
    rw [Nat.pow_succ] at ha hb
    obtain ⟨v1, n1, l1⟩ := ih e _ _ _ _ _ _ (by rw [oddsOf_length]; omega) (by rw [oddsOf_length]; omega) e1
    obtain ⟨v2, n2, l2⟩ := ih e _ _ _ _ _ _ (by rw [evensOf_length]; omega) (by rw [evensOf_length]; omega) e2
    rw [oddsOf_length, oddsOf_length] at l1
    rw [evensOf_length, evensOf_length] at l2
    refine ⟨v1 + v2 + v3, (n1.trans n2).trans n3, ?_⟩
    have hs : ((min c a.length + 1) / 2 + (min c b.length + 1) / 2) * (e + 1) + (min c a.length / 2 + min c b.length / 2) * (e + 1) ≤
        (a.length + b.length) * (e + 1) := by
      rw [← Nat.add_mul]
      exact Nat.mul_le_mul_right _ (by omega)
    simp only [List.length_cons, List.length_nil] at l3
    rw [Nat.mul_succ]
    omega

theorem ccSort_net {d : Dir} (hd : d ≠ .i2o) : ∀ (fuel e m : Nat) (x : List Lit) (s : ER) (out : List Lit) (s' : ER),
    x.length ≤ 2 ^ e → ccSort fuel m x d s = some (out, s') →
    ∃ v, NetAdds s s' v ∧ 2 * v ≤ x.length * (e * (e + 1)) := by
  intro fuel
  induction fuel with
  | zero => intro e m x s out s' _ h; cases h
  | succ fuel ih =>
    intro e m x s out s' hx h
    rw [ccSort] at h
    by_cases h1 : m = 0 ∨ x.length = 0
    · simp only [if_pos h1, Option.some.injEq, Prod.mk.injEq] at h
      obtain ⟨_, rfl⟩ := h
      exact ⟨0, .rfl, by omega⟩
    simp only [if_neg h1] at h
    by_cases h2 : x.length = 1
    · simp only [if_pos h2, Option.some.injEq, Prod.mk.injEq] at h
      obtain ⟨_, rfl⟩ := h
      exact ⟨0, .rfl, by omega⟩
    simp only [if_neg h2] at h
    have he : 1 ≤ e := by
      rcases e with _ | e
      · simp only [Nat.pow_zero] at hx; omega
      · omega
    obtain ⟨e, rfl⟩ : ∃ e', e = e' + 1 := ⟨e - 1, by omega⟩
    have hee : 2 ≤ (e + 1) * (e + 1 + 1) := Nat.mul_le_mul (show 1 ≤ e + 1 by omega) (show 2 ≤ e + 1 + 1 by omega)
    by_cases h3 : x.length = 2
    · simp only [if_pos h3] at h
      by_cases h4 : min m 2 = 2
      · simp only [h3, if_pos h4, Option.bind_eq_some_iff] at h
        obtain ⟨cs, e1, e2⟩ := h
        simp only [Option.some.injEq, Prod.mk.injEq] at e2
        obtain ⟨rfl, rfl⟩ := e2
        exact ⟨2, netAdds_new (comp2_length e1), by rw [h3]; omega⟩
      · simp only [h3, if_neg h4, Option.bind_eq_some_iff] at h
        obtain ⟨cs, e1, e2⟩ := h
        simp only [Option.some.injEq, Prod.mk.injEq] at e2
        obtain ⟨rfl, rfl⟩ := e2
        exact ⟨1, netAdds_new (comp1_length e1), by rw [h3]; omega⟩
    simp only [if_neg h3, if_pos hd, Option.bind_eq_some_iff] at h
    obtain ⟨⟨o1, s1⟩, e1, ⟨o2, s2⟩, e2, e3⟩ := h
    simp only at e2 e3
    rw [Nat.pow_succ] at hx
    obtain ⟨v1, n1, l1⟩ := ih e _ _ _ _ _ (by rw [List.length_take]; omega) e1
    obtain ⟨v2, n2, l2⟩ := ih e _ _ _ _ _ (by rw [List.length_drop]; omega) e2
    by_cases h5 : o1.length = min (min m x.length) (x.length / 2) ∧ o2.length = min (min m x.length) (x.length - x.length / 2)
    · rw [if_pos h5] at e3
      obtain ⟨v3, n3, l3⟩ := ccMerge_net hd _ e _ _ _ _ _ _ (by omega) (by omega) e3
      refine ⟨v1 + v2 + v3, (n1.trans n2).trans n3, ?_⟩
      have hl : (o1.length + o2.length) * (e + 1) ≤ x.length * (e + 1) := Nat.mul_le_mul_right _ (by omega)
      have hs : (List.take (x.length / 2) x).length * (e * (e + 1)) + (List.drop (x.length / 2) x).length * (e * (e + 1)) =
          x.length * (e * (e + 1)) := by
        rw [← Nat.add_mul, List.length_take, List.length_drop]
        congr 1
        omega
      have hr : x.length * ((e + 1) * (e + 1 + 1)) = x.length * (e * (e + 1)) + 2 * (x.length * (e + 1)) := by ring
      omega
    · rw [if_neg h5] at e3; cases e3

/-! ### The counter -/

theorem allocCols_cnt : ∀ (ks : List Nat) (s : ER), (allocCols ks s).2.cnt .cc = s.cnt .cc + ks.sum ∧
    (∀ t, t ≠ .cc → (allocCols ks s).2.cnt t = s.cnt t) ∧ (allocCols ks s).2.clauses = s.clauses := by
  intro ks
  induction ks with
  | nil => intro s; exact ⟨rfl, fun _ _ => rfl, rfl⟩
  | cons k ks ih =>
    intro s
    obtain ⟨a, b, c⟩ := newLits_net k s
    obtain ⟨a', b', c'⟩ := ih (newLits k s).2
    simp only [allocCols, List.sum_cons]
    exact ⟨by omega, fun t ht => (b' t ht).trans (b t ht), c'.trans c⟩

theorem cols_sum : ∀ (k n : Nat), k ≤ n → 2 * ((List.range k).map fun j => n - j).sum = k * (2 * n + 1 - k) := by
  intro k
  induction k with
  | zero => simp
  | succ k ih =>
    intro n hn
    have h := ih n (by omega)
    rw [List.range_succ, List.map_append, List.sum_append]
    simp only [List.map_cons, List.map_nil, List.sum_cons, List.sum_nil]
    obtain ⟨c, rfl⟩ : ∃ c, n = k + 1 + c := ⟨n - k - 1, by omega⟩
    have e1 : 2 * (k + 1 + c) + 1 - k = k + 2 * c + 3 := by omega
    have e2 : 2 * (k + 1 + c) + 1 - (k + 1) = k + 2 * c + 2 := by omega
    have e3 : k + 1 + c - k = c + 1 := by omega
    rw [e1] at h
    rw [e2, e3, Nat.mul_add, h]
    ring

theorem first_col_length (f : Nat → List Clause) (n : Nat) (h : ∀ i, (f i).length = if i > 0 then 2 else 1) :
    ((List.range (n + 1)).flatMap f).length = 2 * n + 1 := by
  induction n with
  | zero => simpa using h 0
  | succ n ih =>
    rw [List.range_succ, List.flatMap_append, List.length_append, ih]
    have := h (n + 1)
    rw [if_pos (by omega)] at this
    simp only [List.flatMap_cons, List.flatMap_nil, List.append_nil, this]
    omega

theorem next_col_length (f : Nat → List Clause) (j n : Nat) (h : ∀ i, (f i).length = if i > j then 2 else 1) :
    ((List.range' j (n + 1)).flatMap f).length = 2 * n + 1 := by
  induction n with
  | zero => simpa using h j
  | succ n ih =>
    rw [List.range'_concat, List.flatMap_append, List.length_append, ih]
    have := h (j + 1 * (n + 1))
    rw [if_pos (by omega)] at this
    simp only [List.flatMap_cons, List.flatMap_nil, List.append_nil, this]
    omega

theorem next_cols_length (f : Nat → List Clause) (n : Nat) (h : ∀ j, j < n → (f j).length + 1 = 2 * (n - j)) :
    ∀ k, k + 1 ≤ n → ((List.range' 1 k).flatMap f).length + k = 2 * ((List.range' 1 k).map fun j => n - j).sum := by
  intro k
  induction k with
  | zero => simp
  | succ k ih =>
    intro hk
    rw [List.range'_concat, List.flatMap_append, List.length_append, List.map_append, List.sum_append]
    have := ih (by omega)
    have := h (1 + 1 * k) (by omega)
    simp only [List.flatMap_cons, List.flatMap_nil, List.append_nil, List.map_cons, List.map_nil, List.sum_cons, List.sum_nil]
    omega

theorem counterSorter_size {k : Nat} {x : List Lit} {s : ER} (h1 : 1 ≤ k) (hk : k ≤ x.length) :
    ∃ v, 2 * v = k * (2 * x.length + 1 - k) ∧ (counterSorter k x s).2.cnt .cc = s.cnt .cc + v ∧
    (∀ t, t ≠ .cc → (counterSorter k x s).2.cnt t = s.cnt t) ∧ (counterSorter k x s).2.clauses.length + k = s.clauses.length + 2 * v := by
  obtain ⟨k, rfl⟩ : ∃ k', k = k' + 1 := ⟨k - 1, by omega⟩
  obtain ⟨n, hn⟩ : ∃ n, x.length = n + 1 := ⟨x.length - 1, by omega⟩
  obtain ⟨a, b, c⟩ := allocCols_cnt ((List.range (k + 1)).map fun j => x.length - j) s
  refine ⟨_, cols_sum _ _ hk, ?_, ?_, ?_⟩
  · simpa only [counterSorter, ER.addClauses] using a
  · simpa only [counterSorter, ER.addClauses] using b
  · simp only [counterSorter, ER.addClauses, List.length_append, c]
    generalize (allocCols ((List.range (k + 1)).map fun j => x.length - j) s).1 = cols
    rw [hn] at hk ⊢
    rw [first_col_length _ n (by intro i; by_cases h : i > 0 <;> simp [h])]
    have := next_cols_length (fun j => (List.range' j (n + 1 - j)).flatMap fun i =>
      [[(x.nth i).neg, ((cols.nth (j - 1)).nth (i - 1 - (j - 1))).neg, (cols.nth j).nth (i - j)]] ++
      (if i > j then [[((cols.nth j).nth (i - 1 - j)).neg, (cols.nth j).nth (i - j)]] else [])) (n + 1) (by
        intro j hj
        obtain ⟨q, hq⟩ : ∃ q, n + 1 - j = q + 1 := ⟨n - j, by omega⟩
        simp only [hq]
        rw [next_col_length _ j q (by intro i; by_cases h : i > j <;> simp [h])]
        omega) k (by omega)
    simp only [Nat.add_sub_cancel] at this ⊢
    have hsum : ((List.range (k + 1)).map fun j => n + 1 - j).sum = n + 1 + ((List.range' 1 k).map fun j => n + 1 - j).sum := by
      rw [List.range_eq_range', List.range'_succ]
      simp
    rw [hsum]
    omega

end Verif
