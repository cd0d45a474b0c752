import Verif.Enc.UpSort

/-
Unit propagation on the sorters of the cardinality networks.
-/
namespace Verif
open ER
namespace Prop1

open Classical in
/-- How many literals of the list are derived. -/
noncomputable def trL (S : Lit → Prop) (x : List Lit) : Nat := x.countP fun l => decide (S l)

/-- How many literals of the list are refuted. -/
noncomputable def faL (S : Lit → Prop) (x : List Lit) : Nat := trL (fun l => S l.neg) x

theorem trL_append (S x y) : trL S (x ++ y) = trL S x + trL S y := List.countP_append
theorem faL_append (S x y) : faL S (x ++ y) = faL S x + faL S y := List.countP_append
theorem trL_le (S x) : trL S x ≤ x.length := List.countP_le_length
theorem faL_le (S x) : faL S x ≤ x.length := List.countP_le_length
open Classical in
theorem trL_all {S x} (h : x.length ≤ trL S x) : ∀ l ∈ x, S l := by
  have := List.countP_eq_length.1 (Nat.le_antisymm List.countP_le_length h)
  exact fun l hl => by simpa using this l hl
theorem faL_all {S x} (h : x.length ≤ faL S x) : ∀ l ∈ x, S l.neg := trL_all (S := fun l => S l.neg) h
open Classical in
theorem trL_one (S y) : trL S [y] = if S y then 1 else 0 := by
  by_cases h : S y <;> simp [trL, h]
theorem trL_take_succ {S : Lit → Prop} {x : List Lit} {i : Nat} (h : i < x.length) : trL S (x.take (i + 1)) = trL S (x.take i) + trL S [x.nth i] := by
  rw [← trL_append, getBang _ _ h, List.take_append_getElem]

/-- What a sorter propagates. -/
structure SortP (S : Lit → Prop) (d : Dir) (x out : List Lit) : Prop where
  up : d ≠ .o2i → UpS S out (trL S x)
  upBack : d ≠ .o2i → trL S x < out.length → S (out.nth (trL S x)).neg → ∀ l ∈ x, S l ∨ S l.neg
  dn : d ≠ .i2o → DnS S out (x.length - faL S x)
  dnBack : d ≠ .i2o → 1 ≤ x.length - faL S x → x.length - faL S x ≤ out.length → S (out.nth (x.length - faL S x - 1)) → ∀ l ∈ x, S l ∨ S l.neg

theorem SortP.one {S d y} : SortP S d [y] [y] := by
  have ht := trL_one S y
  have hf : faL S [y] = _ := trL_one (fun l => S l.neg) y
  constructor
  · intro _ k k1 k2
    simp at k1; subst k1
    show S y
    by_cases h : S y
    · exact h
    · rw [ht, if_neg h] at k2; omega
  · intro _ h1 h2 l hl
    simp at hl; subst hl
    by_cases h : S l
    · exact .inl h
    · rw [ht, if_neg h] at h2; exact .inr h2
  · intro _ k k1 k2
    simp at k1; subst k1
    show S y.neg
    by_cases h : S y.neg
    · exact h
    · rw [hf, if_neg h] at k2; simp at k2
  · intro _ h1 _ h2 l hl
    simp at hl; subst hl
    by_cases h : S l.neg
    · exact .inr h
    · rw [hf, if_neg h] at h2; exact .inl h2

theorem SortP.merge {S d m} {x y a b out : List Lit} (h1 : SortP S d x a) (h2 : SortP S d y b) (la : a.length = min m x.length)
    (lb : b.length = min m y.length) (lo : out.length ≤ m) (M : MergeP S d a b out) : SortP S d (x ++ y) out := by
  have t1 := trL_le S x
  have t2 := trL_le S y
  have f1 := faL_le S x
  have f2 := faL_le S y
  constructor
  · intro hd k k1 k2
    rw [trL_append] at k2
    exact M.up hd (min (trL S x) a.length) (min (trL S y) b.length) (by omega) (by omega)
      ((h1.up hd).mono (by omega)) ((h2.up hd).mono (by omega)) k k1 (by omega)
  · intro hd hl h
    rw [trL_append] at hl h
    have := M.upBack hd (trL S x) (trL S y) (by omega) (by omega) (h1.up hd) (h2.up hd) hl h
    intro l hl'
    rcases List.mem_append.1 hl' with hl' | hl'
    · by_cases hx : trL S x < a.length
      · exact h1.upBack hd hx (this.1 hx) l hl'
      · exact .inl (trL_all (by omega) l hl')
    · by_cases hx : trL S y < b.length
      · exact h2.upBack hd hx (this.2 hx) l hl'
      · exact .inl (trL_all (by omega) l hl')
  · intro hd k k1 k2
    rw [faL_append, List.length_append] at k2
    exact M.dn hd (x.length - faL S x) (y.length - faL S y) (by omega) (by omega) (h1.dn hd) (h2.dn hd) k k1 (by omega)
  · intro hd h0 hl h
    have e : (x ++ y).length - faL S (x ++ y) = (x.length - faL S x) + (y.length - faL S y) := by
      rw [faL_append, List.length_append]; omega
    rw [e] at h0 hl h
    have := M.dnBack hd _ _ (by omega) (by omega) (h1.dn hd) (h2.dn hd) h0 hl h
    intro l hl'
    rcases List.mem_append.1 hl' with hl' | hl'
    · by_cases hx : 1 ≤ x.length - faL S x
      · exact h1.dnBack hd hx (by omega) (this.1 hx) l hl'
      · exact .inr (faL_all (by omega) l hl')
    · by_cases hx : 1 ≤ y.length - faL S y
      · exact h2.dnBack hd hx (by omega) (this.2 hx) l hl'
      · exact .inr (faL_all (by omega) l hl')

theorem allocCols_clauses : ∀ (ks : List Nat) (s : ER), (allocCols ks s).2.clauses = s.clauses
  | [], _ => rfl
  | k :: ks, s => by
    show (allocCols ks (newLits k s).2).2.clauses = _
    rw [allocCols_clauses ks]; rfl

theorem counterSorter_up {k : Nat} {x : List Lit} {s : ER} (hk : k ≤ x.length) (hk1 : 1 ≤ k) {S : Lit → Prop}
    (hS : ClN S (counterSorter k x s).2.clauses) : SortP S .i2o x (counterSorter k x s).1 := by
  unfold counterSorter at hS ⊢
  simp only at hS ⊢
  generalize (allocCols ((List.range k).map fun j => x.length - j) s) = r at hS ⊢
  obtain ⟨cols, s1⟩ := r
  simp only at hS ⊢
  obtain ⟨aux, haux⟩ : ∃ aux : Nat → Nat → Lit, aux = fun i j => (cols.nth j).nth (i - j) := ⟨_, rfl⟩
  have haux' : ∀ i j, (cols.nth j).nth (i - j) = aux i j := by intro i j; rw [haux]
  simp only [haux'] at hS ⊢
  have hS := hS.mono fun c hc => mem_addClauses.2 (.inr hc)
  have c1 : ∀ i, i < x.length → (S (x.nth i) → S (aux i 0)) ∧ (S (aux i 0).neg → S (x.nth i).neg) := fun i hi =>
    hS.two' (List.mem_append.2 (.inl (List.mem_flatMap.2 ⟨i, by simpa using hi, by simp⟩)))
  have c2 : ∀ i, 0 < i → i < x.length → (S (aux (i - 1) 0) → S (aux i 0)) ∧ (S (aux i 0).neg → S (aux (i - 1) 0).neg) := fun i h0 hi =>
    hS.two' (List.mem_append.2 (.inl (List.mem_flatMap.2 ⟨i, by simpa using hi, by simp [h0]⟩)))
  have c3 : ∀ i j, 1 ≤ j → j < k → j ≤ i → i < x.length →
      (S (x.nth i) → S (aux (i - 1) (j - 1)) → S (aux i j)) ∧ (S (aux i j).neg → S (aux (i - 1) (j - 1)) → S (x.nth i).neg) ∧
      (S (aux i j).neg → S (x.nth i) → S (aux (i - 1) (j - 1)).neg) := by
    intro i j h1 h2 h3 h4
    have := hS.three (a := (x.nth i).neg) (b := (aux (i - 1) (j - 1)).neg) (d := aux i j) (List.mem_append.2 (.inr (List.mem_flatMap.2
      ⟨j, by rw [List.mem_range'_1]; omega, List.mem_flatMap.2 ⟨i, by rw [List.mem_range'_1]; omega, by simp⟩⟩)))
    rw [Lit.neg_neg, Lit.neg_neg] at this
    exact ⟨this.2.2, fun a b => this.1 b a, fun a b => this.2.1 b a⟩
  have c4 : ∀ i j, 1 ≤ j → j < k → j < i → i < x.length → (S (aux (i - 1) j) → S (aux i j)) ∧ (S (aux i j).neg → S (aux (i - 1) j).neg) := by
    intro i j h1 h2 h3 h4
    exact hS.two' (List.mem_append.2 (.inr (List.mem_flatMap.2
      ⟨j, by rw [List.mem_range'_1]; omega, List.mem_flatMap.2 ⟨i, by rw [List.mem_range'_1]; omega, by simp [h3]⟩⟩)))
  have c4' : ∀ i j, j < k → j < i → i < x.length → (S (aux (i - 1) j) → S (aux i j)) ∧ (S (aux i j).neg → S (aux (i - 1) j).neg) := by
    intro i j h2 h3 h4
    by_cases h : j = 0
    · subst h; exact c2 i h3 h4
    · exact c4 i j (by omega) h2 h3 h4
  have tle : ∀ i, trL S (x.take i) ≤ i := fun i => Nat.le_trans (trL_le _ _) (by simp; omega)
  have up : ∀ i j, i < x.length → j < k → j ≤ i → j < trL S (x.take (i + 1)) → S (aux i j) := by
    intro i
    induction i with
    | zero =>
      intro j hi hj hji ht
      have : j = 0 := by omega
      subst this
      refine (c1 0 hi).1 ?_
      rw [trL_take_succ hi] at ht
      by_cases h : S (x.nth 0)
      · exact h
      · rw [trL_one, if_neg h] at ht; simp [trL] at ht
    | succ i ih =>
      intro j hi hj hji ht
      by_cases h : j < trL S (x.take (i + 1))
      · have := tle (i + 1)
        exact (c4' (i + 1) j hj (by omega) hi).1 (ih j (by omega) hj (by omega) h)
      · rw [trL_take_succ hi] at ht
        have hx : S (x.nth (i + 1)) := by
          by_cases hx : S (x.nth (i + 1))
          · exact hx
          · rw [trL_one, if_neg hx] at ht; omega
        rw [trL_one, if_pos hx] at ht
        by_cases h0 : j = 0
        · subst h0; exact (c1 _ hi).1 hx
        · exact (c3 (i + 1) j (by omega) hj hji hi).1 hx (ih (j - 1) (by omega) (by omega) (by omega) (by omega))
  have onth : ∀ {j}, j < k → ((List.range k).map fun j => aux (x.length - 1) j).nth j = aux (x.length - 1) j := by
    intro j hj; rw [getBang _ _ (by simpa using hj)]; simp
  have hall : trL S (x.take (x.length - 1 + 1)) = trL S x := by rw [List.take_of_length_le (by omega)]
  refine ⟨fun _ => ?_, fun _ hl h => ?_, fun h => absurd rfl h, fun h => absurd rfl h⟩
  · intro j hj ht
    have hj : j < k := by simpa using hj
    rw [onth hj]
    exact up _ _ (by omega) hj (by omega) (by rw [hall]; exact ht)
  · have hl : trL S x < k := by simpa using hl
    rw [onth hl] at h
    have mono : ∀ i, i ≤ x.length → trL S (x.take i) ≤ trL S x := by
      intro i _
      conv_rhs => rw [← List.take_append_drop i x]
      rw [trL_append]; omega
    -- walk back from the last input
    have back : ∀ n i, i + n = x.length - 1 → (trL S (x.take (i + 1)) ≤ i → S (aux i (trL S (x.take (i + 1)))).neg) := by
      intro n
      induction n with
      | zero =>
        intro i hi _
        have : i = x.length - 1 := by omega
        subst this
        rw [hall]; exact h
      | succ n ih =>
        intro i hi hle
        have ih := ih (i + 1) (by omega)
        have hm := mono (i + 2) (by omega)
        rw [trL_take_succ (by omega)] at ih hm
        rw [trL_one] at ih hm
        by_cases hx : S (x.nth (i + 1))
        · rw [if_pos hx] at ih hm
          have := (c3 (i + 1) (trL S (x.take (i + 1)) + 1) (by omega) (by omega) (by omega) (by omega)).2.2 (ih (by omega)) hx
          simpa using this
        · rw [if_neg hx] at ih hm
          exact (c4' (i + 1) _ (by omega) (by omega) (by omega)).2 (ih (by omega))
    intro l hl'
    obtain ⟨i, hi, rfl⟩ := List.getElem_of_mem hl'
    rw [← getBang _ _ hi]
    by_cases hx : S (x.nth i)
    · exact .inl hx
    · right
      have ht := trL_take_succ (S := S) hi
      rw [trL_one, if_neg hx, Nat.add_zero] at ht
      have hi' := tle i
      have hm := mono i (by omega)
      have b := back (x.length - 1 - i) i (by omega) (by omega)
      rw [ht] at b
      by_cases h0 : trL S (x.take i) = 0
      · rw [h0] at b
        exact (c1 i hi).2 b
      · refine (c3 i _ (by omega) (by omega) hi' hi).2.1 b (up (i - 1) _ (by omega) (by omega) (by omega) ?_)
        rw [show i - 1 + 1 = i by omega]
        omega

theorem directSorter_up {m : Nat} {x out : List Lit} {s s' : ER} (e : directSorter m x s = some (out, s')) {S : Lit → Prop}
    (hS : ClN S s'.clauses) : out.length = m ∧ SortP S .i2o x out := by
  classical
  unfold directSorter at e
  by_cases h20 : ¬ x.length < 20
  · rw [if_pos h20] at e; simp at e
  rw [if_neg h20] at e
  simp only [Option.some.injEq, Prod.mk.injEq] at e
  obtain ⟨eo, rfl⟩ := e
  rw [eo] at hS
  have hlen : out.length = m := by rw [← eo]; exact newLits_length m s
  have hS := hS.mono fun c hc => mem_addClauses.2 (.inr hc)
  have key : ∀ mask, 0 < (maskSel mask x).length → mask < 2 ^ x.length → (maskSel mask x).length ≤ m →
      ∀ l ∈ (maskSel mask x).map Lit.neg ++ [out.nth ((maskSel mask x).length - 1)],
      (∀ l' ∈ (maskSel mask x).map Lit.neg ++ [out.nth ((maskSel mask x).length - 1)], l' ≠ l → S l'.neg) → S l := by
    intro mask h0 h1 h2 l hl h
    have hpos : 0 < mask := by
      rcases Nat.eq_zero_or_pos mask with h | h
      · subst h; rw [maskSel_length, List.filter_eq_nil_iff.2 (by simp)] at h0; simp at h0
      · exact h
    refine hS _ (List.mem_flatMap.2 ⟨mask, by rw [List.mem_range'_1]; omega, ?_⟩) l hl h
    rw [if_pos h2]; simp
  have hmem : ∀ {mask : Nat} {l : Lit}, l ∈ maskSel mask x → ∃ i, i < x.length ∧ mask.testBit i = true ∧ l = x.nth i := by
    intro mask l hl; simp [maskSel] at hl; obtain ⟨i, hi, rfl⟩ := hl; exact ⟨i, hi.1, hi.2, rfl⟩
  refine ⟨hlen, fun _ => ?_, fun _ hl h => ?_, fun h => absurd rfl h, fun h => absurd rfl h⟩
  · intro k k1 k2
    obtain ⟨p, hp⟩ : ∃ p : Nat → Bool, p = fun i => decide (S (x.nth i)) && decide (trL S (x.take i) ≤ k) := ⟨_, rfl⟩
    obtain ⟨mask, h1, h2⟩ := exists_mask p x.length
    have hcount : ∀ i, i ≤ x.length → ((List.range i).filter fun i => mask.testBit i).length = min (trL S (x.take i)) (k + 1) := by
      intro i
      induction i with
      | zero => intro _; simp [trL]
      | succ i ih =>
        intro hi
        rw [filter_range_succ, ih (by omega), trL_take_succ (by omega), h2 i (by omega), hp, trL_one]
        by_cases hx : S (x.nth i)
        · simp [hx]; split <;> omega
        · simp [hx]
    have hL : (maskSel mask x).length = k + 1 := by
      rw [maskSel_length, hcount _ (by omega), List.take_of_length_le (by omega)]; omega
    have := key mask (by omega) h1 (by omega) (out.nth ((maskSel mask x).length - 1)) (by simp) ?_
    · rw [hL] at this; exact this
    · intro l' hl' hne
      rcases List.mem_append.1 hl' with hl' | hl'
      · obtain ⟨y, hy, rfl⟩ := List.mem_map.1 hl'
        obtain ⟨i, hi, hb, rfl⟩ := hmem hy
        rw [h2 i hi, hp] at hb
        simp at hb
        rw [Lit.neg_neg]; exact hb.1
      · exact absurd (by simpa using hl') hne
  · intro l hl'
    obtain ⟨i0, hi0, rfl⟩ := List.getElem_of_mem hl'
    rw [← getBang _ _ hi0]
    by_cases hx0 : S (x.nth i0)
    · exact .inl hx0
    right
    obtain ⟨p, hp⟩ : ∃ p : Nat → Bool, p = fun i => decide (S (x.nth i)) || decide (i = i0) := ⟨_, rfl⟩
    obtain ⟨mask, h1, h2⟩ := exists_mask p x.length
    have hcount : ∀ i, i ≤ x.length → ((List.range i).filter fun i => mask.testBit i).length = trL S (x.take i) + (if i0 < i then 1 else 0) := by
      intro i
      induction i with
      | zero => intro _; simp [trL]
      | succ i ih =>
        intro hi
        rw [filter_range_succ, ih (by omega), trL_take_succ (by omega), h2 i (by omega), hp, trL_one]
        by_cases hi0' : i = i0
        · subst hi0'; simp [hx0]
        · have e : (if i0 < i + 1 then 1 else 0) = (if i0 < i then 1 else 0) := by
            by_cases h : i0 < i
            · rw [if_pos h, if_pos (by omega)]
            · rw [if_neg h, if_neg (by omega)]
          rw [e]
          by_cases hx : S (x.nth i)
          · simp [hx]; omega
          · simp [hx, hi0']
    have hL : (maskSel mask x).length = trL S x + 1 := by
      rw [maskSel_length, hcount _ (by omega), List.take_of_length_le (by omega), if_pos hi0]
    have hin : x.nth i0 ∈ maskSel mask x := by
      simp only [maskSel, List.mem_map, List.mem_filter, List.mem_range]
      exact ⟨i0, ⟨hi0, by rw [h2 i0 hi0, hp]; simp⟩, rfl⟩
    refine key mask (by omega) h1 (by omega) _ (List.mem_append.2 (.inl (List.mem_map.2 ⟨_, hin, rfl⟩))) ?_
    intro l' hl' hne
    rcases List.mem_append.1 hl' with hl' | hl'
    · obtain ⟨y, hy, rfl⟩ := List.mem_map.1 hl'
      obtain ⟨i, hi, hb, rfl⟩ := hmem hy
      rw [h2 i hi, hp] at hb
      simp at hb
      rcases hb with hb | rfl
      · rw [Lit.neg_neg]; exact hb
      · exact absurd rfl hne
    · simp at hl'
      rw [hl', hL]; exact h

theorem ccSort_up : ∀ (fuel m : Nat) (x : List Lit) (d : Dir) (s : ER) (out : List Lit) (s' : ER), ccSort fuel m x d s = some (out, s') → 1 ≤ m → x ≠ [] →
    out.length = min m x.length ∧ (∀ c ∈ s.clauses, c ∈ s'.clauses) ∧ ∀ S, ClN S s'.clauses → SortP S d x out := by
  intro fuel
  induction fuel with
  | zero => intro m x d s out s' h; simp [ccSort] at h
  | succ fuel ih =>
    intro m x d s out s' h hm hx
    have hx0 : 0 < x.length := List.length_pos_iff.2 hx
    simp only [ccSort] at h
    rw [if_neg (by omega)] at h
    by_cases h1 : x.length = 1
    · rw [if_pos h1] at h
      simp only [Option.some.injEq, Prod.mk.injEq] at h
      obtain ⟨rfl, rfl⟩ := h
      obtain ⟨y, rfl⟩ := List.length_eq_one_iff.1 h1
      exact ⟨by simp; omega, fun _ h => h, fun _ _ => .one⟩
    rw [if_neg h1] at h
    by_cases h2 : x.length = 2
    · rw [if_pos h2] at h
      obtain ⟨x0, x1, rfl⟩ : ∃ x0 x1, x = [x0, x1] := by
        match x, h2 with
        | [x0, x1], _ => exact ⟨x0, x1, rfl⟩
      by_cases hm2 : min m [x0, x1].length = 2
      · rw [if_pos hm2] at h
        cases hcmp : comp2 ([x0, x1].nth 0) ([x0, x1].nth 1) ((newLits 2 s).1.nth 0) ((newLits 2 s).1.nth 1) d with
        | none => rw [hcmp] at h; simp at h
        | some cs =>
          rw [hcmp] at h
          simp only [Option.bind_some, Option.some.injEq, Prod.mk.injEq] at h
          obtain ⟨rfl, rfl⟩ := h
          refine ⟨by simp at hm2 ⊢; omega, fun c hc => mem_addClauses.2 (.inl hc), fun S hS => ?_⟩
          have hc := comp2_up hcmp (hS.mono fun x hx => mem_addClauses.2 (.inr hx))
          exact SortP.merge (m := m) (x := [x0]) (y := [x1]) .one .one (by simp; omega) (by simp; omega) (by simp at hm2 ⊢; omega) (comp2_merge hc.1 hc.2)
      · rw [if_neg hm2] at h
        cases hcmp : comp1 ([x0, x1].nth 0) ([x0, x1].nth 1) ((newLits 1 s).1.nth 0) d with
        | none => rw [hcmp] at h; simp at h
        | some cs =>
          rw [hcmp] at h
          simp only [Option.bind_some, Option.some.injEq, Prod.mk.injEq] at h
          obtain ⟨rfl, rfl⟩ := h
          refine ⟨by simp at hm2 ⊢; omega, fun c hc => mem_addClauses.2 (.inl hc), fun S hS => ?_⟩
          have hc := comp1_up hcmp (hS.mono fun x hx => mem_addClauses.2 (.inr hx))
          exact SortP.merge (m := m) (x := [x0]) (y := [x1]) .one .one (by simp; omega) (by simp; omega) (by simp; omega)
            (comp1_merge (a := [x0]) (b := [x1]) (by simp) (by simp) hc)
    rw [if_neg h2] at h
    by_cases hd : d ≠ .i2o
    · rw [if_pos hd] at h
      cases e1 : ccSort fuel (min m x.length) (x.take (x.length / 2)) d s with
      | none => rw [e1] at h; simp at h
      | some r1 =>
        obtain ⟨o1, s1⟩ := r1
        rw [e1] at h
        simp only [Option.bind_some] at h
        cases e2 : ccSort fuel (min m x.length) (x.drop (x.length / 2)) d s1 with
        | none => rw [e2] at h; simp at h
        | some r2 =>
          obtain ⟨o2, s2⟩ := r2
          rw [e2] at h
          simp only [Option.bind_some] at h
          by_cases hl : o1.length = min (min m x.length) (x.length / 2) ∧ o2.length = min (min m x.length) (x.length - x.length / 2)
          · rw [if_pos hl] at h
            have n1 : (x.take (x.length / 2)).length = x.length / 2 := by simp; omega
            have n2 : (x.drop (x.length / 2)).length = x.length - x.length / 2 := by simp
            obtain ⟨l1, m1, P1⟩ := ih _ _ _ _ _ _ e1 (by omega) (by intro h; rw [h] at n1; simp at n1; omega)
            obtain ⟨l2, m2, P2⟩ := ih _ _ _ _ _ _ e2 (by omega) (by intro h; rw [h] at n2; simp at n2; omega)
            obtain ⟨l3, m3, P3⟩ := ccMerge_up _ _ _ _ _ _ _ _ hd (by intro h; rw [h] at hl; simp at hl; omega) (by intro h; rw [h] at hl; simp at hl; omega) h
            refine ⟨by omega, fun c hc => m3 c (m2 c (m1 c hc)), fun S hS => ?_⟩
            have := SortP.merge (m := min m x.length) (P1 S (hS.mono fun c hc => m3 c (m2 c hc))) (P2 S (hS.mono m3)) l1 l2 (by omega) (P3 S hS)
            rwa [List.take_append_drop] at this
          · rw [if_neg hl] at h; simp at h
    · rw [if_neg hd] at h
      have hd : d = .i2o := by simpa using hd
      subst hd
      by_cases hm2 : min m x.length < 2
      · rw [if_pos hm2] at h; simp at h
      rw [if_neg hm2] at h
      by_cases hcs : counterSorterValue (min m x.length) x.length < directSorterValue x.length
      · rw [if_pos hcs] at h
        simp only [Option.some.injEq, Prod.mk.injEq] at h
        have hlen : out.length = min m x.length := by
          rw [show out = _ from (congrArg Prod.fst h).symm]; simp [counterSorter]
        refine ⟨hlen, fun c hc => ?_, fun S hS => ?_⟩
        · rw [show s' = _ from (congrArg Prod.snd h).symm]
          refine mem_addClauses.2 (.inl ?_)
          rw [allocCols_clauses]; exact hc
        · have e := h
          have := counterSorter_up (k := min m x.length) (x := x) (s := s) (by omega) (by omega) (S := S) (by rw [e]; exact hS)
          rw [e] at this; exact this
      · rw [if_neg hcs] at h
        have hlen : out.length = min m x.length ∧ (∀ c ∈ s.clauses, c ∈ s'.clauses) := by
          unfold directSorter at h
          by_cases h20 : ¬ x.length < 20
          · rw [if_pos h20] at h; simp at h
          · rw [if_neg h20] at h
            simp only [Option.some.injEq, Prod.mk.injEq] at h
            obtain ⟨rfl, rfl⟩ := h
            exact ⟨newLits_length _ s, fun c hc => mem_addClauses.2 (.inl hc)⟩
        exact ⟨hlen.1, hlen.2, fun S hS => (directSorter_up h hS).2⟩

end Prop1
end Verif
