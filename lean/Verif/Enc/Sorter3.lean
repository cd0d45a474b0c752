import Verif.Enc.Sorter2
/- `cc_sort` is correct. -/
namespace Verif
open ER

/-- What `cc_sort` achieves. -/
structure SortOK (m : Nat) (x : List Lit) (d : Dir) (s : ER) (out : List Lit) (s' : ER) : Prop where
  len : out.length = min m x.length
  le : Le s s'
  wf : Wf s'
  old : ∀ l ∈ out, s'.Old l.v
  nodup : out.Nodup
  mem : ∀ l ∈ out, l ∈ x ∨ ¬ s.Old l.v
  up : d ≠ .o2i → ∀ σ, Sat σ s' → Up σ out (cntL σ x)
  dn : d ≠ .i2o → ∀ σ, Sat σ s' → Dn σ out (cntL σ x)
  compl : ∀ σ, Sat σ s → ∃ σ', Agree s σ σ' ∧ Sat σ' s' ∧ Ex σ' out (cntL σ x)

theorem cntL_take_succ {σ : Asg} {x : List Lit} {i : Nat} (h : i < x.length) :
    cntL σ (x.take (i + 1)) = cntL σ (x.take i) + (if (x.nth i).eval σ = true then 1 else 0) := by
  have : x.take (i + 1) = x.take i ++ [x.nth i] := by
    rw [getBang _ _ h, List.take_append_getElem h]
  rw [this, cntL_append, cntL_singleton]

theorem cntL_take_le {σ : Asg} {x : List Lit} (i : Nat) : cntL σ (x.take i) ≤ i :=
  Nat.le_trans (cntL_le _ _) (by simp; omega)

/-! #### columns of new literals -/

structure ColsOK (sizes : List Nat) (s : ER) (cols : List (List Lit)) (s' : ER) : Prop where
  le : Le s s'
  sat : ∀ σ, Sat σ s' ↔ Sat σ s
  wf : Wf s → Wf s'
  len : cols.length = sizes.length
  clen : ∀ j, j < sizes.length → (cols.nth j).length = sizes.nth j
  old : ∀ j, j < sizes.length → ∀ l ∈ cols.nth j, s'.Old l.v
  nold : ∀ j, j < sizes.length → ∀ l ∈ cols.nth j, ¬ s.Old l.v
  dis : ∀ j k, j < k → k < sizes.length → ∀ x ∈ cols.nth j, x ∉ cols.nth k
  ext : ∀ (σ : Asg) (b : Nat → Nat → Bool), ∃ σ', Agree s σ σ' ∧
    ∀ j, j < sizes.length → ∀ i, i < sizes.nth j → ((cols.nth j).nth i).eval σ' = b j i

theorem nth_cons_zero {α} [Inhabited α] (x : α) (l : List α) : (x :: l).nth 0 = x := rfl
theorem nth_cons_succ {α} [Inhabited α] (x : α) (l : List α) (i : Nat) : (x :: l).nth (i + 1) = l.nth i := rfl

theorem allocCols_ok (sizes : List Nat) : ∀ s, ColsOK sizes s (allocCols sizes s).1 (allocCols sizes s).2 := by
  induction sizes with
  | nil =>
    intro s
    refine ⟨Le.refl _, fun _ => Iff.rfl, id, rfl, ?_, ?_, ?_, ?_, ?_⟩ <;> try (intro j hj; simp at hj)
    · intro j k _ hk; simp at hk
    · intro σ b; exact ⟨σ, Agree.refl _ _, fun j hj => by simp at hj⟩
  | cons k ks ih =>
    intro s
    obtain ⟨c, s1, e⟩ : ∃ c s1, newLits k s = (c, s1) := ⟨_, _, rfl⟩
    have hlen : c.length = k := by have := newLits_length k s; rw [e] at this; exact this
    have le1 : Le s s1 := by have := newLits_le k s; rw [e] at this; exact this
    have sat1 : ∀ {σ}, Sat σ s1 ↔ Sat σ s := by intro σ; have := newLits_sat (k := k) (s := s) (σ := σ); rw [e] at this; exact this
    have w1 : Wf s → Wf s1 := by have := newLits_wf (k := k) (s := s); rw [e] at this; exact this
    have oc : ∀ l ∈ c, s1.Old l.v := by have := newLits_old (k := k) (s := s); rw [e] at this; exact this
    have nc : ∀ l ∈ c, ¬ s.Old l.v := by have := newLits_not_old (k := k) (s := s); rw [e] at this; exact this
    have ext := newLits_ext k s
    rw [e] at ext
    have I := ih s1
    simp only [allocCols, e]
    generalize allocCols ks s1 = r at I ⊢
    obtain ⟨cs, s2⟩ := r
    simp only at I ⊢
    refine ⟨le1.trans I.le, fun σ => (I.sat σ).trans sat1, fun h => I.wf (w1 h), by simp [I.len], ?_, ?_, ?_, ?_, ?_⟩
    · intro j hj
      cases j with
      | zero => exact hlen
      | succ j => exact I.clen j (by simpa using hj)
    · intro j hj l hl
      cases j with
      | zero => exact I.le.old (oc l hl)
      | succ j => exact I.old j (by simpa using hj) l hl
    · intro j hj l hl
      cases j with
      | zero => exact nc l hl
      | succ j => exact fun h => I.nold j (by simpa using hj) l hl (le1.old h)
    · intro j k' hjk hk x hx hx'
      cases k' with
      | zero => omega
      | succ k' =>
        cases j with
        | zero => exact I.nold k' (by simpa using hk) x hx' (oc x hx)
        | succ j => exact I.dis j k' (by omega) (by simpa using hk) x hx hx'
    · intro σ b
      obtain ⟨σ1, a1, b1⟩ := ext (b 0) σ
      obtain ⟨σ2, a2, b2⟩ := I.ext σ1 (fun j i => b (j + 1) i)
      refine ⟨σ2, a1.trans le1 a2, ?_⟩
      intro j hj i hi
      cases j with
      | zero =>
        have hi' : i < k := hi
        show (c.nth i).eval σ2 = _
        rw [← a2.lit (oc _ (getBang_mem (by omega)))]; exact b1 i hi'
      | succ j => exact b2 j (by simpa using hj) i hi

theorem counterSorter_ok {k : Nat} {x : List Lit} {s : ER} (hw : Wf s) (ox : ∀ l ∈ x, s.Old l.v) (hk : k ≤ x.length) (hk1 : 1 ≤ k) :
    SortOK k x .i2o s (counterSorter k x s).1 (counterSorter k x s).2 := by
  unfold counterSorter
  simp only
  have I := allocCols_ok ((List.range k).map fun j => x.length - j) s
  generalize allocCols ((List.range k).map fun j => x.length - j) s = r at I ⊢
  obtain ⟨cols, s1⟩ := r
  simp only at I ⊢
  have slen : ((List.range k).map fun j => x.length - j).length = k := by simp
  have snth : ∀ {j}, j < k → ((List.range k).map fun j => x.length - j).nth j = x.length - j := by
    intro j hj; rw [getBang _ _ (by simpa using hj)]; simp
  obtain ⟨le1, sat1, w1, clen, ccl, old, nold, dis, ext⟩ := I
  rw [slen] at ccl old nold dis ext
  obtain ⟨aux, haux⟩ : ∃ aux : Nat → Nat → Lit, aux = fun i j => (cols.nth j).nth (i - j) := ⟨_, rfl⟩
  have hmem : ∀ {i j}, j < k → j ≤ i → i < x.length → aux i j ∈ cols.nth j := by
    intro i j h1 h2 h3; rw [haux]; exact getBang_mem (by rw [ccl j h1, snth h1]; omega)
  have haux' : ∀ i j, (cols.nth j).nth (i - j) = aux i j := by intro i j; rw [haux]
  simp only [haux']
  generalize hn : x.length = n at *
  generalize hcs : (List.range n).flatMap (fun i => [[(x.nth i).neg, aux i 0]] ++
      (if i > 0 then [[(aux (i - 1) 0).neg, aux i 0]] else [])) ++
    (List.range' 1 (k - 1)).flatMap (fun j => (List.range' j (n - j)).flatMap fun i =>
      [[(x.nth i).neg, (aux (i - 1) (j - 1)).neg, aux i j]] ++
      (if i > j then [[(aux (i - 1) j).neg, aux i j]] else [])) = cs
  have hcsm : ∀ c, c ∈ cs ↔ (∃ i, i < n ∧ c = [(x.nth i).neg, aux i 0]) ∨
      (∃ i, 0 < i ∧ i < n ∧ c = [(aux (i - 1) 0).neg, aux i 0]) ∨
      (∃ i j, 1 ≤ j ∧ j < k ∧ j ≤ i ∧ i < n ∧ c = [(x.nth i).neg, (aux (i - 1) (j - 1)).neg, aux i j]) ∨
      (∃ i j, 1 ≤ j ∧ j < k ∧ j < i ∧ i < n ∧ c = [(aux (i - 1) j).neg, aux i j]) := by
    intro c; subst hcs
    simp only [List.mem_append, List.mem_range, List.mem_flatMap, List.mem_range'_1]
    constructor
    · rintro (⟨i, hi, hc | hc⟩ | ⟨j, hj, i, hi, hc | hc⟩)
      · simp at hc; exact Or.inl ⟨i, hi, hc⟩
      · split at hc
        · simp at hc; exact Or.inr (Or.inl ⟨i, by assumption, hi, hc⟩)
        · simp at hc
      · simp at hc; exact Or.inr (Or.inr (Or.inl ⟨i, j, by omega, by omega, by omega, by omega, hc⟩))
      · split at hc
        · simp at hc; exact Or.inr (Or.inr (Or.inr ⟨i, j, by omega, by omega, by assumption, by omega, hc⟩))
        · simp at hc
    · rintro (⟨i, hi, rfl⟩ | ⟨i, hi, hi', rfl⟩ | ⟨i, j, h1, h2, h3, h4, rfl⟩ | ⟨i, j, h1, h2, h3, h4, rfl⟩)
      · exact Or.inl ⟨i, hi, Or.inl (by simp)⟩
      · exact Or.inl ⟨i, hi', Or.inr (by rw [if_pos hi]; simp)⟩
      · exact Or.inr ⟨j, by omega, i, by omega, Or.inl (by simp)⟩
      · exact Or.inr ⟨j, by omega, i, by omega, Or.inr (by rw [if_pos h3]; simp)⟩
  have oaux : ∀ {i j}, j < k → j ≤ i → i < n → s1.Old (aux i j).v := fun h1 h2 h3 => old _ h1 _ (hmem h1 h2 h3)
  have ox' : ∀ {i}, i < n → s1.Old (x.nth i).v := fun h => le1.old (ox _ (getBang_mem (by omega)))
  have onth : ∀ {j}, j < k → ((List.range k).map fun j => aux (n - 1) j).nth j = aux (n - 1) j := by
    intro j hj; rw [getBang _ _ (by simpa using hj)]; simp
  refine ⟨by simp; omega, le1.trans (addClauses_le _ _), addClauses_wf (w1 hw) ?_, ?_, ?_, ?_, ?_, fun h => absurd rfl h, ?_⟩
  · intro c hc l hl
    rcases (hcsm c).1 hc with ⟨i, hi, rfl⟩ | ⟨i, hi, hi', rfl⟩ | ⟨i, j, h1, h2, h3, h4, rfl⟩ | ⟨i, j, h1, h2, h3, h4, rfl⟩
    · simp at hl; rcases hl with rfl | rfl
      · rw [Lit.neg_v]; exact ox' hi
      · exact oaux (by omega) (by omega) hi
    · simp at hl; rcases hl with rfl | rfl
      · rw [Lit.neg_v]; exact oaux (by omega) (by omega) (by omega)
      · exact oaux (by omega) (by omega) (by omega)
    · simp at hl; rcases hl with rfl | rfl | rfl
      · rw [Lit.neg_v]; exact ox' (by omega)
      · rw [Lit.neg_v]; exact oaux (by omega) (by omega) (by omega)
      · exact oaux (by omega) (by omega) (by omega)
    · simp at hl; rcases hl with rfl | rfl
      · rw [Lit.neg_v]; exact oaux (by omega) (by omega) (by omega)
      · exact oaux (by omega) (by omega) (by omega)
  · intro l hl; rw [addClauses_old]; simp at hl; obtain ⟨j, hj, rfl⟩ := hl
    exact oaux hj (by omega) (by omega)
  · simp only [List.Nodup, List.pairwise_map]
    rw [List.pairwise_iff_getElem]
    intro i j hi hj hij
    simp at hi hj
    simp only [List.getElem_range]
    intro he
    exact dis i j hij hj _ (hmem hi (by omega) (by omega)) (he ▸ hmem hj (by omega) (by omega))
  · intro l hl; simp at hl; obtain ⟨j, hj, rfl⟩ := hl
    exact Or.inr (nold _ hj _ (hmem hj (by omega) (by omega)))
  · intro _ σ hs j hj hj'
    have hj1 : j < k := by simpa using hj
    rw [onth hj1]
    have hc := (addClauses_sat.1 hs).2
    have key : ∀ i j, i < n → j < k → j < cntL σ (x.take (i + 1)) → (aux i j).eval σ = true := by
      intro i
      induction i with
      | zero =>
        intro j hi hjk hlt
        have h1 := cntL_take_le (σ := σ) (x := x) (0 + 1)
        have hj0 : j = 0 := by omega
        subst hj0
        rw [cntL_take_succ (by omega)] at hlt
        have := hc _ ((hcsm _).2 (Or.inl ⟨0, hi, rfl⟩))
        by_cases hx : (x.nth 0).eval σ = true
        · simpa [Clause.Sat, hx] using this
        · rw [if_neg hx] at hlt; simp [cntL] at hlt
      | succ i ih =>
        intro j hi hjk hlt
        have hle := cntL_take_le (σ := σ) (x := x) (i + 1 + 1)
        rw [cntL_take_succ (by omega)] at hlt
        by_cases hx : (x.nth (i + 1)).eval σ = true
        · rw [if_pos hx] at hlt
          by_cases hj0 : j = 0
          · subst hj0
            have := hc _ ((hcsm _).2 (Or.inl ⟨i + 1, hi, rfl⟩))
            simpa [Clause.Sat, hx] using this
          · have := hc _ ((hcsm _).2 (Or.inr (Or.inr (Or.inl ⟨i + 1, j, by omega, by omega, by
              have := cntL_take_le (σ := σ) (x := x) (i + 1); omega, by omega, rfl⟩))))
            have h2 := ih (j - 1) (by omega) (by omega) (by omega)
            rw [show i + 1 - 1 = i by omega] at this
            simpa [Clause.Sat, hx, h2] using this
        · rw [if_neg hx] at hlt
          have h2 := ih j (by omega) (by omega) (by omega)
          have h3 := cntL_take_le (σ := σ) (x := x) (i + 1)
          by_cases hj0 : j = 0
          · subst hj0
            have := hc _ ((hcsm _).2 (Or.inr (Or.inl ⟨i + 1, by omega, by omega, rfl⟩)))
            rw [show i + 1 - 1 = i by omega] at this
            simpa [Clause.Sat, h2] using this
          · have := hc _ ((hcsm _).2 (Or.inr (Or.inr (Or.inr ⟨i + 1, j, by omega, by omega, by omega, by omega, rfl⟩))))
            rw [show i + 1 - 1 = i by omega] at this
            simpa [Clause.Sat, h2] using this
    apply key (n - 1) j (by omega) hj1
    rw [List.take_of_length_le (by omega)]; exact hj'
  · intro σ hs
    obtain ⟨σ', ag, hb⟩ := ext σ (fun j i => decide (j < cntL σ (x.take (i + j + 1))))
    have hb' : ∀ {i j}, j < k → j ≤ i → i < n → (aux i j).eval σ' = decide (j < cntL σ (x.take (i + 1))) := by
      intro i j h1 h2 h3
      rw [haux]
      have := hb j h1 (i - j) (by rw [snth h1]; omega)
      simp only at this ⊢
      rw [this, show i - j + j + 1 = i + 1 by omega]
    have hx' : ∀ {i}, i < n → (x.nth i).eval σ' = (x.nth i).eval σ := fun h => (ag.lit (ox _ (getBang_mem (by omega)))).symm
    refine ⟨σ', ag, addClauses_sat.2 ⟨(sat1 _).2 ((ag.sat hw).1 hs), ?_⟩, ?_⟩
    · intro c hc
      rcases (hcsm c).1 hc with ⟨i, hi, rfl⟩ | ⟨i, hi, hi', rfl⟩ | ⟨i, j, h1, h2, h3, h4, rfl⟩ | ⟨i, j, h1, h2, h3, h4, rfl⟩
      · have e1 := hb' (i := i) (j := 0) (by omega) (by omega) hi
        rw [cntL_take_succ (by omega)] at e1
        have e2 := hx' hi
        cases hx : (x.nth i).eval σ <;> simp [Clause.Sat, e1, e2, hx]
      · have e1 := hb' (i := i) (j := 0) (by omega) (by omega) hi'
        have e2 := hb' (i := i - 1) (j := 0) (by omega) (by omega) (by omega)
        rw [show i - 1 + 1 = i by omega] at e2
        rw [cntL_take_succ (by omega)] at e1
        simp [Clause.Sat, e1, e2]; omega
      · have e1 := hb' (i := i) (j := j) (by omega) (by omega) (by omega)
        have e2 := hb' (i := i - 1) (j := j - 1) (by omega) (by omega) (by omega)
        rw [show i - 1 + 1 = i by omega] at e2
        rw [cntL_take_succ (by omega)] at e1
        have e3 := hx' h4
        cases hx : (x.nth i).eval σ
        · simp [Clause.Sat, e3, hx]
        · rw [hx] at e1
          simp [Clause.Sat, e1, e2, e3, hx]; omega
      · have e1 := hb' (i := i) (j := j) (by omega) (by omega) (by omega)
        have e2 := hb' (i := i - 1) (j := j) (by omega) (by omega) (by omega)
        rw [show i - 1 + 1 = i by omega] at e2
        rw [cntL_take_succ (by omega)] at e1
        simp [Clause.Sat, e1, e2]; omega
    · intro j hj
      have hj1 : j < k := by simpa using hj
      rw [onth hj1, hb' hj1 (by omega) (by omega), List.take_of_length_le (by omega)]

/-! #### direct sorter -/

theorem exists_mask (p : Nat → Bool) : ∀ n, ∃ mask, mask < 2 ^ n ∧ ∀ i, i < n → mask.testBit i = p i
  | 0 => ⟨0, by simp, fun i hi => by omega⟩
  | n + 1 => by
    obtain ⟨mask, h1, h2⟩ := exists_mask p n
    cases hp : p n
    · refine ⟨mask, by rw [Nat.pow_succ]; omega, ?_⟩
      intro i hi
      by_cases h : i < n
      · exact h2 i h
      · have : i = n := by omega
        subst this
        rw [hp]; exact Nat.testBit_lt_two_pow h1
    · refine ⟨2 ^ n + mask, by rw [Nat.pow_succ]; omega, ?_⟩
      intro i hi
      by_cases h : i < n
      · rw [Nat.testBit_two_pow_add_gt h]; exact h2 i h
      · have : i = n := by omega
        subst this
        rw [hp, Nat.testBit_two_pow_add_eq, Nat.testBit_lt_two_pow h1]; rfl

theorem mask_pos {mask n : Nat} (h0 : 0 < mask) (h : mask < 2 ^ n) : ∃ i, i < n ∧ mask.testBit i = true := by
  obtain ⟨i, hi⟩ := Nat.exists_testBit_of_ne_zero (x := mask) (by omega)
  refine ⟨i, ?_, hi⟩
  by_contra hn
  have : mask < 2 ^ i := Nat.lt_of_lt_of_le h (Nat.pow_le_pow_right (by omega) (by omega))
  rw [Nat.testBit_lt_two_pow this] at hi
  exact absurd hi (by simp)

theorem maskSel_length (mask : Nat) (x : List Lit) : (maskSel mask x).length = ((List.range x.length).filter fun i => mask.testBit i).length := by
  simp [maskSel]

theorem filter_range_succ (p : Nat → Bool) (i : Nat) :
    ((List.range (i + 1)).filter p).length = ((List.range i).filter p).length + (if p i = true then 1 else 0) := by
  rw [List.range_succ, List.filter_append, List.length_append]
  cases h : p i <;> simp [h]

theorem directSorter_ok {m : Nat} {x : List Lit} {s : ER} (hw : Wf s) (ox : ∀ l ∈ x, s.Old l.v) (hm : m ≤ x.length) (hn : x.length < 20) :
    ∃ out s', directSorter m x s = some (out, s') ∧ SortOK m x .i2o s out s' := by
  obtain ⟨out, s1, e⟩ : ∃ out s1, newLits m s = (out, s1) := ⟨_, _, rfl⟩
  have hlen : out.length = m := by have := newLits_length m s; rw [e] at this; exact this
  have le1 : Le s s1 := by have := newLits_le m s; rw [e] at this; exact this
  have sat1 : ∀ {σ}, Sat σ s1 ↔ Sat σ s := by intro σ; have := newLits_sat (k := m) (s := s) (σ := σ); rw [e] at this; exact this
  have w1 : Wf s1 := by have := newLits_wf (k := m) hw; rw [e] at this; exact this
  have oo : ∀ l ∈ out, s1.Old l.v := by have := newLits_old (k := m) (s := s); rw [e] at this; exact this
  have no : ∀ l ∈ out, ¬ s.Old l.v := by have := newLits_not_old (k := m) (s := s); rw [e] at this; exact this
  have nd : out.Nodup := by have := newLits_nodup (k := m) (s := s); rw [e] at this; exact this
  have ext := newLits_ext m s
  rw [e] at ext
  unfold directSorter
  rw [if_neg (by omega), e]
  simp only
  generalize hcs : ((List.range' 1 (2 ^ x.length - 1)).flatMap fun mask =>
    if (maskSel mask x).length ≤ m then [(maskSel mask x).map Lit.neg ++ [out.nth ((maskSel mask x).length - 1)]] else []) = cs
  have hcsm : ∀ c, c ∈ cs ↔ ∃ mask, 0 < mask ∧ mask < 2 ^ x.length ∧ (maskSel mask x).length ≤ m ∧
      c = (maskSel mask x).map Lit.neg ++ [out.nth ((maskSel mask x).length - 1)] := by
    intro c; subst hcs
    have : 0 < 2 ^ x.length := Nat.two_pow_pos _
    simp only [List.mem_flatMap, List.mem_range'_1]
    constructor
    · rintro ⟨mask, h1, hc⟩
      split at hc
      · simp only [List.mem_singleton] at hc; exact ⟨mask, by omega, by omega, by assumption, hc⟩
      · simp at hc
    · rintro ⟨mask, h1, h2, h3, rfl⟩
      exact ⟨mask, by omega, by rw [if_pos h3]; simp⟩
  have hsel : ∀ {mask}, 0 < mask → mask < 2 ^ x.length → 0 < (maskSel mask x).length := by
    intro mask h1 h2
    obtain ⟨i, hi, hb⟩ := mask_pos h1 h2
    rw [maskSel_length]
    apply List.length_pos_of_mem (a := i)
    simp [hi, hb]
  have hselm : ∀ {mask l}, l ∈ maskSel mask x → l ∈ x := by
    intro mask l hl; simp [maskSel] at hl; obtain ⟨i, hi, rfl⟩ := hl; exact getBang_mem hi.1
  refine ⟨_, _, rfl, ⟨by omega, le1.trans (addClauses_le _ _), addClauses_wf w1 ?_, fun l hl => by rw [addClauses_old]; exact oo l hl,
    nd, fun l hl => Or.inr (no l hl), ?_, fun h => absurd rfl h, ?_⟩⟩
  · intro c hc l hl
    obtain ⟨mask, h1, h2, h3, rfl⟩ := (hcsm c).1 hc
    simp at hl
    rcases hl with ⟨l', hl', rfl⟩ | rfl
    · rw [Lit.neg_v]; exact le1.old (ox _ (hselm hl'))
    · exact oo _ (getBang_mem (by have := hsel h1 h2; omega))
  · intro _ σ hs k k1 k2
    obtain ⟨p, hp⟩ : ∃ p : Nat → Bool, p = fun i => (x.nth i).eval σ && decide (cntL σ (x.take i) ≤ k) := ⟨_, rfl⟩
    obtain ⟨mask, h1, h2⟩ := exists_mask p x.length
    have hcount : ∀ i, i ≤ x.length → ((List.range i).filter fun i => mask.testBit i).length = min (cntL σ (x.take i)) (k + 1) := by
      intro i
      induction i with
      | zero => intro _; simp [cntL]
      | succ i ih =>
        intro hi
        rw [filter_range_succ, ih (by omega), cntL_take_succ (by omega), h2 i (by omega), hp]
        by_cases hx : (x.nth i).eval σ = true
        · simp [hx]; split <;> omega
        · simp [hx]
    have hL : (maskSel mask x).length = k + 1 := by
      rw [maskSel_length, hcount _ (by omega), List.take_of_length_le (by omega)]; omega
    have hpos : 0 < mask := by
      rcases Nat.eq_zero_or_pos mask with h | h
      · subst h; rw [maskSel_length, List.filter_eq_nil_iff.2 (by simp)] at hL; simp at hL
      · exact h
    have := (addClauses_sat.1 hs).2 _ ((hcsm _).2 ⟨mask, hpos, h1, by omega, rfl⟩)
    obtain ⟨l, hl, hv⟩ := this
    simp at hl
    rcases hl with ⟨l', hl', rfl⟩ | rfl
    · simp [maskSel] at hl'
      obtain ⟨i, ⟨hi, hi'⟩, rfl⟩ := hl'
      rw [h2 i hi, hp] at hi'
      simp at hi' hv
      rw [hi'.1] at hv; simp at hv
    · rw [hL] at hv; exact hv
  · intro σ hs
    obtain ⟨σ', ag, hb⟩ := ext (fun k => decide (k < cntL σ x)) σ
    refine ⟨σ', ag, addClauses_sat.2 ⟨sat1.2 ((ag.sat hw).1 hs), ?_⟩, fun k hk => hb k (by omega)⟩
    intro c hc
    obtain ⟨mask, h1, h2, h3, rfl⟩ := (hcsm c).1 hc
    by_cases hall : ∀ l ∈ maskSel mask x, l.eval σ' = true
    · refine ⟨_, by simp; exact Or.inr rfl, ?_⟩
      have h0 := hsel h1 h2
      rw [hb _ (by omega)]
      simp only [decide_eq_true_eq]
      have hcount : ∀ i, i ≤ x.length → ((List.range i).filter fun i => mask.testBit i).length ≤ cntL σ (x.take i) := by
        intro i
        induction i with
        | zero => intro _; simp
        | succ i ih =>
          intro hi
          have := ih (by omega)
          rw [filter_range_succ, cntL_take_succ (by omega)]
          by_cases hb : mask.testBit i = true
          · have := hall (x.nth i) (by simp [maskSel]; exact ⟨i, ⟨by omega, hb⟩, rfl⟩)
            rw [← ag.lit (ox _ (getBang_mem (by omega)))] at this
            rw [if_pos hb, if_pos this]; omega
          · rw [if_neg hb]; omega
      have := hcount x.length (by omega)
      rw [List.take_of_length_le (by omega), ← maskSel_length] at this
      omega
    · simp only [not_forall] at hall
      obtain ⟨l, hl, hv⟩ := hall
      exact ⟨l.neg, by simp; exact Or.inl ⟨l, hl, rfl⟩, by simpa using hv⟩

theorem sorter_choice {m n : Nat} (hm : m ≤ n) (h20 : 20 ≤ n) (hn : n < 2 ^ 30) : counterSorterValue m n < directSorterValue n := by
  have h1 : counterSorterValue m n ≤ 2 * n + n * (2 * n) := by
    unfold counterSorterValue
    have : (m - 1) * (2 * (n - 1) - 1) ≤ n * (2 * n) := Nat.mul_le_mul (by omega) (by omega)
    omega
  unfold directSorterValue
  split
  · have : n * (2 * n) ≤ 2 ^ 30 * (2 * 2 ^ 30) := Nat.mul_le_mul (by omega) (by omega)
    omega
  · have : n ∈ List.range' 20 11 := by rw [List.mem_range'_1]; omega
    have h2 : ∀ n ∈ List.range' 20 11, 2 * n + n * (2 * n) < 2 ^ n - 1 := by decide
    have := h2 n this
    omega

theorem ccSort_spec : ∀ (fuel m : Nat) (x : List Lit) (d : Dir) (s : ER), x.length < fuel → x.length < 2 ^ 30 → Wf s →
    (∀ l ∈ x, s.Old l.v) → x.Nodup → (d = .i2o → 3 ≤ x.length → 2 ≤ m) →
    ∃ out s', ccSort fuel m x d s = some (out, s') ∧ SortOK m x d s out s' := by
  intro fuel
  induction fuel with
  | zero => intros; omega
  | succ fuel ih =>
    intro m x d s hf hbig hw ox nx hmin
    simp only [ccSort]
    by_cases h0 : m = 0 ∨ x.length = 0
    · rw [if_pos h0]
      refine ⟨_, _, rfl, ⟨by simp; omega, Le.refl _, hw, by simp, by simp, by simp, ?_, ?_, ?_⟩⟩
      · intro _ σ _ k hk; simp at hk
      · intro _ σ _ k hk; simp at hk
      · intro σ hs; exact ⟨σ, Agree.refl _ _, hs, fun k hk => by simp at hk⟩
    rw [if_neg h0]
    by_cases h1 : x.length = 1
    · rw [if_pos h1]
      obtain ⟨y, rfl⟩ := List.length_eq_one_iff.1 h1
      have hex : ∀ σ, Ex σ [y] (cntL σ [y]) := by
        intro σ k hk
        have : k = 0 := by simp at hk; exact hk
        subst this
        show y.eval σ = _
        rw [cntL_singleton]; cases y.eval σ <;> simp
      refine ⟨_, _, rfl, ⟨by simp; omega, Le.refl _, hw, ox, nx, fun l hl => Or.inl hl, fun _ σ _ => (hex σ).up, fun _ σ _ => (hex σ).dn, ?_⟩⟩
      intro σ hs; exact ⟨σ, Agree.refl _ _, hs, hex σ⟩
    rw [if_neg h1]
    by_cases h2 : x.length = 2
    · rw [if_pos h2]
      obtain ⟨x0, x1, rfl⟩ : ∃ x0 x1, x = [x0, x1] := by
        match x, h2 with
        | [x0, x1], _ => exact ⟨x0, x1, rfl⟩
      have hne : x0 ≠ x1 := by simpa using nx
      have ox0 : s.Old x0.v := ox _ (by simp)
      have ox1 : s.Old x1.v := ox _ (by simp)
      have hcnt : ∀ σ, cntL σ [x0, x1] = (if x0.eval σ = true then 1 else 0) + (if x1.eval σ = true then 1 else 0) := by
        intro σ
        rw [show [x0, x1] = [x0] ++ [x1] from rfl, cntL_append, cntL_singleton, cntL_singleton]
      by_cases hm2 : min m 2 = 2
      · have hm2' : min m [x0, x1].length = 2 := by simpa using hm2
        rw [if_pos hm2']
        obtain ⟨z0, z1, s1, e1, le1, sat1, w1, oz0, oz1, nz0, nz1, zne, ext⟩ := newLits_two s
        rw [e1]
        simp only [show ([z0, z1] : List Lit).nth 0 = z0 from rfl, show ([z0, z1] : List Lit).nth 1 = z1 from rfl,
          show ([x0, x1] : List Lit).nth 0 = x0 from rfl, show ([x0, x1] : List Lit).nth 1 = x1 from rfl]
        obtain ⟨cs, ecs, vcs, scs⟩ := comp2_spec (d := d) hne zne
        rw [ecs]; simp only [Option.bind_some]
        have w2 : Wf (s1.addClauses cs) := addClauses_wf (w1 hw) (by
          intro c hc l hl
          rcases vcs c hc l hl with h | h | h | h <;> rw [h]
          · exact le1.old ox0
          · exact le1.old ox1
          · exact oz0
          · exact oz1)
        refine ⟨_, _, rfl, ⟨by simp; omega, le1.trans (addClauses_le _ _), w2, by simpa [addClauses_old] using ⟨oz0, oz1⟩,
          by simpa using zne, ?_, ?_, ?_, ?_⟩⟩
        · intro l hl; simp at hl
          rcases hl with rfl | rfl
          · exact Or.inr nz0
          · exact Or.inr nz1
        · intro hd' σ hs k k1 k2
          have := ((scs σ).1 (addClauses_sat.1 hs).2).1 hd'
          rw [hcnt] at k2
          have hk : k = 0 ∨ k = 1 := by simp at k1; omega
          rcases hk with rfl | rfl
          · apply this.1
            cases h : x0.eval σ <;> cases h' : x1.eval σ <;> simp [h, h'] at k2 ⊢
          · apply this.2 <;> cases h : x0.eval σ <;> cases h' : x1.eval σ <;> simp [h, h'] at k2 ⊢
        · intro hd' σ hs k k1 k2
          have := ((scs σ).1 (addClauses_sat.1 hs).2).2 hd'
          rw [hcnt]
          have hk : k = 0 ∨ k = 1 := by simp at k1; omega
          rcases hk with rfl | rfl
          · rcases this.1 k2 with h | h <;> rw [if_pos h] <;> omega
          · have h := this.2 k2
            rw [if_pos h.1, if_pos h.2]; omega
        · intro σ hs
          obtain ⟨σ', ha, b0, b1⟩ := ext σ (decide (0 < cntL σ [x0, x1])) (decide (1 < cntL σ [x0, x1]))
          refine ⟨σ', ha, addClauses_sat.2 ⟨(sat1 _).2 ((ha.sat hw).1 hs), (scs σ').2 ?_⟩, ?_⟩
          · rw [← ha.lit ox0, ← ha.lit ox1, b0, b1, hcnt]
            cases x0.eval σ <;> cases x1.eval σ <;> simp
          · intro k k1
            have hk : k = 0 ∨ k = 1 := by simp at k1; omega
            rcases hk with rfl | rfl
            · exact b0
            · exact b1
      · have hm2' : ¬ min m [x0, x1].length = 2 := by simpa using hm2
        rw [if_neg hm2']
        obtain ⟨z0, s1, e1, le1, sat1, w1, oz0, nz0, ext⟩ := newLits_one s
        rw [e1]
        simp only [show ([z0] : List Lit).nth 0 = z0 from rfl,
          show ([x0, x1] : List Lit).nth 0 = x0 from rfl, show ([x0, x1] : List Lit).nth 1 = x1 from rfl]
        obtain ⟨cs, ecs, vcs, scs⟩ := comp1_spec (y := z0) (d := d) hne
        rw [ecs]; simp only [Option.bind_some]
        have w2 : Wf (s1.addClauses cs) := addClauses_wf (w1 hw) (by
          intro c hc l hl
          rcases vcs c hc l hl with h | h | h <;> rw [h]
          · exact le1.old ox0
          · exact le1.old ox1
          · exact oz0)
        refine ⟨_, _, rfl, ⟨by simp; omega, le1.trans (addClauses_le _ _), w2, by simpa [addClauses_old] using oz0, by simp,
          by simpa using Or.inr nz0, ?_, ?_, ?_⟩⟩
        · intro hd' σ hs k k1 k2
          have := ((scs σ).1 (addClauses_sat.1 hs).2).1 hd'
          rw [hcnt] at k2
          have hk : k = 0 := by simp at k1; omega
          subst hk
          apply this
          cases h : x0.eval σ <;> cases h' : x1.eval σ <;> simp [h, h'] at k2 ⊢
        · intro hd' σ hs k k1 k2
          have := ((scs σ).1 (addClauses_sat.1 hs).2).2 hd'
          rw [hcnt]
          have hk : k = 0 := by simp at k1; omega
          subst hk
          rcases this k2 with h | h <;> rw [if_pos h] <;> omega
        · intro σ hs
          obtain ⟨σ', ha, b0⟩ := ext σ (decide (0 < cntL σ [x0, x1]))
          refine ⟨σ', ha, addClauses_sat.2 ⟨(sat1 _).2 ((ha.sat hw).1 hs), (scs σ').2 ?_⟩, ?_⟩
          · rw [← ha.lit ox0, ← ha.lit ox1, b0, hcnt]
            cases x0.eval σ <;> cases x1.eval σ <;> simp
          · intro k k1
            have hk : k = 0 := by simp at k1; omega
            subst hk; exact b0
    rw [if_neg h2]
    by_cases hd : d = .i2o
    · subst hd
      rw [if_neg (by simp), if_neg (by have := hmin rfl (by omega); omega)]
      split
      · have h := counterSorter_ok (k := min m x.length) hw ox (by omega) (by omega)
        exact ⟨_, _, rfl, ⟨h.len.trans (by omega), h.le, h.wf, h.old, h.nodup, h.mem, h.up, h.dn, h.compl⟩⟩
      · next hc =>
        have h20 : x.length < 20 := by
          by_contra h
          exact hc (sorter_choice (by omega) (by omega) hbig)
        obtain ⟨out, s', e, h⟩ := directSorter_ok (m := min m x.length) hw ox (by omega) h20
        exact ⟨_, _, e, ⟨h.len.trans (by omega), h.le, h.wf, h.old, h.nodup, h.mem, h.up, h.dn, h.compl⟩⟩
    rw [if_pos hd]
    have hsplit : x.take (x.length / 2) ++ x.drop (x.length / 2) = x := List.take_append_drop _ _
    have nx' := nx
    rw [← hsplit, List.nodup_append] at nx'
    have l1 : (x.take (x.length / 2)).length = x.length / 2 := by simp; omega
    have l2 : (x.drop (x.length / 2)).length = x.length - x.length / 2 := by simp
    obtain ⟨o1, s1, e1, S1⟩ := ih (min m x.length) (x.take (x.length / 2)) d s (by omega) (by omega) hw
      (fun l hl => ox l (List.mem_of_mem_take hl)) nx'.1 (fun h => absurd h hd)
    rw [e1]; simp only [Option.bind_some]
    obtain ⟨o2, s2, e2, S2⟩ := ih (min m x.length) (x.drop (x.length / 2)) d s1 (by omega) (by omega) S1.wf
      (fun l hl => S1.le.old (ox l (List.mem_of_mem_drop hl))) nx'.2.1 (fun h => absurd h hd)
    rw [e2]; simp only [Option.bind_some]
    have L1 := S1.len; rw [l1] at L1
    have L2 := S2.len; rw [l2] at L2
    rw [if_pos ⟨L1, L2⟩]
    have disj : ∀ y ∈ o1, y ∉ o2 := by
      intro y hy hy'
      rcases S2.mem y hy' with h | h
      · rcases S1.mem y hy with h' | h'
        · exact nx'.2.2 y h' y h rfl
        · exact h' (ox y (List.mem_of_mem_drop h))
      · exact h (S1.old y hy)
    obtain ⟨out, s3, e3, M⟩ := ccMerge_spec (o1.length + o2.length + 2) (min m x.length) o1 o2 d s2 (by omega) S2.wf
      (fun l hl => S2.le.old (S1.old l hl)) S2.old S1.nodup S2.nodup disj (by intro h; omega) (by intro h; omega)
    have hcnt : ∀ σ, cntL σ x = cntL σ (x.take (x.length / 2)) + cntL σ (x.drop (x.length / 2)) := by
      intro σ; rw [← cntL_append, hsplit]
    refine ⟨out, s3, e3, ⟨by rw [M.len]; omega, (S1.le.trans S2.le).trans M.le, M.wf, M.old, M.nodup, ?_, ?_, ?_, ?_⟩⟩
    · intro l hl
      rcases M.mem l hl with h | h | h
      · rcases S1.mem l h with h | h
        · exact Or.inl (List.mem_of_mem_take h)
        · exact Or.inr h
      · rcases S2.mem l h with h | h
        · exact Or.inl (List.mem_of_mem_drop h)
        · exact Or.inr fun h' => h (S1.le.old h')
      · exact Or.inr fun h' => h (S2.le.old (S1.le.old h'))
    · intro hd' σ hs k k1 k2
      have hs2 := M.le.sat hs
      have u1 := S1.up hd' σ (S2.le.sat hs2)
      have u2 := S2.up hd' σ hs2
      have c1 := cntL_le σ (x.take (x.length / 2))
      have c2 := cntL_le σ (x.drop (x.length / 2))
      rw [hcnt] at k2
      have hl := M.len
      refine M.up hd' σ hs (min (cntL σ (x.take (x.length / 2))) o1.length) (min (cntL σ (x.drop (x.length / 2))) o2.length)
        (by omega) (by omega) (u1.mono (by omega)) (u2.mono (by omega)) k k1 (by omega)
    · intro hd' σ hs
      have hs2 := M.le.sat hs
      rw [hcnt]
      exact M.dn hd' σ hs _ _ (S1.dn hd' σ (S2.le.sat hs2)) (S2.dn hd' σ hs2)
    · intro σ hs
      obtain ⟨σ1, a1, hs1, x1⟩ := S1.compl σ hs
      obtain ⟨σ2, a2, hs2, x2⟩ := S2.compl σ1 hs1
      have x1' := a2.ex S1.old x1
      rw [← a1.cntL (fun l hl => ox l (List.mem_of_mem_drop hl))] at x2
      have c1 := cntL_le σ (x.take (x.length / 2))
      have c2 := cntL_le σ (x.drop (x.length / 2))
      obtain ⟨σ3, a3, hs3, x3⟩ := M.compl σ2 hs2 (min (cntL σ (x.take (x.length / 2))) o1.length) (min (cntL σ (x.drop (x.length / 2))) o2.length)
        (by omega) (by omega) (x1'.cap (Nat.le_refl _)) (x2.cap (Nat.le_refl _))
      refine ⟨σ3, (a1.trans S1.le a2).trans (S1.le.trans S2.le) a3, hs3, ?_⟩
      intro k hk
      have hl := M.len
      rw [x3 k hk, decide_eq_decide, hcnt]; omega

end Verif
