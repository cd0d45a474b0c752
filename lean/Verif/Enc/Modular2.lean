import Verif.Enc.Modular
namespace Verif
open ER

theorem mem_lowAll {md W LL RL carry crhs i j c} (hi : i ≤ LL.length) (hj : j ≤ RL.length)
    (h : c ∈ lowPair md W LL RL carry crhs i j) : c ∈ lowAll md W LL RL carry crhs := by
  simp only [lowAll, List.mem_flatMap, List.mem_range]
  exact ⟨i, by omega, j, by omega, h⟩

theorem mem_finalAll {md U LU RU carry crhs i j c} (hi : i ≤ LU.length) (hj : j ≤ RU.length)
    (h : c ∈ finalPair md U LU RU carry crhs i j) : c ∈ finalAll md U LU RU carry crhs := by
  simp only [finalAll, List.mem_flatMap, List.mem_range]
  exact ⟨i, by omega, j, by omega, h⟩

theorem close_ge {crhs md : Nat} (h0 : 0 < md) : crhs ≤ (crhs / md + (if crhs % md = 0 then 0 else 1)) * md := by
  have h := Nat.div_add_mod crhs md
  have h' := Nat.mod_lt crhs h0
  rw [Nat.add_mul, Nat.mul_comm (crhs / md)]
  split <;> simp <;> omega

/-- Soundness of one node of the modular totalizer. -/
theorem adder_sound {md crhs q q1 q2 n1 n2 : Nat} {U LU RU W LL RL i1 i2 : List Lit} {carry : Option Lit} {σ : Asg}
    (hmd : 2 ≤ md) (hsk : md ≤ crhs + 1)
    (sU : MShape md q (n1 + n2) U W) (s1 : MShape md q1 n1 LU LL) (s2 : MShape md q2 n2 RU RL)
    (hl1 : LL.length ≤ n1) (hl2 : RL.length ≤ n2) (hq : q1 + q2 ≤ q) (hcar : carry = none ↔ q = 0)
    (hqn : q = 0 → n1 + n2 < md)
    (hlow : ∀ c ∈ lowAll md W LL RL carry crhs, Clause.Sat σ c)
    (hfin : ∀ x, carry = some x → ∀ c ∈ finalAll md U LU RU x crhs, Clause.Sat σ c)
    (h1 : MSnd md crhs q1 LU LL i1 σ) (h2 : MSnd md crhs q2 RU RL i2 σ) :
    MSnd md crhs q U W (i1 ++ i2) σ := by
  obtain ⟨u1, w1, a1, b1, c1, d1, e1⟩ := h1
  obtain ⟨u2, w2, a2, b2, c2, d2, e2⟩ := h2
  have k1 := s1.lo'
  have k2 := s2.lo'
  have k3 := sU.lo
  have l1 := s1.ulen
  have l2 := s2.ulen
  have low : ∀ i j, i ≤ w1 → j ≤ w2 →
      (1 ≤ i + j → i + j < md → (W.nth (i + j - 1)).eval σ = true ∨ ∃ c ∈ carry, c.eval σ = true) ∧
      (1 ≤ i → 1 ≤ j → i + j = md → ∃ c ∈ carry, c.eval σ = true) ∧
      (1 ≤ i → 1 ≤ j → md < i + j → (W.nth ((i + j) % md - 1)).eval σ = true) := by
    intro i j hi hj
    exact lowPair_true (by omega) (fun c hc => hlow c (mem_lowAll (by omega) (by omega) hc))
      (fun h => d1 _ (by omega)) (fun h => d2 _ (by omega))
  have F1 : ∀ t, 1 ≤ t → t ≤ w1 + w2 → t < md → (W.nth (t - 1)).eval σ = true ∨ ∃ c ∈ carry, c.eval σ = true := by
    intro t t1 t2 t3
    have := (low (min t w1) (t - min t w1) (by omega) (by omega)).1 (by omega) (by omega)
    rwa [show min t w1 + (t - min t w1) = t by omega] at this
  have F2 : md ≤ w1 + w2 → ∃ c ∈ carry, c.eval σ = true := by
    intro h
    exact (low w1 (md - w1) (by omega) (by omega)).2.1 (by omega) (by omega) (by omega)
  have F3 : ∀ t, md < t → t ≤ w1 + w2 → (W.nth (t - md - 1)).eval σ = true := by
    intro t t1 t2
    have := (low w1 (t - w1) (by omega) (by omega)).2.2 (by omega) (by omega) (by omega)
    rw [show w1 + (t - w1) = t by omega] at this
    rwa [Nat.mod_eq_sub_mod (by omega), Nat.mod_eq_of_lt (by omega)] at this
  have hcnt : min (cntL σ (i1 ++ i2)) crhs ≤ (u1 + u2) * md + (w1 + w2) := by
    rw [cntL_append, Nat.add_mul]; omega
  by_cases hq0 : q = 0
  · have hcn := hcar.2 hq0
    have := hqn hq0
    have hu : u1 = 0 ∧ u2 = 0 := by omega
    refine ⟨0, w1 + w2, by omega, by omega, by omega, ?_, ?_⟩
    · intro k hk
      rcases F1 (k + 1) (by omega) (by omega) (by omega) with h | ⟨c, hc, _⟩
      · simpa using h
      · rw [hcn] at hc; simp at hc
    · rw [hu.1, hu.2] at hcnt; exact hcnt
  · obtain ⟨x, hx⟩ : ∃ x, carry = some x := by
      cases h : carry with
      | none => exact absurd (hcar.1 h) hq0
      | some x => exact ⟨x, rfl⟩
    have fin := hfin x hx
    subst hx
    have hclose := close_ge (crhs := crhs) (md := md) (by omega)
    generalize hcm : crhs / md + (if crhs % md = 0 then 0 else 1) = cm at hclose
    have G : ∀ i j, i ≤ u1 → j ≤ u2 → i + j ≤ cm →
        (1 ≤ i + j → i + j ≤ q → (U.nth (i + j - 1)).eval σ = true) ∧
        (x.eval σ = true → i + j < q ∧ (U.nth (i + j)).eval σ = true) := by
      intro i j hi hj hij
      exact finalPair_true (crhs := crhs) sU s1 s2 hq0 (by omega) (by omega) (by rw [hcm]; exact hij)
        (fun c hc => fin c (mem_finalAll (by omega) (by omega) hc)) (fun h => c1 _ (by omega)) (fun h => c2 _ (by omega))
    have G1 : ∀ t, 1 ≤ t → t ≤ u1 + u2 → t ≤ cm → (U.nth (t - 1)).eval σ = true := by
      intro t t1 t2 t3
      have := (G (min t u1) (t - min t u1) (by omega) (by omega) (by omega)).1 (by omega) (by omega)
      rwa [show min t u1 + (t - min t u1) = t by omega] at this
    by_cases hbig : cm < u1 + u2
    · refine ⟨cm, 0, by omega, by omega, ?_, by omega, by omega⟩
      intro k hk
      have := G1 (k + 1) (by omega) (by omega) (by omega)
      simpa using this
    · cases hc : x.eval σ with
      | true =>
        have G2 := (G u1 u2 (Nat.le_refl _) (Nat.le_refl _) (by omega)).2 hc
        refine ⟨u1 + u2 + 1, w1 + w2 - md, by omega, by omega, ?_, ?_, ?_⟩
        · intro k hk
          by_cases hk' : k < u1 + u2
          · have := G1 (k + 1) (by omega) (by omega) (by omega)
            simpa using this
          · rw [show k = u1 + u2 by omega]; exact G2.2
        · intro k hk
          have := F3 (md + k + 1) (by omega) (by omega)
          rwa [show md + k + 1 - md - 1 = k by omega] at this
        · rw [Nat.add_mul (u1 + u2)]; omega
      | false =>
        have hw : w1 + w2 < md := by
          by_contra hcon
          obtain ⟨c, hc', hc''⟩ := F2 (by omega)
          simp at hc'; subst hc'; rw [hc] at hc''; cases hc''
        refine ⟨u1 + u2, w1 + w2, by omega, by omega, ?_, ?_, by omega⟩
        · intro k hk
          have := G1 (k + 1) (by omega) (by omega) (by omega)
          simpa using this
        · intro k hk
          rcases F1 (k + 1) (by omega) (by omega) (by omega) with h | ⟨c, hc', hc''⟩
          · simpa using h
          · simp at hc'; subst hc'; rw [hc] at hc''; cases hc''

/-- Completeness of one node. -/
theorem adder_compl {md crhs n1 n2 N1 N2 : Nat} {U LU RU W LL RL : List Lit} {carry : Option Lit} {σ : Asg}
    (hmd : 2 ≤ md)
    (sU : MShape md ((n1 + n2) / md) (n1 + n2) U W) (s1 : MShape md (n1 / md) n1 LU LL) (s2 : MShape md (n2 / md) n2 RU RL)
    (hl1 : LL.length ≤ n1) (hl2 : RL.length ≤ n2) (hb1 : n1 ≤ n2 + 1) (hb2 : n2 ≤ n1 + 1)
    (hN1 : N1 ≤ n1) (hN2 : N2 ≤ n2) (hcar : carry = none ↔ (n1 + n2) / md = 0)
    (h1 : MEx md (n1 / md) LU LL N1 σ) (h2 : MEx md (n2 / md) RU RL N2 σ)
    (hU : MEx md ((n1 + n2) / md) U W (N1 + N2) σ)
    (hc : ∀ x, carry = some x → x.eval σ = decide (md ≤ N1 % md + N2 % md)) :
    (∀ c ∈ lowAll md W LL RL carry crhs, Clause.Sat σ c) ∧
    (∀ x, carry = some x → ∀ c ∈ finalAll md U LU RU x crhs, Clause.Sat σ c) := by
  have hmd0 : 0 < md := by omega
  have dm := divmod_add (md := md) (a := N1) (b := N2) hmd0
  have k1 := s1.lo'
  have k2 := s2.lo'
  have k3 := sU.lo
  constructor
  · intro c hcm
    simp only [lowAll, List.mem_flatMap, List.mem_range] at hcm
    obtain ⟨i, hi, j, hj, hcm⟩ := hcm
    have e1 : 1 ≤ i → (LL.nth (i - 1)).eval σ = true → i ≤ N1 % md := by
      intro h h'; rw [h1.2 _ (by omega)] at h'; simp at h'; omega
    have e2 : 1 ≤ j → (RL.nth (j - 1)).eval σ = true → j ≤ N2 % md := by
      intro h h'; rw [h2.2 _ (by omega)] at h'; simp at h'; omega
    have hca : md ≤ N1 % md + N2 % md → ∃ c ∈ carry, c.eval σ = true := by
      intro h
      cases hx : carry with
      | none =>
        have h0 := hcar.1 hx
        have := (dm.2 h).1
        have : (N1 + N2) / md ≤ (n1 + n2) / md := Nat.div_le_div_right (by omega)
        rw [h0] at this
        generalize (N1 + N2) / md = z at *
        generalize N1 / md = z1 at *
        generalize N2 / md = z2 at *
        omega
      | some x => exact ⟨x, rfl, by rw [hc x hx]; simpa using h⟩
    refine lowPair_sat ?_ ?_ ?_ c hcm
    · intro hL hR h1' h2'
      by_cases h : md ≤ N1 % md + N2 % md
      · exact Or.inr (hca h)
      · left
        rw [hU.2 _ (by omega), (dm.1 (by omega)).2]
        have : i ≤ N1 % md := by
          by_cases h0 : i = 0
          · omega
          · exact e1 (by omega) (hL h0)
        have : j ≤ N2 % md := by
          by_cases h0 : j = 0
          · omega
          · exact e2 (by omega) (hR h0)
        simp; omega
    · intro hL hR h'
      have := e1 (by omega) hL
      have := e2 (by omega) hR
      exact hca (by omega)
    · intro hL hR h'
      have := e1 (by omega) hL
      have := e2 (by omega) hR
      rw [Nat.mod_eq_sub_mod (by omega), Nat.mod_eq_of_lt (by omega)]
      rw [hU.2 _ (by omega), (dm.2 (by omega)).2]
      simp; omega
  · intro x hx c hcm
    simp only [finalAll, List.mem_flatMap, List.mem_range] at hcm
    obtain ⟨i, hi, j, hj, hcm⟩ := hcm
    refine finalPair_compl (Q := (N1 + N2) / md) (Q1 := N1 / md) (Q2 := N2 / md) (C := md ≤ N1 % md + N2 % md)
      sU s1 s2 ?_ (Nat.div_le_div_right (by omega)) ?_ ?_ ?_ (by omega) (by omega) h1.1 h2.1 hU.1 (hc x hx) c hcm
    · intro h; rw [hcar.2 h] at hx; cases hx
    · by_cases h : md ≤ N1 % md + N2 % md
      · rw [(dm.2 h).1]; exact Nat.le_succ _
      · rw [(dm.1 (by omega)).1]; exact Nat.le_refl _
    · intro h; rw [(dm.2 h).1]; exact Nat.le_refl _
    · intro h
      have : n1 + n2 < 2 * md := by
        rcases h with h | h
        · have := (Nat.div_eq_zero_iff_lt hmd0).1 h; omega
        · have := (Nat.div_eq_zero_iff_lt hmd0).1 h; omega
      have : (n1 + n2) / md < 2 := by rw [Nat.div_lt_iff_lt_mul hmd0]; exact this
      exact Nat.le_of_lt_succ this

theorem lowPanic_false {md crhs n1 n2 q q1 q2 : Nat} {U LU RU W LL RL : List Lit} {carry : Option Lit}
    (hmd : 2 ≤ md) (sU : MShape md q (n1 + n2) U W) (s1 : MShape md q1 n1 LU LL) (s2 : MShape md q2 n2 RU RL)
    (hl1 : LL.length ≤ n1) (hl2 : RL.length ≤ n2) (hcar : carry = none → n1 + n2 < md) :
    ((List.range (LL.length + 1)).any fun i => (List.range (RL.length + 1)).any fun j =>
      lowPanic md W carry crhs i j) = false := by
  rw [List.any_eq_false]
  intro i hi
  rw [List.mem_range] at hi
  rw [Bool.not_eq_true, List.any_eq_false]
  intro j hj
  rw [List.mem_range] at hj
  have k1 := s1.lo'
  have k2 := s2.lo'
  have k3 := sU.lo
  unfold lowPanic
  split
  · simp
  split
  · simp; omega
  split
  · have : (i + j) % md = i + j - md := by
      rw [Nat.mod_eq_sub_mod (by omega), Nat.mod_eq_of_lt (by omega)]
    rw [this]; simp only [decide_eq_true_eq]; omega
  · cases carry with
    | none => have := hcar rfl; omega
    | some x => simp; omega

theorem old_ne_h0 {s : ER} {l : Lit} (h : s.Old l.v) : l ≠ h0 := by
  rintro rfl; simp [h0, Old] at h

theorem present_old {s : ER} {x : Option Lit} {l : Lit} (h : ∀ y ∈ x, y ≠ h0 → s.Old y.v) (hl : l ∈ present x) : s.Old l.v := by
  cases x with
  | none => simp [present] at hl
  | some y =>
    simp [present, Option.filter] at hl
    exact hl.2 ▸ h y rfl hl.1

theorem lowAll_old {md crhs n1 n2 q q1 q2 : Nat} {U LU RU W LL RL : List Lit} {carry : Option Lit} {s : ER} (hmd : 2 ≤ md)
    (sU : MShape md q (n1 + n2) U W) (s1 : MShape md q1 n1 LU LL) (s2 : MShape md q2 n2 RU RL)
    (hl1 : LL.length ≤ n1) (hl2 : RL.length ≤ n2)
    (oW : ∀ l ∈ W, s.Old l.v) (oL : ∀ l ∈ LL, s.Old l.v) (oR : ∀ l ∈ RL, s.Old l.v)
    (oc : ∀ l ∈ carry, s.Old l.v) : ∀ c ∈ lowAll md W LL RL carry crhs, ∀ l ∈ c, s.Old l.v := by
  intro c hc l hl
  simp only [lowAll, List.mem_flatMap, List.mem_range] at hc
  obtain ⟨i, hi, j, hj, hc⟩ := hc
  have k1 := s1.lo'
  have k2 := s2.lo'
  have k3 := sU.lo
  have xW : ∀ k, k < W.length → s.Old (W.nth k).v := fun k hk => oW _ (getBang_mem hk)
  have xL : ∀ k, k < LL.length → s.Old (LL.nth k).v := fun k hk => oL _ (getBang_mem hk)
  have xR : ∀ k, k < RL.length → s.Old (RL.nth k).v := fun k hk => oR _ (getBang_mem hk)
  unfold lowPair at hc
  split at hc
  · simp at hc
  split at hc
  · split at hc
    · simp at hc; subst hc; simp at hl
      rcases hl with rfl | rfl | hl
      · exact xR _ (by omega)
      · exact xW _ (by omega)
      · exact oc l hl
    split at hc
    · simp at hc; subst hc; simp at hl
      rcases hl with rfl | rfl | hl
      · exact xL _ (by omega)
      · exact xW _ (by omega)
      · exact oc l hl
    split at hc
    · simp at hc; subst hc; simp at hl
      rcases hl with rfl | rfl | rfl | hl
      · exact xL _ (by omega)
      · exact xR _ (by omega)
      · exact xW _ (by omega)
      · exact oc l hl
    · simp at hc
  split at hc
  · have : (i + j) % md = i + j - md := by
      rw [Nat.mod_eq_sub_mod (by omega), Nat.mod_eq_of_lt (by omega)]
    rw [this] at hc
    simp at hc; subst hc; simp at hl
    rcases hl with rfl | rfl | rfl
    · exact xL _ (by omega)
    · exact xR _ (by omega)
    · exact xW _ (by omega)
  · simp at hc; subst hc; simp at hl
    rcases hl with rfl | rfl | hl
    · exact xL _ (by omega)
    · exact xR _ (by omega)
    · exact oc l hl

theorem finalAll_old {md crhs : Nat} {U LU RU : List Lit} {carry : Lit} {s : ER}
    (oU : ∀ l ∈ U, l ≠ h0 → s.Old l.v) (oL : ∀ l ∈ LU, l ≠ h0 → s.Old l.v) (oR : ∀ l ∈ RU, l ≠ h0 → s.Old l.v)
    (oc : s.Old carry.v) : ∀ c ∈ finalAll md U LU RU carry crhs, ∀ l ∈ c, s.Old l.v := by
  intro c hc l hl
  simp only [finalAll, List.mem_flatMap, List.mem_range] at hc
  obtain ⟨i, hi, j, hj, hc⟩ := hc
  unfold finalPair at hc
  simp only at hc
  generalize crhs / md + (if crhs % md = 0 then 0 else 1) = cm at hc
  split at hc
  · simp at hc
  have pa : ∀ l ∈ present (if i = 0 then none else some (LU.nth (i - 1))), s.Old l.v := fun l hl => present_old (by
    intro y hy hne; split at hy
    · simp at hy
    · simp at hy; subst hy; exact oL _ (getBang_mem (by omega)) hne) hl
  have pb : ∀ l ∈ present (if j = 0 then none else some (RU.nth (j - 1))), s.Old l.v := fun l hl => present_old (by
    intro y hy hne; split at hy
    · simp at hy
    · simp at hy; subst hy; exact oR _ (getBang_mem (by omega)) hne) hl
  have pc : ∀ l ∈ present (if i + j ≠ 0 ∧ i + j - 1 < U.length then some (U.nth (i + j - 1)) else none), s.Old l.v :=
    fun l hl => present_old (by
    intro y hy hne; split at hy
    · simp at hy; subst hy; exact oU _ (getBang_mem (by omega)) hne
    · simp at hy) hl
  have pd : ∀ l ∈ present (if i + j < U.length then some (U.nth (i + j)) else none), s.Old l.v :=
    fun l hl => present_old (by
    intro y hy hne; split at hy
    · simp at hy; subst hy; exact oU _ (getBang_mem (by omega)) hne
    · simp at hy) hl
  generalize present (if i = 0 then none else some (LU.nth (i - 1))) = a at *
  generalize present (if j = 0 then none else some (RU.nth (j - 1))) = b at *
  generalize present (if i + j ≠ 0 ∧ i + j - 1 < U.length then some (U.nth (i + j - 1)) else none) = c' at *
  generalize present (if i + j < U.length then some (U.nth (i + j)) else none) = d at *
  unfold finalClauses at hc
  rw [List.mem_append] at hc
  rcases hc with hc | hc
  · split at hc
    · simp at hc; subst hc; simp at hl
      rcases hl with ⟨y, hy, rfl⟩ | ⟨y, hy, rfl⟩ | hl
      · exact pa y hy
      · exact pb y hy
      · exact pc l hl
    · simp at hc
  · split at hc
    · simp at hc; subst hc; simp at hl
      rcases hl with rfl | ⟨y, hy, rfl⟩ | ⟨y, hy, rfl⟩ | hl
      · exact oc
      · exact pa y hy
      · exact pb y hy
      · exact pd l hl
    · simp at hc

theorem newLits_nth {k i : Nat} {s : ER} (h : i < k) : (newLits k s).1.nth i = ((s.newAuxs .cc k).1.nth i).p := by
  rw [getBang _ _ (by simpa [newLits] using h), getBang _ _ (by simpa using h)]; simp [newLits]

@[simp] theorem newLits_length (k : Nat) (s : ER) : (newLits k s).1.length = k := by simp [newLits]

theorem newLits_old {k : Nat} {s : ER} : ∀ l ∈ (newLits k s).1, (newLits k s).2.Old l.v := by
  intro l hl; simp [newLits] at hl; obtain ⟨v, hv, rfl⟩ := hl
  exact newAuxs_old (by decide) v hv

theorem newLits_le (k : Nat) (s : ER) : Le s (newLits k s).2 := newAuxs_le _ _ _
theorem newLits_wf {k : Nat} {s : ER} (h : Wf s) : Wf (newLits k s).2 := newAuxs_wf h
theorem newLits_sat {k : Nat} {s : ER} {σ} : Sat σ (newLits k s).2 ↔ Sat σ s := Iff.rfl

theorem newLits_ext (k : Nat) (s : ER) (b : Nat → Bool) (σ : Asg) :
    ∃ σ', Agree s σ σ' ∧ ∀ i, i < k → ((newLits k s).1.nth i).eval σ' = b i := by
  obtain ⟨σ', h, h'⟩ := newAuxs_ext! k s b σ
  refine ⟨σ', h, fun i hi => ?_⟩
  rw [newLits_nth hi]; simpa using h' i hi

theorem ER.Agree.mex {s : ER} {σ σ' : Asg} (ha : Agree s σ σ') {md q U W N} (oU : ∀ k, k < q → s.Old (U.nth k).v)
    (oW : ∀ l ∈ W, s.Old l.v) (h : MEx md q U W N σ) : MEx md q U W N σ' := by
  constructor
  · intro k hk; rw [← ha.lit (oU k hk)]; exact h.1 k hk
  · intro k hk; rw [← ha.lit (oW _ (getBang_mem hk))]; exact h.2 k hk

theorem modSide_spec {md k : Nat} {st : List Lit} {s : ER} (hmd : 2 ≤ md) (hst : k = 1 → 1 ≤ st.length) (hw : Wf s)
    (hv : ∀ l ∈ st, s.Old l.v) :
    ∃ u w st' s', modSide md k st s = some (u, w, st', s') ∧ MShape md (k / md) k (orH0 u) w ∧ w.length ≤ k ∧
      Le s s' ∧ (∀ σ, Sat σ s → Sat σ s') ∧ Wf s' ∧
      (∀ l ∈ orH0 u, l ≠ h0 → s'.Old l.v) ∧ (∀ l ∈ w, s'.Old l.v) ∧ (∀ i, i < k / md → s'.Old ((orH0 u).nth i).v) ∧
      ((k = 1 ∧ st = w ++ st' ∧ s' = s ∧ w.length = 1) ∨
       (k ≠ 1 ∧ st' = st ∧ ∀ (σ : Asg) (N : Nat), ∃ σ', Agree s σ σ' ∧ MEx md (k / md) (orH0 u) w N σ')) := by
  unfold modSide
  split
  · rename_i h1
    subst h1
    have h0' : 1 / md = 0 := Nat.div_eq_of_lt (by omega)
    cases st with
    | nil => have := hst rfl; simp at this
    | cons x st =>
      refine ⟨_, _, _, _, rfl, ⟨?_, ?_, ?_⟩, ?_, Le.refl _, fun _ h => h, hw, ?_, ?_, ?_, Or.inl ⟨rfl, rfl, rfl, rfl⟩⟩
      · rw [if_pos h0']; simp [orH0]
      · simp; omega
      · simp; omega
      · simp
      · intro l hl hne; simp [orH0] at hl; exact absurd hl hne
      · intro l hl; simp at hl; subst hl; exact hv _ (by simp)
      · intro i hi; omega
  · rename_i h1
    have hlim : (if k / md % md = 0 ∧ k < md - 1 then k else md - 1) = min k (md - 1) := by
      by_cases h : k < md - 1
      · have h0 : k / md = 0 := Nat.div_eq_of_lt (by omega)
        rw [h0]; simp [h]; omega
      · simp [h]; omega
    simp only [hlim]
    generalize hs1 : newLits (k / md) s = r1
    obtain ⟨u, s1⟩ := r1
    generalize hs2 : newLits (min k (md - 1)) s1 = r2
    obtain ⟨w, s2⟩ := r2
    have lu : u.length = k / md := by have := newLits_length (k / md) s; rw [hs1] at this; exact this
    have lw : w.length = min k (md - 1) := by have := newLits_length (min k (md - 1)) s1; rw [hs2] at this; exact this
    have le1 : Le s s1 := by have := newLits_le (k / md) s; rwa [hs1] at this
    have le2 : Le s1 s2 := by have := newLits_le (min k (md - 1)) s1; rwa [hs2] at this
    have w1 : Wf s1 := by have := newLits_wf (k := k / md) hw; rwa [hs1] at this
    have w2 : Wf s2 := by have := newLits_wf (k := min k (md - 1)) w1; rwa [hs2] at this
    have ou : ∀ l ∈ u, s1.Old l.v := by have := newLits_old (k := k / md) (s := s); rwa [hs1] at this
    have ow : ∀ l ∈ w, s2.Old l.v := by have := newLits_old (k := min k (md - 1)) (s := s1); rwa [hs2] at this
    have hou : k / md ≠ 0 → orH0 u = u := by
      intro h; unfold orH0; rw [if_neg]; intro he; simp at he; subst he; simp at lu; rw [← lu] at h; exact h rfl
    have e1 := newLits_ext (k / md) s
    rw [hs1] at e1
    have e2 := newLits_ext (min k (md - 1)) s1
    rw [hs2] at e2
    have oid : ∀ i, i < k / md → s1.Old ((orH0 u).nth i).v := by
      intro i hi
      rw [hou (Nat.ne_of_gt (Nat.lt_of_le_of_lt (Nat.zero_le _) hi))]
      exact ou _ (getBang_mem (lu ▸ hi))
    refine ⟨_, _, _, _, rfl, ⟨?_, ?_, ?_⟩, ?_, le1.trans le2, ?_, w2, ?_, ow, ?_, Or.inr ⟨h1, rfl, ?_⟩⟩
    · split
      · rename_i h; unfold orH0; rw [if_pos]; rw [h] at lu; simpa using lu
      · rename_i h; rw [hou h]; exact ⟨lu, fun l hl => old_ne_h0 (ou l hl)⟩
    · exact lw ▸ Nat.le_refl _
    · show w.length ≤ _; omega
    · show w.length ≤ _; omega
    · intro σ hs
      have h1 : Sat σ s1 := by have := newLits_sat (k := k / md) (s := s) (σ := σ); rw [hs1] at this; exact this.2 hs
      have := newLits_sat (k := min k (md - 1)) (s := s1) (σ := σ); rw [hs2] at this; exact this.2 h1
    · intro l hl hne
      unfold orH0 at hl
      split at hl
      · simp at hl; exact absurd hl hne
      · exact le2.old (ou l hl)
    · intro i hi; exact le2.old (oid i hi)
    · intro σ N
      obtain ⟨σ1, a1, b1⟩ := e1 (fun i => decide (i + 1 ≤ N / md)) σ
      obtain ⟨σ2, a2, b2⟩ := e2 (fun i => decide (i + 1 ≤ N % md)) σ1
      refine ⟨σ2, a1.trans le1 a2, ?_, ?_⟩
      · intro i hi
        rw [← a2.lit (oid i hi), hou (Nat.ne_of_gt (Nat.lt_of_le_of_lt (Nat.zero_le _) hi))]
        exact b1 i hi
      · intro i hi; exact b2 i (lw ▸ hi)

/-- One adder as a step. -/
theorem modAdder_spec {md crhs n1 n2 : Nat} {U LU RU W LL RL : List Lit} {s : ER}
    (hmd : 2 ≤ md) (hsk : md ≤ crhs + 1)
    (sU : MShape md ((n1 + n2) / md) (n1 + n2) U W) (s1 : MShape md (n1 / md) n1 LU LL) (s2 : MShape md (n2 / md) n2 RU RL)
    (hl1 : LL.length ≤ n1) (hl2 : RL.length ≤ n2) (hb1 : n1 ≤ n2 + 1) (hb2 : n2 ≤ n1 + 1) (hw : Wf s)
    (oU : ∀ l ∈ U, l ≠ h0 → s.Old l.v) (oL : ∀ l ∈ LU, l ≠ h0 → s.Old l.v) (oR : ∀ l ∈ RU, l ≠ h0 → s.Old l.v)
    (oW : ∀ l ∈ W, s.Old l.v) (oLL : ∀ l ∈ LL, s.Old l.v) (oRL : ∀ l ∈ RL, s.Old l.v)
    (oU' : ∀ i, i < (n1 + n2) / md → s.Old (U.nth i).v)
    (oL' : ∀ i, i < n1 / md → s.Old (LU.nth i).v) (oR' : ∀ i, i < n2 / md → s.Old (RU.nth i).v) :
    ∃ s', modAdder md U W LU LL RU RL crhs s = some s' ∧ Le s s' ∧ Wf s' ∧
      (∀ σ, Sat σ s' → ∀ i1 i2, MSnd md crhs (n1 / md) LU LL i1 σ → MSnd md crhs (n2 / md) RU RL i2 σ →
        MSnd md crhs ((n1 + n2) / md) U W (i1 ++ i2) σ) ∧
      (∀ σ, Sat σ s → ∀ N1 N2, N1 ≤ n1 → N2 ≤ n2 → MEx md (n1 / md) LU LL N1 σ → MEx md (n2 / md) RU RL N2 σ →
        MEx md ((n1 + n2) / md) U W (N1 + N2) σ → ∃ σ', Agree s σ σ' ∧ Sat σ' s') := by
  have hmd0 : 0 < md := by omega
  have hql : n1 / md + n2 / md ≤ (n1 + n2) / md := Nat.div_add_div_le_add_div ..
  unfold modAdder
  rw [if_neg (by
    have hul := sU.ulen; have := sU.lo; have k1 := s1.lo'; have k2 := s2.lo'
    intro h
    rcases h with h | h
    · have he : U = [] := by simpa using h
      rw [he] at hul; simp at hul; omega
    · omega)]
  by_cases hq : (n1 + n2) / md = 0
  · have hlt := (Nat.div_eq_zero_iff_lt hmd0).1 hq
    have hu : U.nth 0 = h0 := by have := sU.up; rw [if_pos hq] at this; subst this; rfl
    rw [if_pos hu, if_neg (by rw [lowPanic_false hmd sU s1 s2 hl1 hl2 (fun _ => hlt)]; simp)]
    refine ⟨_, rfl, addClauses_le _ _, addClauses_wf hw (lowAll_old hmd sU s1 s2 hl1 hl2 oW oLL oRL (by simp)), ?_, ?_⟩
    · intro σ hs i1 i2 h1 h2
      rw [addClauses_sat] at hs
      exact adder_sound hmd hsk sU s1 s2 hl1 hl2 hql (by simp [hq]) (fun _ => hlt) hs.2 (by simp) h1 h2
    · intro σ hs N1 N2 hN1 hN2 h1 h2 hU
      refine ⟨σ, Agree.refl _ _, addClauses_sat.2 ⟨hs, ?_⟩⟩
      exact (adder_compl hmd sU s1 s2 hl1 hl2 hb1 hb2 hN1 hN2 (by simp [hq]) h1 h2 hU (by simp)).1
  · have hu : U.nth 0 ≠ h0 := by
      have := sU.up; rw [if_neg hq] at this
      exact this.2 _ (getBang_mem (by rw [this.1]; exact Nat.pos_of_ne_zero hq))
    rw [if_neg hu]
    simp only
    have e1 := newLits_ext 1 s
    have o1 := newLits_old (k := 1) (s := s)
    have len1 := newLits_length 1 s
    have w1 := newLits_wf (k := 1) hw
    have le1 := newLits_le 1 s
    have sat1 := fun σ => newLits_sat (k := 1) (s := s) (σ := σ)
    generalize newLits 1 s = r at *
    obtain ⟨cs, t⟩ := r
    simp only at e1 o1 len1 w1 le1 sat1 ⊢
    have oc : t.Old (cs.nth 0).v := o1 _ (getBang_mem (by omega))
    rw [if_neg (by rw [lowPanic_false hmd sU s1 s2 hl1 hl2 (by simp)]; simp)]
    have lowO := lowAll_old (crhs := crhs) (s := t) (carry := some (cs.nth 0)) hmd sU s1 s2 hl1 hl2 (fun l h => le1.old (oW l h))
      (fun l h => le1.old (oLL l h)) (fun l h => le1.old (oRL l h)) (by simpa using oc)
    have finO := finalAll_old (md := md) (crhs := crhs) (s := t) (carry := cs.nth 0) (fun l h h' => le1.old (oU l h h'))
      (fun l h h' => le1.old (oL l h h')) (fun l h h' => le1.old (oR l h h')) oc
    have hcar : some (cs.nth 0) = none ↔ (n1 + n2) / md = 0 := by
      constructor
      · intro h; cases h
      · intro h; exact absurd h hq
    refine ⟨_, rfl, le1.trans ((addClauses_le _ _).trans (addClauses_le _ _)),
      addClauses_wf (addClauses_wf w1 lowO) (by intro c hc l hl; rw [addClauses_old]; exact finO c hc l hl), ?_, ?_⟩
    · intro σ hs i1 i2 h1 h2
      rw [addClauses_sat, addClauses_sat] at hs
      refine adder_sound hmd hsk sU s1 s2 hl1 hl2 hql hcar (fun h => absurd h hq) hs.1.2 ?_ h1 h2
      intro x hx; cases hx; exact hs.2
    · intro σ hs N1 N2 hN1 hN2 h1 h2 hU
      obtain ⟨σ1, a1, b1⟩ := e1 (fun _ => decide (md ≤ N1 % md + N2 % md)) σ
      have := adder_compl (crhs := crhs) hmd sU s1 s2 hl1 hl2 hb1 hb2 hN1 hN2 hcar (a1.mex oL' oLL h1) (a1.mex oR' oRL h2)
        (a1.mex oU' oW hU) (by intro x hx; cases hx; exact b1 0 (by omega))
      refine ⟨σ1, a1, addClauses_sat.2 ⟨addClauses_sat.2 ⟨(sat1 σ1).2 ((a1.sat hw).1 hs), this.1⟩, this.2 _ rfl⟩⟩

theorem leaf_mex {md : Nat} {w : List Lit} (hmd : 2 ≤ md) (hw : w.length = 1) (U : List Lit) (σ : Asg) :
    MEx md (1 / md) U w (cntL σ w) σ := by
  obtain ⟨x, rfl⟩ := List.length_eq_one_iff.1 hw
  have h0 : 1 / md = 0 := Nat.div_eq_of_lt (by omega)
  constructor
  · intro k hk; omega
  · intro k hk
    simp at hk; subst hk
    rw [cntL_singleton]
    cases hx : x.eval σ
    · simp [List.nth, hx]
    · simp [List.nth, hx, Nat.mod_eq_of_lt (show 1 < md by omega)]

theorem leaf_msnd {md crhs q : Nat} {w : List Lit} (hw : w.length = 1) (U : List Lit) (σ : Asg) :
    MSnd md crhs q U w w σ := by
  obtain ⟨x, rfl⟩ := List.length_eq_one_iff.1 hw
  refine ⟨0, cntL σ [x], by omega, cntL_le _ _, by omega, ?_, by omega⟩
  intro k hk
  rw [cntL_singleton] at hk
  split at hk
  · rename_i hx
    have hk0 : k = 0 := by omega
    subst hk0
    simpa [List.nth] using hx
  · omega

theorem modCnf_step {md crhs : Nat} (hmd : 2 ≤ md) (hsk : md ≤ crhs + 1) :
    ∀ (fuel : Nat) (U W : List Lit) (n : Nat) (st : List Lit) (s : ER),
    2 ≤ n → n ≤ fuel → n ≤ st.length → Wf s → MShape md (n / md) n U W →
    (∀ l ∈ U, l ≠ h0 → s.Old l.v) → (∀ i, i < n / md → s.Old (U.nth i).v) → (∀ l ∈ W, s.Old l.v) →
    (∀ l ∈ st, s.Old l.v) →
    ∃ ins st' s', modCnf md crhs fuel U W n st s = some (st', s') ∧ st = ins ++ st' ∧ ins.length = n ∧
      Step s s' (MSnd md crhs (n / md) U W ins) (fun σ => MEx md (n / md) U W (cntL σ ins) σ) := by
  intro fuel
  induction fuel with
  | zero => intro U W n st s h h'; omega
  | succ fuel ih =>
    intro U W n st s h2 hf hst hw sU oU oU' oW ost
    simp only [modCnf]
    rw [if_neg (by omega)]
    obtain ⟨lu, ll, st1, s1, e1, shL, lenL, le1, sat1, w1, oL, oLL, oL', cL⟩ :=
      modSide_spec (k := n / 2) (st := st) (s := s) hmd (by omega) hw ost
    rw [e1]; simp only [Option.bind_some]
    have ost1 : ∀ l ∈ st1, s1.Old l.v := by
      rcases cL with ⟨_, h, _⟩ | ⟨_, rfl, _⟩
      · intro v hv; exact le1.old (ost v (by rw [h]; simp [hv]))
      · intro v hv; exact le1.old (ost v hv)
    have hlen1 : n - n / 2 ≤ st1.length := by
      rcases cL with ⟨h1, h, _, h3⟩ | ⟨_, rfl, _⟩
      · rw [h] at hst; simp at hst; omega
      · omega
    obtain ⟨ru, rl, st2, s2, e2, shR, lenR, le2, sat2, w2, oR, oRL, oR', cR⟩ :=
      modSide_spec (k := n - n / 2) (st := st1) (s := s1) hmd (by omega) w1 ost1
    rw [e2]; simp only [Option.bind_some]
    have ost2 : ∀ l ∈ st2, s2.Old l.v := by
      rcases cR with ⟨_, h, _⟩ | ⟨_, rfl, _⟩
      · intro v hv; exact le2.old (ost1 v (by rw [h]; simp [hv]))
      · intro v hv; exact le2.old (ost1 v hv)
    have hle2 := le1.trans le2
    have hnn : n - n / 2 + n / 2 = n := by omega
    obtain ⟨s3, e3, le3, w3, snd3, cmp3⟩ := modAdder_spec (U := U) (W := W) (LU := orH0 ru) (LL := rl) (RU := orH0 lu) (RL := ll)
      (n1 := n - n / 2) (n2 := n / 2) (s := s2) hmd hsk (by rw [hnn]; exact sU) shR shL lenR lenL (by omega) (by omega) w2
      (fun l h h' => hle2.old (oU l h h')) oR (fun l h h' => le2.old (oL l h h'))
      (fun l h => hle2.old (oW l h)) oRL (fun l h => le2.old (oLL l h))
      (by rw [hnn]; exact fun i hi => hle2.old (oU' i hi)) oR' (fun i hi => le2.old (oL' i hi))
    rw [hnn] at snd3 cmp3
    rw [e3]; simp only [Option.bind_some]
    -- left subtree
    have EL : ∃ il st3 s5, (if n / 2 > 1 then modCnf md crhs fuel (orH0 lu) ll (n / 2) st2 s3 else some (st2, s3)) = some (st3, s5) ∧
        il.length = n / 2 ∧
        Step s3 s5 (MSnd md crhs (n / 2 / md) (orH0 lu) ll il) (fun σ => MEx md (n / 2 / md) (orH0 lu) ll (cntL σ il) σ) ∧
        ((n / 2 = 1 ∧ il = ll ∧ st3 = st2 ∧ ll.length = 1) ∨ (n / 2 ≠ 1 ∧ st2 = il ++ st3)) := by
      by_cases h1 : n / 2 > 1
      · rw [if_pos h1]
        have hlen2 : n / 2 ≤ st2.length := by
          rcases cL with ⟨h, _⟩ | ⟨_, rfl, _⟩
          · omega
          · rcases cR with ⟨h, _⟩ | ⟨_, rfl, _⟩ <;> omega
        obtain ⟨il, st3, s5, h, h', h'', E⟩ := ih (orH0 lu) ll (n / 2) st2 s3 (by omega) (by omega) hlen2 w3 shL
          (fun l h h' => le3.old (le2.old (oL l h h'))) (fun i hi => le3.old (le2.old (oL' i hi)))
          (fun l h => le3.old (le2.old (oLL l h))) (fun l h => le3.old (ost2 l h))
        exact ⟨il, st3, s5, h, h'', E, Or.inr ⟨by omega, h'⟩⟩
      · rw [if_neg h1]
        have h1' : n / 2 = 1 := by omega
        have hll : ll.length = 1 := by
          rcases cL with ⟨_, _, _, h⟩ | ⟨h, _⟩
          · exact h
          · exact absurd h1' h
        refine ⟨ll, st2, s3, rfl, by omega, ⟨Le.refl _, w3, ?_, ?_⟩, Or.inl ⟨h1', rfl, rfl, hll⟩⟩
        · intro σ _; exact leaf_msnd hll _ _
        · intro σ hs _; exact ⟨σ, Agree.refl _ _, hs⟩
    obtain ⟨il, st3, s5, e5, lil, E5, cL'⟩ := EL
    rw [e5]; simp only [Option.bind_some]
    have ost3 : ∀ l ∈ st3, s3.Old l.v := by
      rcases cL' with ⟨_, _, rfl, _⟩ | ⟨_, h⟩
      · intro v hv; exact le3.old (ost2 v hv)
      · intro v hv; exact le3.old (ost2 v (by rw [h]; simp [hv]))
    have ERr : ∃ ir st4 s6, (if n - n / 2 > 1 then modCnf md crhs fuel (orH0 ru) rl (n - n / 2) st3 s5 else some (st3, s5)) = some (st4, s6) ∧
        ir.length = n - n / 2 ∧
        Step s5 s6 (MSnd md crhs ((n - n / 2) / md) (orH0 ru) rl ir) (fun σ => MEx md ((n - n / 2) / md) (orH0 ru) rl (cntL σ ir) σ) ∧
        ((n - n / 2 = 1 ∧ ir = rl ∧ st4 = st3 ∧ rl.length = 1) ∨ (n - n / 2 ≠ 1 ∧ st3 = ir ++ st4)) := by
      by_cases h1 : n - n / 2 > 1
      · rw [if_pos h1]
        have hlen3 : n - n / 2 ≤ st3.length := by
          rcases cR with ⟨h, _⟩ | ⟨_, hh, _⟩
          · omega
          · subst hh
            rcases cL' with ⟨hq, _, rfl, _⟩ | ⟨hq, h⟩
            · omega
            · rcases cL with ⟨h', _⟩ | ⟨_, h', _⟩
              · omega
              · subst h'; rw [h] at hst; simp at hst; omega
        obtain ⟨ir, st4, s6, h, h', h'', E⟩ := ih (orH0 ru) rl (n - n / 2) st3 s5 (by omega) (by omega) hlen3 E5.wf shR
          (fun l h h' => E5.le.old (le3.old (oR l h h'))) (fun i hi => E5.le.old (le3.old (oR' i hi)))
          (fun l h => E5.le.old (le3.old (oRL l h))) (fun l h => E5.le.old (ost3 l h))
        exact ⟨ir, st4, s6, h, h'', E, Or.inr ⟨by omega, h'⟩⟩
      · rw [if_neg h1]
        have h1' : n - n / 2 = 1 := by omega
        have hll : rl.length = 1 := by
          rcases cR with ⟨_, _, _, h⟩ | ⟨h, _⟩
          · exact h
          · exact absurd h1' h
        refine ⟨rl, st3, s5, rfl, by omega, ⟨Le.refl _, E5.wf, ?_, ?_⟩, Or.inl ⟨h1', rfl, rfl, hll⟩⟩
        · intro σ _; exact leaf_msnd hll _ _
        · intro σ hs _; exact ⟨σ, Agree.refl _ _, hs⟩
    obtain ⟨ir, st4, s6, e6, lir, E6, cR'⟩ := ERr
    have hsplit : st = (il ++ ir) ++ st4 := by
      rcases cL with ⟨q1, h1, _⟩ | ⟨q1, h1, _⟩ <;> rcases cR with ⟨q2, h2, _⟩ | ⟨q2, h2, _⟩ <;>
        rcases cL' with ⟨q3, h3, h3', _⟩ | ⟨q3, h3⟩ <;> rcases cR' with ⟨q4, h4, h4', _⟩ | ⟨q4, h4⟩ <;>
        first | omega | (subst_vars; simp [*])
    have oil : ∀ l ∈ il, s.Old l.v := fun v hv => ost v (by rw [hsplit]; simp [hv])
    have oir : ∀ l ∈ ir, s.Old l.v := fun v hv => ost v (by rw [hsplit]; simp [hv])
    have hswap : ∀ σ, cntL σ (ir ++ il) = cntL σ (il ++ ir) := by
      intro σ; rw [cntL_append, cntL_append, Nat.add_comm]
    refine ⟨il ++ ir, st4, s6, e6, hsplit, by simp; omega, ⟨?_, E6.wf, ?_, ?_⟩⟩
    · exact hle2.trans (le3.trans (E5.le.trans E6.le))
    · intro σ hs
      have hs5 := E6.le.sat hs
      have hs3 := E5.le.sat hs5
      have := snd3 σ hs3 ir il (E6.sound σ hs) (E5.sound σ hs5)
      unfold MSnd at this ⊢
      rw [hswap] at this; exact this
    · intro σ hs hU
      have X1 : ∃ σ1, Agree s σ σ1 ∧ MEx md (n / 2 / md) (orH0 lu) ll (cntL σ1 il) σ1 := by
        rcases cL with ⟨q1, h1, _, h3⟩ | ⟨q1, h1, hx⟩
        · refine ⟨σ, Agree.refl _ _, ?_⟩
          rcases cL' with ⟨_, rfl, _⟩ | ⟨q, _⟩
          · rw [q1]; exact leaf_mex hmd h3 _ _
          · exact absurd q1 q
        · obtain ⟨σ1, ha, hb⟩ := hx σ (cntL σ il)
          refine ⟨σ1, ha, ?_⟩
          rw [← ha.cntL oil]; exact hb
      obtain ⟨σ1, ha1, x1⟩ := X1
      have X2 : ∃ σ2, Agree s1 σ1 σ2 ∧ MEx md ((n - n / 2) / md) (orH0 ru) rl (cntL σ2 ir) σ2 := by
        rcases cR with ⟨q1, h1, _, h3⟩ | ⟨q1, h1, hx⟩
        · refine ⟨σ1, Agree.refl _ _, ?_⟩
          rcases cR' with ⟨_, rfl, _⟩ | ⟨q, _⟩
          · rw [q1]; exact leaf_mex hmd h3 _ _
          · exact absurd q1 q
        · obtain ⟨σ2, ha, hb⟩ := hx σ1 (cntL σ1 ir)
          refine ⟨σ2, ha, ?_⟩
          rw [← ha.cntL (fun l h => le1.old (oir l h))]; exact hb
      obtain ⟨σ2, ha2, x2⟩ := X2
      have ha := ha1.trans le1 ha2
      have x1' : MEx md (n / 2 / md) (orH0 lu) ll (cntL σ2 il) σ2 := by
        rw [← ha2.cntL (fun l h => le1.old (oil l h))]
        exact ha2.mex oL' oLL x1
      have hU2 : MEx md (n / md) U W (cntL σ2 ir + cntL σ2 il) σ2 := by
        rw [← cntL_append, hswap, ← ha.cntL (by
          intro l hl; simp at hl; rcases hl with hl | hl; exact oil l hl; exact oir l hl)]
        exact ha.mex oU' oW hU
      obtain ⟨σ3, ha3, hs3⟩ := cmp3 σ2 (sat2 _ (sat1 _ ((ha.sat hw).1 hs))) (cntL σ2 ir) (cntL σ2 il)
        (lir ▸ cntL_le _ _) (lil ▸ cntL_le _ _) x2 x1' hU2
      have x3 : MEx md (n / 2 / md) (orH0 lu) ll (cntL σ3 il) σ3 := by
        rw [← ha3.cntL (fun l h => hle2.old (oil l h))]
        exact ha3.mex (fun i hi => le2.old (oL' i hi)) (fun l h => le2.old (oLL l h)) x1'
      have x3' : MEx md ((n - n / 2) / md) (orH0 ru) rl (cntL σ3 ir) σ3 := by
        rw [← ha3.cntL (fun l h => hle2.old (oir l h))]
        exact ha3.mex oR' oRL x2
      obtain ⟨σ5, ha5, hs5⟩ := E5.compl σ3 hs3 x3
      have x5' : MEx md ((n - n / 2) / md) (orH0 ru) rl (cntL σ5 ir) σ5 := by
        rw [← ha5.cntL (fun l h => le3.old (hle2.old (oir l h)))]
        exact ha5.mex (fun i hi => le3.old (oR' i hi)) (fun l h => le3.old (oRL l h)) x3'
      obtain ⟨σ6, ha6, hs6⟩ := E6.compl σ5 hs5 x5'
      refine ⟨σ6, ?_, hs6⟩
      exact ha.trans hle2 (ha3.trans le3 (ha5.trans E5.le ha6))

end Verif
