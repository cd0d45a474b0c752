import Verif.Enc.AmoLemmas2
namespace Verif
open ER

/-! ### Gray codes -/

theorem gray_div_two (i : Nat) : gray i / 2 = gray (i / 2) := by
  apply Nat.eq_of_testBit_eq; intro j
  simp only [gray, Nat.testBit_div_two, Nat.testBit_xor, Nat.testBit_shiftRight, Nat.add_assoc]

theorem gray_testBit_zero (i : Nat) : (gray i).testBit 0 = (i.testBit 0 ^^ (i / 2).testBit 0) := by
  simp only [gray, Nat.testBit_xor, Nat.testBit_shiftRight, Nat.testBit_div_two, Nat.add_comm]

theorem gray_inj : ∀ {i j : Nat}, gray i = gray j → i = j := by
  intro i
  induction i using Nat.strongRecOn with
  | ind i ih =>
    intro j h
    have h2 : gray (i / 2) = gray (j / 2) := by rw [← gray_div_two, ← gray_div_two, h]
    by_cases h0 : i = 0
    · subst h0
      by_cases hj : j = 0
      · exact hj.symm
      · -- gray j = 0 impossible
        exfalso
        have aux : ∀ j, 0 < j → gray j ≠ 0 := by
          intro j
          induction j using Nat.strongRecOn with
          | ind j ih =>
            intro hj hg
            by_cases h1 : j = 1
            · subst h1; revert hg; decide
            · refine ih (j / 2) (by omega) (by omega) ?_
              rw [← gray_div_two, hg]
        have hz : gray 0 = 0 := by decide
        exact aux j (by omega) (by rw [← h, hz])
    · have h3 := ih (i / 2) (by omega) h2
      have h4 : (gray i).testBit 0 = (gray j).testBit 0 := by rw [h]
      rw [gray_testBit_zero, gray_testBit_zero, h3] at h4
      have h5 : i.testBit 0 = j.testBit 0 := by
        revert h4; cases i.testBit 0 <;> cases j.testBit 0 <;> cases (j / 2).testBit 0 <;> simp
      simp only [Nat.testBit_zero, decide_eq_decide] at h5
      omega

theorem gray_lt {i m : Nat} (h : i < 2 ^ m) : gray i < 2 ^ m := by
  unfold gray
  refine Nat.xor_lt_two_pow h ?_
  rw [Nat.shiftRight_eq_div_pow]; omega

theorem testBit_ne_of_ne {a b m : Nat} (ha : a < 2 ^ m) (hb : b < 2 ^ m) (h : a ≠ b) :
    ∃ j, j < m ∧ a.testBit j ≠ b.testBit j := by
  refine Classical.byContradiction fun hc => h ?_
  apply Nat.eq_of_testBit_eq
  intro j
  by_cases hj : j < m
  · exact Classical.byContradiction fun hne => hc ⟨j, hj, hne⟩
  · have hp : 2 ^ m ≤ 2 ^ j := Nat.pow_le_pow_right (by omega) (by omega)
    rw [Nat.testBit_lt_two_pow (by omega), Nat.testBit_lt_two_pow (by omega)]

/-- The code assigned to group number `index`. -/
def codeOf (k index : Nat) : Nat := if 2 * index < k then gray (2 * index) else gray (index + k / 2)

theorem grayCons_code {nb k index j : Nat} {b : Bool} (h : (j, b) ∈ grayCons nb k index) :
    j < nb ∧ (codeOf k index).testBit j = b := by
  unfold grayCons at h; unfold codeOf
  split at h
  · rename_i hk
    rw [if_pos hk]
    simp only [List.mem_filterMap, List.mem_range] at h
    obtain ⟨j', hj, h⟩ := h
    split at h
    · simp at h; obtain ⟨rfl, rfl⟩ := h; exact ⟨hj, rfl⟩
    · simp at h
  · rename_i hk
    rw [if_neg hk]
    simp only [List.mem_map, List.mem_range] at h
    obtain ⟨j', hj, h⟩ := h
    simp at h; obtain ⟨rfl, rfl⟩ := h; exact ⟨hj, rfl⟩

theorem gray_pair (a j : Nat) (hj : 0 < j) : (gray (2 * a)).testBit j = (gray (2 * a + 1)).testBit j := by
  obtain ⟨j, rfl⟩ : ∃ i, j = i + 1 := ⟨j - 1, by omega⟩
  rw [← Nat.testBit_div_two, ← Nat.testBit_div_two, gray_div_two, gray_div_two]
  congr 2; omega

/-- Every bit above bit 0 is constrained. -/
theorem grayCons_mem_pos {nb k index j : Nat} (h0 : 0 < j) (hj : j < nb) :
    (j, (codeOf k index).testBit j) ∈ grayCons nb k index := by
  unfold grayCons codeOf
  split
  · simp only [List.mem_filterMap, List.mem_range]
    exact ⟨j, hj, by rw [if_pos (gray_pair index j h0)]⟩
  · simp only [List.mem_map, List.mem_range]; exact ⟨j, hj, rfl⟩

theorem grayCons_mem_snd {nb k index j : Nat} (hk : ¬ 2 * index < k) (hj : j < nb) :
    (j, (codeOf k index).testBit j) ∈ grayCons nb k index := by
  unfold grayCons codeOf
  rw [if_neg hk, if_neg hk]
  simp only [List.mem_map, List.mem_range]; exact ⟨j, hj, rfl⟩

theorem codeOf_half {k index : Nat} : codeOf k index / 2 = gray (if 2 * index < k then index else (index + k / 2) / 2) := by
  unfold codeOf
  split
  · rw [gray_div_two]; congr 1; omega
  · rw [gray_div_two]

/-- Two different groups get contradicting constraints on some bit. -/
theorem grayCons_conflict {nb n a b : Nat} (hn : n ≤ 2 ^ nb) (hn2 : 2 ^ nb ≤ 2 * n) (ha : a < b) (hb : b < n) :
    ∃ j v, (j, v) ∈ grayCons nb ((2 ^ nb - n) * 2) a ∧ (j, !v) ∈ grayCons nb ((2 ^ nb - n) * 2) b := by
  generalize hk : (2 ^ nb - n) * 2 = k
  have hnb : nb ≠ 0 := by rintro rfl; simp at hn; omega
  obtain ⟨m, rfl⟩ : ∃ m, nb = m + 1 := ⟨nb - 1, by omega⟩
  have hpow : 2 ^ (m + 1) = 2 * 2 ^ m := by rw [Nat.pow_succ]; omega
  by_cases h1 : 2 * a < k
  · -- upper bits already differ
    have hne : codeOf k a / 2 ≠ codeOf k b / 2 := by
      rw [codeOf_half, codeOf_half, if_pos h1]
      intro h
      have := gray_inj h
      split at this <;> omega
    have la : codeOf k a / 2 < 2 ^ m := by
      rw [codeOf_half, if_pos h1]; exact gray_lt (by omega)
    have lb : codeOf k b / 2 < 2 ^ m := by
      rw [codeOf_half]; split <;> exact gray_lt (by omega)
    obtain ⟨j, hj, hd⟩ := testBit_ne_of_ne la lb hne
    rw [Nat.testBit_div_two, Nat.testBit_div_two] at hd
    refine ⟨j + 1, (codeOf k a).testBit (j + 1), grayCons_mem_pos (by omega) (by omega), ?_⟩
    have := grayCons_mem_pos (nb := m + 1) (k := k) (index := b) (j := j + 1) (by omega) (by omega)
    have he : (codeOf k b).testBit (j + 1) = !(codeOf k a).testBit (j + 1) := by
      revert hd; cases (codeOf k b).testBit (j + 1) <;> cases (codeOf k a).testBit (j + 1) <;> simp
    rw [he] at this; exact this
  · have h2 : ¬ 2 * b < k := by omega
    have hne : codeOf k a ≠ codeOf k b := by
      unfold codeOf; rw [if_neg h1, if_neg h2]
      intro h; have := gray_inj h; omega
    have la : codeOf k a < 2 ^ (m + 1) := by
      unfold codeOf; rw [if_neg h1]; exact gray_lt (by omega)
    have lb : codeOf k b < 2 ^ (m + 1) := by
      unfold codeOf; rw [if_neg h2]; exact gray_lt (by omega)
    obtain ⟨j, hj, hd⟩ := testBit_ne_of_ne la lb hne
    refine ⟨j, (codeOf k a).testBit j, grayCons_mem_snd h1 hj, ?_⟩
    have := grayCons_mem_snd (k := k) h2 hj
    have he : (codeOf k b).testBit j = !(codeOf k a).testBit j := by
      revert hd; cases (codeOf k b).testBit j <;> cases (codeOf k a).testBit j <;> simp
    rw [he] at this; exact this

theorem grayClauses_sat {σ : Asg} {nb k : Nat} {bits : List Var} {groups : List (List Lit)} :
    (∀ c ∈ grayClauses nb k bits groups, Clause.Sat σ c) ↔
    ∀ a, a < groups.length → ∀ p ∈ groups.nth a, p.eval σ = true → ∀ j v, (j, v) ∈ grayCons nb k a → σ (bits.nth j) = v := by
  constructor
  · intro h a ha p hp ht j v hjv
    have := h [p.neg, ⟨bits.nth j, v⟩] (by
      simp only [grayClauses, List.mem_flatMap, List.mem_range, List.mem_map]
      exact ⟨a, ha, (j, v), hjv, p, hp, rfl⟩)
    simp only [Clause.sat_cons, Lit.eval_neg, ht, Clause.sat_nil, or_false] at this
    cases v <;> simpa using this
  · intro h c hc
    simp only [grayClauses, List.mem_flatMap, List.mem_range, List.mem_map] at hc
    obtain ⟨a, ha, ⟨j, v⟩, hjv, p, hp, rfl⟩ := hc
    simp only [Clause.sat_cons, Lit.eval_neg, Clause.sat_nil, or_false]
    cases ht : p.eval σ with
    | false => simp
    | true => right; have := h a ha p hp ht j v hjv; cases v <;> simpa using this

theorem cntL_flatten_le_one {σ : Asg} {groups : List (List Lit)} :
    cntL σ groups.flatten ≤ 1 ↔ (∀ g ∈ groups, cntL σ g ≤ 1) ∧
      ∀ a b, a < b → b < groups.length → ∀ p ∈ groups.nth a, ∀ q ∈ groups.nth b, ¬ (p.eval σ = true ∧ q.eval σ = true) := by
  unfold cntL
  rw [countP_le_one_iff, List.pairwise_flatten]
  refine and_congr (forall_congr' fun g => imp_congr Iff.rfl (countP_le_one_iff _ _).symm) ?_
  rw [List.pairwise_iff_getElem]
  constructor
  · intro h a b hab hb
    rw [getBang _ _ hb, getBang _ _ (Nat.lt_trans hab hb)]; exact h a b _ _ hab
  · intro h a b ha hb hab
    have := h a b hab hb
    rw [getBang _ _ hb, getBang _ _ ha] at this; exact this

/-- Bits plus clauses encode "at most one group has a true literal", given that each group
has at most one. -/
theorem gray_encodes {nb n : Nat} {groups : List (List Lit)} {s : ER} (hlen : groups.length = n)
    (hn : n ≤ 2 ^ nb) (hn2 : 2 ^ nb ≤ 2 * n) (hw : Wf s) (hv : ∀ g ∈ groups, ∀ l ∈ g, s.Old l.v)
    (hg : ∀ σ, Sat σ s → ∀ g ∈ groups, cntL σ g ≤ 1) :
    Encodes s ((s.newAuxs .cc nb).2.addClauses (grayClauses nb ((2 ^ nb - n) * 2) (s.newAuxs .cc nb).1 groups))
      (fun σ => cntL σ groups.flatten ≤ 1) := by
  have hvf : ∀ l ∈ groups.flatten, s.Old l.v := by
    intro l hl; obtain ⟨g, hg', hl⟩ := List.mem_flatten.1 hl; exact hv g hg' l hl
  refine newAuxs_addClauses_encodes nb (fun bits => grayClauses nb ((2 ^ nb - n) * 2) bits groups) _ hw ?_ ?_ ?_ ?_
  · intro c hc l hl
    simp only [grayClauses, List.mem_flatMap, List.mem_range, List.mem_map] at hc
    obtain ⟨a, ha, ⟨j, v⟩, hjv, p, hp, rfl⟩ := hc
    simp at hl
    rcases hl with rfl | rfl
    · exact old_newAuxs (hv _ (getBang_mem ha) p hp)
    · exact newAuxs_old! (grayCons_code hjv).1
  · intro σ σ' ha h; rw [← ha.cntL hvf]; exact h
  · intro σ hs h
    rw [grayClauses_sat] at h
    rw [cntL_flatten_le_one]
    refine ⟨hg σ hs, ?_⟩
    rintro a b hab hb p hp q hq ⟨tp, tq⟩
    obtain ⟨j, v, h1, h2⟩ := grayCons_conflict hn hn2 hab (hlen ▸ hb)
    have e1 := h a (by omega) p hp tp j v h1
    have e2 := h b hb q hq tq j _ h2
    rw [e1] at e2; cases v <;> simp at e2
  · intro σ hc
    rw [cntL_flatten_le_one] at hc
    -- the group with a true literal, if any
    by_cases hex : ∃ a, a < groups.length ∧ ∃ p ∈ groups.nth a, p.eval σ = true
    · obtain ⟨a, ha, p, hp, tp⟩ := hex
      refine ⟨fun j => (codeOf ((2 ^ nb - n) * 2) a).testBit j, ?_⟩
      intro σ' hag hb
      rw [grayClauses_sat]
      intro b hb' q hq tq j v hjv
      rw [← hag.lit (hv _ (getBang_mem hb') q hq)] at tq
      have : a = b := by
        rcases Nat.lt_trichotomy a b with h | h | h
        · exact (hc.2 a b h hb' p hp q hq ⟨tp, tq⟩).elim
        · exact h
        · exact (hc.2 b a h ha q hq p hp ⟨tq, tp⟩).elim
      subst this
      obtain ⟨hj, he⟩ := grayCons_code hjv
      rw [hb j hj]; exact he
    · refine ⟨fun _ => false, ?_⟩
      intro σ' hag hb
      rw [grayClauses_sat]
      intro b hb' q hq tq
      rw [← hag.lit (hv _ (getBang_mem hb') q hq)] at tq
      exact (hex ⟨b, hb', q, hq, tq⟩).elim

theorem clog2_spec {m : Nat} (hm : 1 ≤ m) : m ≤ 2 ^ clog2 m ∧ 2 ^ clog2 m ≤ 2 * m := by
  unfold clog2
  split
  · have : m = 1 := by omega
    subst this; simp
  · have h1 := Nat.lt_log2_self (n := m - 1)
    have h2 := Nat.log2_self_le (n := m - 1) (by omega)
    rw [Nat.pow_succ] at *
    omega

theorem amoBinary_encodes {vars : List Var} {s : ER} (hlen : 1 ≤ vars.length) (hw : Wf s)
    (hv : ∀ v ∈ vars, s.Old v) : Encodes s (amoBinary vars s) (fun σ => cntV σ vars ≤ 1) := by
  have E := gray_encodes (groups := vars.map fun v => [v.p]) (s := s) (n := vars.length) (nb := clog2 vars.length)
    (by simp) (clog2_spec hlen).1 (clog2_spec hlen).2 hw (by
      intro g hg l hl
      simp only [List.mem_map] at hg
      obtain ⟨v, hv', rfl⟩ := hg
      simp at hl; subst hl; exact hv v hv') (by
      intro σ _ g hg
      simp only [List.mem_map] at hg
      obtain ⟨v, hv', rfl⟩ := hg
      rw [cntL_singleton]; split <;> omega)
  refine E.congr (fun σ => ?_)
  have : (vars.map fun v => [v.p]).flatten = vars.map Var.p := by
    clear E hv hlen; induction vars with
    | nil => rfl
    | cons v vs ih => simp only [List.map_cons, List.flatten_cons, ih]; rfl
  rw [this, cntL_map_p]

theorem splitGroups_length : ∀ (m : Nat) (l : List Lit), (splitGroups m l).length = m := by
  intro m
  induction m with
  | zero => intro l; rfl
  | succ m ih => intro l; simp [splitGroups, ih]

theorem splitGroups_flatten : ∀ (m : Nat) (l : List Lit), 1 ≤ m → (splitGroups m l).flatten = l := by
  intro m
  induction m with
  | zero => intro l h; omega
  | succ m ih =>
    intro l _
    simp only [splitGroups, List.flatten_cons]
    by_cases hm : 1 ≤ m
    · rw [ih _ hm, List.take_append_drop]
    · have : m = 0 := by omega
      subst this
      simp [splitGroups, ceilDiv]

theorem flatMap_pairNeg_sat {σ : Asg} {groups : List (List Lit)} :
    (∀ c ∈ groups.flatMap pairNeg, Clause.Sat σ c) ↔ ∀ g ∈ groups, cntL σ g ≤ 1 := by
  simp only [List.mem_flatMap, forall_exists_index, and_imp]
  constructor
  · intro h g hg; rw [← pairNeg_sat]; intro c hc; exact h c g hg hc
  · intro h c g hg hc; exact (pairNeg_sat σ g).2 (h g hg) c hc

theorem amoBimander_encodes {m : Nat} {vars : List Var} {s : ER} (hm : 1 ≤ m) (hw : Wf s)
    (hv : ∀ v ∈ vars, s.Old v) : Encodes s (amoBimander m vars s) (fun σ => cntV σ vars ≤ 1) := by
  have hfl := splitGroups_flatten m (vars.map Var.p) hm
  have hle := splitGroups_length m (vars.map Var.p)
  unfold amoBimander
  simp only
  generalize splitGroups m (vars.map Var.p) = groups at hfl hle
  have hvg : ∀ g ∈ groups, ∀ l ∈ g, s.Old l.v := by
    intro g hg l hl; refine map_p_old hv l ?_; rw [← hfl]; exact List.mem_flatten.2 ⟨g, hg, hl⟩
  have E1 : Encodes s (s.addClauses (groups.flatMap pairNeg)) _ := addClauses_encodes hw (by
    intro c hc l hl
    simp only [List.mem_flatMap] at hc
    obtain ⟨g, hg, hc⟩ := hc
    exact pairNeg_vars (hvg g hg) c hc l hl)
  have E2 := gray_encodes (s := s.addClauses (groups.flatMap pairNeg)) hle (clog2_spec hm).1 (clog2_spec hm).2 E1.wf
    (fun g hg l hl => by rw [addClauses_old]; exact hvg g hg l hl)
    (fun σ hs => flatMap_pairNeg_sat.1 (addClauses_sat.1 hs).2)
  refine (E1.trans E2 ?_).congr ?_
  · intro σ σ' ha h
    rw [hfl] at h ⊢; rw [← ha.cntL (map_p_old hv)]; exact h
  · intro σ
    rw [flatMap_pairNeg_sat, hfl, cntL_map_p]
    constructor
    · exact fun h => h.2
    · intro h
      refine ⟨?_, h⟩
      rw [← cntL_map_p, ← hfl, cntL_flatten_le_one] at h
      exact h.1

end Verif
