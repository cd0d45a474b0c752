import Verif.Enc.Sorter
/- `cc_merge` is correct. -/
namespace Verif
open ER

/-- What `cc_merge` achieves. -/
structure MergeOK (m : Nat) (a b : List Lit) (d : Dir) (s : ER) (out : List Lit) (s' : ER) : Prop where
  len : out.length = min m (a.length + b.length)
  le : Le s s'
  wf : Wf s'
  old : ∀ l ∈ out, s'.Old l.v
  nodup : out.Nodup
  mem : ∀ l ∈ out, l ∈ a ∨ l ∈ b ∨ ¬ s.Old l.v
  up : d ≠ .o2i → ∀ σ, Sat σ s' → ∀ A B, A ≤ a.length → B ≤ b.length → Up σ a A → Up σ b B → Up σ out (A + B)
  dn : d ≠ .i2o → ∀ σ, Sat σ s' → ∀ A B, Dn σ a A → Dn σ b B → Dn σ out (A + B)
  compl : ∀ σ, Sat σ s → ∀ A B, A ≤ a.length → B ≤ b.length → Ex σ a A → Ex σ b B →
    ∃ σ', Agree s σ σ' ∧ Sat σ' s' ∧ Ex σ' out (A + B)

theorem oddsOf_length (k l) : (oddsOf k l).length = (k + 1) / 2 := by simp [oddsOf]
theorem evensOf_length (k l) : (evensOf k l).length = k / 2 := by simp [evensOf]
theorem oddsOf_nth {k l i} (h : i < (k + 1) / 2) : (oddsOf k l).nth i = l.nth (2 * i) := by
  rw [getBang _ _ (by rw [oddsOf_length]; exact h)]; simp [oddsOf]
theorem evensOf_nth {k l i} (h : i < k / 2) : (evensOf k l).nth i = l.nth (2 * i + 1) := by
  rw [getBang _ _ (by rw [evensOf_length]; exact h)]; simp [evensOf]

theorem mem_oddsOf {k l x} (hk : k ≤ l.length) (h : x ∈ oddsOf k l) : ∃ i, i < l.length ∧ i % 2 = 0 ∧ x = l.nth i := by
  simp [oddsOf] at h; obtain ⟨i, hi, rfl⟩ := h; exact ⟨2 * i, by omega, by omega, rfl⟩
theorem mem_evensOf {k l x} (hk : k ≤ l.length) (h : x ∈ evensOf k l) : ∃ i, i < l.length ∧ i % 2 = 1 ∧ x = l.nth i := by
  simp [evensOf] at h; obtain ⟨i, hi, rfl⟩ := h; exact ⟨2 * i + 1, by omega, by omega, rfl⟩

theorem oddsOf_nodup {k} {l : List Lit} (hk : k ≤ l.length) (h : l.Nodup) : (oddsOf k l).Nodup := by
  unfold oddsOf
  simp only [List.Nodup, List.pairwise_map]
  rw [List.pairwise_iff_getElem]
  intro i j hi hj hij
  simp at hi hj
  simp only [List.getElem_range]
  exact nth_ne_of_nodup h (by omega) (by omega) (by omega)
theorem evensOf_nodup {k} {l : List Lit} (hk : k ≤ l.length) (h : l.Nodup) : (evensOf k l).Nodup := by
  unfold evensOf
  simp only [List.Nodup, List.pairwise_map]
  rw [List.pairwise_iff_getElem]
  intro i j hi hj hij
  simp at hi hj
  simp only [List.getElem_range]
  exact nth_ne_of_nodup h (by omega) (by omega) (by omega)

theorem odds_up {σ k l A} (hk : k ≤ l.length) (h : Up σ l A) : Up σ (oddsOf k l) ((A + 1) / 2) := by
  intro i hi hi'; rw [oddsOf_length] at hi; rw [oddsOf_nth hi]; exact h _ (by omega) (by omega)
theorem evens_up {σ k l A} (hk : k ≤ l.length) (h : Up σ l A) : Up σ (evensOf k l) (A / 2) := by
  intro i hi hi'; rw [evensOf_length] at hi; rw [evensOf_nth hi]; exact h _ (by omega) (by omega)
theorem odds_dn {σ k l A} (hk : k ≤ l.length) (h : Dn σ l A) : Dn σ (oddsOf k l) ((A + 1) / 2) := by
  intro i hi hi'; rw [oddsOf_length] at hi; rw [oddsOf_nth hi] at hi'; have := h _ (by omega) hi'; omega
theorem evens_dn {σ k l A} (hk : k ≤ l.length) (h : Dn σ l A) : Dn σ (evensOf k l) (A / 2) := by
  intro i hi hi'; rw [evensOf_length] at hi; rw [evensOf_nth hi] at hi'; have := h _ (by omega) hi'; omega

theorem Up.mono {σ l A A'} (h : Up σ l A) (hA : A' ≤ A) : Up σ l A' := fun k k1 k2 => h k k1 (by omega)

/-- `direct_merger` is correct. -/
theorem directMerger_ok {m : Nat} {a b : List Lit} {s : ER} (hw : Wf s) (oa : ∀ l ∈ a, s.Old l.v) (ob : ∀ l ∈ b, s.Old l.v) (hm : m ≤ a.length + b.length) :
    MergeOK m a b .i2o s (directMerger m a b s).1 (directMerger m a b s).2 := by
  obtain ⟨out, s1, e⟩ : ∃ out s1, newLits m s = (out, s1) := ⟨_, _, rfl⟩
  have hlen : out.length = m := by have := newLits_length m s; rw [e] at this; exact this
  have le1 : Le s s1 := by have := newLits_le m s; rw [e] at this; exact this
  have sat1 : ∀ {σ}, Sat σ s1 ↔ Sat σ s := by intro σ; have := newLits_sat (k := m) (s := s) (σ := σ); rw [e] at this; exact this
  have w1 : Wf s1 := by have := newLits_wf (k := m) hw; rw [e] at this; exact this
  have oo : ∀ l ∈ out, s1.Old l.v := by have := newLits_old (k := m) (s := s); rw [e] at this; exact this
  have no : ∀ l ∈ out, ¬ s.Old l.v := by have := newLits_not_old (k := m) (s := s); rw [e] at this; exact this
  have nd : out.Nodup := by have := newLits_nodup (k := m) (s := s); rw [e] at this; exact this
  have ext := newLits_ext m s
  rw [e] at ext
  unfold directMerger
  rw [e]
  simp only
  generalize hcs : ((List.range (min m a.length)).map (fun i => [(a.nth i).neg, out.nth i]) ++
    (List.range (min m b.length)).map (fun i => [(b.nth i).neg, out.nth i]) ++
    (List.range a.length).flatMap (fun i => (List.range b.length).flatMap fun j =>
      if i + j + 1 < m then [[(a.nth i).neg, (b.nth j).neg, out.nth (i + j + 1)]] else [])) = cs
  have hcsm : ∀ c, c ∈ cs ↔ (∃ i, i < m ∧ i < a.length ∧ c = [(a.nth i).neg, out.nth i]) ∨
      (∃ i, i < m ∧ i < b.length ∧ c = [(b.nth i).neg, out.nth i]) ∨
      (∃ i j, i < a.length ∧ j < b.length ∧ i + j + 1 < m ∧ c = [(a.nth i).neg, (b.nth j).neg, out.nth (i + j + 1)]) := by
    intro c; subst hcs
    simp only [List.mem_append, List.mem_map, List.mem_range, List.mem_flatMap]
    constructor
    · rintro ((⟨i, hi, rfl⟩ | ⟨i, hi, rfl⟩) | ⟨i, hi, j, hj, hc⟩)
      · exact Or.inl ⟨i, by omega, by omega, rfl⟩
      · exact Or.inr (Or.inl ⟨i, by omega, by omega, rfl⟩)
      · split at hc
        · simp at hc; exact Or.inr (Or.inr ⟨i, j, hi, hj, by assumption, hc⟩)
        · simp at hc
    · rintro (⟨i, hi, hi', rfl⟩ | ⟨i, hi, hi', rfl⟩ | ⟨i, j, hi, hj, hij, rfl⟩)
      · exact Or.inl (Or.inl ⟨i, by omega, rfl⟩)
      · exact Or.inl (Or.inr ⟨i, by omega, rfl⟩)
      · exact Or.inr ⟨i, hi, j, hj, by rw [if_pos hij]; simp⟩
  refine ⟨by omega, le1.trans (addClauses_le _ _), addClauses_wf w1 ?_, fun l hl => by rw [addClauses_old]; exact oo l hl,
    nd, fun l hl => Or.inr (Or.inr (no l hl)), ?_, fun h => absurd rfl h, ?_⟩
  · intro c hc l hl
    rcases (hcsm c).1 hc with ⟨i, h1, h2, rfl⟩ | ⟨i, h1, h2, rfl⟩ | ⟨i, j, h1, h2, h3, rfl⟩
    · simp at hl; rcases hl with rfl | rfl
      · rw [Lit.neg_v]; exact le1.old (oa _ (getBang_mem h2))
      · exact oo _ (getBang_mem (by omega))
    · simp at hl; rcases hl with rfl | rfl
      · rw [Lit.neg_v]; exact le1.old (ob _ (getBang_mem h2))
      · exact oo _ (getBang_mem (by omega))
    · simp at hl; rcases hl with rfl | rfl | rfl
      · rw [Lit.neg_v]; exact le1.old (oa _ (getBang_mem h1))
      · rw [Lit.neg_v]; exact le1.old (ob _ (getBang_mem h2))
      · exact oo _ (getBang_mem (by omega))
  · intro _ σ hs A B hA hB uA uB k k1 k2
    have hc := (addClauses_sat.1 hs).2
    by_cases h1 : k < A
    · have := hc _ ((hcsm _).2 (Or.inl ⟨k, by omega, by omega, rfl⟩))
      have ha := uA k (by omega) h1
      simpa [Clause.Sat, ha] using this
    · by_cases h2 : k < B
      · have := hc _ ((hcsm _).2 (Or.inr (Or.inl ⟨k, by omega, by omega, rfl⟩)))
        have ha := uB k (by omega) h2
        simpa [Clause.Sat, ha] using this
      · have := hc _ ((hcsm _).2 (Or.inr (Or.inr ⟨A - 1, k - A, by omega, by omega, by omega, rfl⟩)))
        have ha := uA (A - 1) (by omega) (by omega)
        have hb := uB (k - A) (by omega) (by omega)
        rw [show A - 1 + (k - A) + 1 = k by omega] at this
        simpa [Clause.Sat, ha, hb] using this
  · intro σ hs A B hA hB xA xB
    obtain ⟨σ', ha, hb⟩ := ext (fun k => decide (k < A + B)) σ
    refine ⟨σ', ha, addClauses_sat.2 ⟨sat1.2 ((ha.sat hw).1 hs), ?_⟩, fun k hk => hb k (by omega)⟩
    intro c hc
    have yA := ha.ex oa xA
    have yB := ha.ex ob xB
    rcases (hcsm c).1 hc with ⟨i, h1, h2, rfl⟩ | ⟨i, h1, h2, rfl⟩ | ⟨i, j, h1, h2, h3, rfl⟩
    · have e1 := yA i h2
      have e2 := hb i h1
      simp only at e2
      simp [Clause.Sat, e1, e2]; omega
    · have e1 := yB i h2
      have e2 := hb i h1
      simp only at e2
      simp [Clause.Sat, e1, e2]; omega
    · have e1 := yA i h1
      have e2 := yB j h2
      have e3 := hb _ h3
      simp only at e3
      simp [Clause.Sat, e1, e2, e3]; omega

theorem Ex.up {σ l A} (h : Ex σ l A) : Up σ l A := fun k k1 k2 => by rw [h k k1]; simpa using k2
theorem Ex.dn {σ l A} (h : Ex σ l A) : Dn σ l A := fun k k1 k2 => by rw [h k k1] at k2; simpa using k2
theorem odds_ex {σ k l A} (hk : k ≤ l.length) (h : Ex σ l A) : Ex σ (oddsOf k l) ((A + 1) / 2) := by
  intro i hi; rw [oddsOf_length] at hi; rw [oddsOf_nth hi, h _ (by omega), decide_eq_decide]; omega
theorem evens_ex {σ k l A} (hk : k ≤ l.length) (h : Ex σ l A) : Ex σ (evensOf k l) (A / 2) := by
  intro i hi; rw [evensOf_length] at hi; rw [evensOf_nth hi, h _ (by omega), decide_eq_decide]; omega
/-- The list only shows the number up to its length. -/
theorem Ex.cap {σ l A} (h : Ex σ l A) : ∀ {k}, l.length ≤ k → Ex σ l (min A k) := by
  intro k hk i hi; rw [h i hi, decide_eq_decide]; omega
theorem take_ex {σ k l A} (h : Ex σ l A) : Ex σ (l.take k) A := by
  intro i hi
  have h' : i < k ∧ i < l.length := by rw [List.length_take] at hi; omega
  rw [getBang _ _ hi, List.getElem_take, ← getBang _ _ h'.2]
  exact h i h'.2

theorem ccMerge_spec : ∀ (fuel m : Nat) (a b : List Lit) (d : Dir) (s : ER), a.length + b.length < fuel → Wf s →
    (∀ l ∈ a, s.Old l.v) → (∀ l ∈ b, s.Old l.v) → a.Nodup → b.Nodup → (∀ x ∈ a, x ∉ b) →
    (a = [] → b.length ≤ m) → (b = [] → a.length ≤ m) →
    ∃ out s', ccMerge fuel m a b d s = some (out, s') ∧ MergeOK m a b d s out s' := by
  intro fuel
  induction fuel with
  | zero => intros; omega
  | succ fuel ih =>
    intro m a b d s hf hw oa ob na nb disj ha0 hb0
    simp only [ccMerge]
    by_cases hm : m = 0
    · rw [if_pos hm]
      refine ⟨_, _, rfl, ⟨by simp [hm], Le.refl _, hw, by simp, by simp, by simp, ?_, ?_, ?_⟩⟩
      · intro _ σ _ A B _ _ _ _ k hk; simp at hk
      · intro _ σ _ A B _ _ k hk; simp at hk
      · intro σ hs A B _ _ _ _; exact ⟨σ, Agree.refl _ _, hs, fun k hk => by simp at hk⟩
    rw [if_neg hm]
    by_cases hae : a = []
    · subst hae
      rw [if_pos (by simp)]
      refine ⟨_, _, rfl, ⟨by have := ha0 rfl; simp; omega, Le.refl _, hw, ob, nb, fun l hl => Or.inr (Or.inl hl), ?_, ?_, ?_⟩⟩
      · intro _ σ _ A B hA _ _ uB k k1 k2; simp at hA; exact uB k k1 (by omega)
      · intro _ σ _ A B _ dB k k1 k2; have := dB k k1 k2; omega
      · intro σ hs A B hA _ _ xB; simp at hA; subst hA; exact ⟨σ, Agree.refl _ _, hs, by simpa using xB⟩
    rw [if_neg (by simpa using hae)]
    by_cases hbe : b = []
    · subst hbe
      rw [if_pos (by simp)]
      refine ⟨_, _, rfl, ⟨by have := hb0 rfl; simp; omega, Le.refl _, hw, oa, na, fun l hl => Or.inl hl, ?_, ?_, ?_⟩⟩
      · intro _ σ _ A B hA hB uA _ k k1 k2; simp at hB; exact uA k k1 (by omega)
      · intro _ σ _ A B dA _ k k1 k2; have := dA k k1 k2; omega
      · intro σ hs A B hA hB xA _; simp at hB; subst hB; exact ⟨σ, Agree.refl _ _, hs, by simpa using xA⟩
    rw [if_neg (by simpa using hbe)]
    have la : 0 < a.length := List.length_pos_iff.2 hae
    have lb : 0 < b.length := List.length_pos_iff.2 hbe
    obtain ⟨c, hc⟩ : ∃ c, c = min m (a.length + b.length) := ⟨_, rfl⟩
    rw [← hc]
    have hc1 : 1 ≤ c := by omega
    by_cases hd : d = .i2o
    · subst hd
      simp only [if_true]
      have h := directMerger_ok (m := c) hw oa ob (by omega)
      exact ⟨_, _, rfl, ⟨h.len.trans (by omega), h.le, h.wf, h.old, h.nodup, h.mem, h.up, h.dn, h.compl⟩⟩
    rw [if_neg hd]
    obtain ⟨a2, ha2⟩ : ∃ a2, a2 = min c a.length := ⟨_, rfl⟩
    obtain ⟨b2, hb2⟩ : ∃ b2, b2 = min c b.length := ⟨_, rfl⟩
    rw [← ha2, ← hb2]
    have h00 : a.nth 0 ≠ b.nth 0 := fun h => disj _ (getBang_mem la) (h ▸ getBang_mem lb)
    have oa0 := oa _ (getBang_mem la)
    have ob0 := ob _ (getBang_mem lb)
    by_cases hc' : c = 1
    · rw [if_pos hc']
      obtain ⟨z0, s1, e1, le1, sat1, w1, oz0, nz0, ext⟩ := newLits_one s
      rw [e1]
      simp only [show ([z0] : List Lit).nth 0 = z0 from rfl]
      obtain ⟨cs, ecs, vcs, scs⟩ := comp1_spec (y := z0) (d := d) h00
      rw [ecs]; simp only [Option.bind_some]
      rw [if_pos (by simp; omega)]
      have w2 : Wf (s1.addClauses cs) := addClauses_wf (w1 hw) (by
        intro c hc l hl
        rcases vcs c hc l hl with h | h | h <;> rw [h]
        · exact le1.old oa0
        · exact le1.old ob0
        · exact oz0)
      refine ⟨_, _, rfl, ⟨by simp; omega, le1.trans (addClauses_le _ _), w2, by simpa [addClauses_old] using oz0, by simp,
        by simpa using Or.inr (Or.inr nz0), ?_, ?_, ?_⟩⟩
      · intro hd' σ hs A B hA hB uA uB k k1 k2
        have := ((scs σ).1 (addClauses_sat.1 hs).2).1 hd'
        simp at k1; subst k1
        apply this
        by_cases h : 0 < A
        · exact Or.inl (uA 0 la h)
        · exact Or.inr (uB 0 lb (by omega))
      · intro hd' σ hs A B dA dB k k1 k2
        have := ((scs σ).1 (addClauses_sat.1 hs).2).2 hd'
        simp at k1; subst k1
        rcases this k2 with h | h
        · have := dA 0 la h; omega
        · have := dB 0 lb h; omega
      · intro σ hs A B hA hB xA xB
        obtain ⟨σ', ha, b0⟩ := ext σ (decide (0 < A + B))
        refine ⟨σ', ha, addClauses_sat.2 ⟨(sat1 _).2 ((ha.sat hw).1 hs), (scs σ').2 ?_⟩, ?_⟩
        · rw [ha.ex oa xA 0 la, ha.ex ob xB 0 lb, b0]
          simp only [decide_eq_true_eq]
          refine ⟨fun _ => ?_, fun _ => ?_⟩ <;> omega
        · intro k k1; simp at k1; subst k1; exact b0
    rw [if_neg hc']
    by_cases hab : a2 = 1 ∧ b2 = 1
    · rw [if_pos hab, if_neg (by omega)]
      obtain ⟨z0, z1, s1, e1, le1, sat1, w1, oz0, oz1, nz0, nz1, zne, ext⟩ := newLits_two s
      rw [e1]
      simp only [show ([z0, z1] : List Lit).nth 0 = z0 from rfl, show ([z0, z1] : List Lit).nth 1 = z1 from rfl]
      obtain ⟨cs, ecs, vcs, scs⟩ := comp2_spec (d := d) h00 zne
      rw [ecs]; simp only [Option.bind_some]
      rw [if_pos (by simp; omega)]
      have w2 : Wf (s1.addClauses cs) := addClauses_wf (w1 hw) (by
        intro c hc l hl
        rcases vcs c hc l hl with h | h | h | h <;> rw [h]
        · exact le1.old oa0
        · exact le1.old ob0
        · exact oz0
        · exact oz1)
      have la1 : a.length = 1 := by omega
      have lb1 : b.length = 1 := by omega
      refine ⟨_, _, rfl, ⟨by simp; omega, le1.trans (addClauses_le _ _), w2, by simpa [addClauses_old] using ⟨oz0, oz1⟩,
        by simpa using zne, ?_, ?_, ?_, ?_⟩⟩
      · intro l hl; simp at hl
        rcases hl with rfl | rfl
        · exact Or.inr (Or.inr nz0)
        · exact Or.inr (Or.inr nz1)
      · intro hd' σ hs A B hA hB uA uB k k1 k2
        have := ((scs σ).1 (addClauses_sat.1 hs).2).1 hd'
        have hk : k = 0 ∨ k = 1 := by simp at k1; omega
        rcases hk with rfl | rfl
        · apply this.1
          by_cases h : 0 < A
          · exact Or.inl (uA 0 la h)
          · exact Or.inr (uB 0 lb (by omega))
        · exact this.2 (uA 0 la (by omega)) (uB 0 lb (by omega))
      · intro hd' σ hs A B dA dB k k1 k2
        have := ((scs σ).1 (addClauses_sat.1 hs).2).2 hd'
        have hk : k = 0 ∨ k = 1 := by simp at k1; omega
        rcases hk with rfl | rfl
        · rcases this.1 k2 with h | h
          · have := dA 0 la h; omega
          · have := dB 0 lb h; omega
        · have h := this.2 k2
          have := dA 0 la h.1
          have := dB 0 lb h.2
          omega
      · intro σ hs A B hA hB xA xB
        obtain ⟨σ', ha, b0, b1⟩ := ext σ (decide (0 < A + B)) (decide (1 < A + B))
        refine ⟨σ', ha, addClauses_sat.2 ⟨(sat1 _).2 ((ha.sat hw).1 hs), (scs σ').2 ?_⟩, ?_⟩
        · rw [ha.ex oa xA 0 la, ha.ex ob xB 0 lb, b0, b1]
          simp only [decide_eq_true_eq]
          refine ⟨fun _ => ⟨?_, ?_⟩, fun _ => ⟨?_, ?_⟩⟩ <;> omega
        · intro k k1
          have hk : k = 0 ∨ k = 1 := by simp at k1; omega
          rcases hk with rfl | rfl
          · exact b0
          · exact b1
    rw [if_neg hab]
    -- odd-even merge
    have ka : a2 ≤ a.length := by omega
    have kb : b2 ≤ b.length := by omega
    have moa : ∀ {x}, x ∈ oddsOf a2 a → x ∈ a := fun h => by obtain ⟨i, hi, _, rfl⟩ := mem_oddsOf ka h; exact getBang_mem hi
    have mob : ∀ {x}, x ∈ oddsOf b2 b → x ∈ b := fun h => by obtain ⟨i, hi, _, rfl⟩ := mem_oddsOf kb h; exact getBang_mem hi
    have mea : ∀ {x}, x ∈ evensOf a2 a → x ∈ a := fun h => by obtain ⟨i, hi, _, rfl⟩ := mem_evensOf ka h; exact getBang_mem hi
    have meb : ∀ {x}, x ∈ evensOf b2 b → x ∈ b := fun h => by obtain ⟨i, hi, _, rfl⟩ := mem_evensOf kb h; exact getBang_mem hi
    obtain ⟨odd, s1, e1, M1⟩ := ih (c / 2 + 1) (oddsOf a2 a) (oddsOf b2 b) d s (by rw [oddsOf_length, oddsOf_length]; omega) hw
      (fun l h => oa l (moa h)) (fun l h => ob l (mob h)) (oddsOf_nodup ka na) (oddsOf_nodup kb nb)
      (fun x h h' => disj x (moa h) (mob h'))
      (by intro h; have := oddsOf_length a2 a; rw [h] at this; simp at this; omega)
      (by intro h; have := oddsOf_length b2 b; rw [h] at this; simp at this; omega)
    rw [e1]; simp only [Option.bind_some]
    obtain ⟨even, s2, e2, M2⟩ := ih (c / 2) (evensOf a2 a) (evensOf b2 b) d s1 (by rw [evensOf_length, evensOf_length]; omega) M1.wf
      (fun l h => M1.le.old (oa l (mea h))) (fun l h => M1.le.old (ob l (meb h))) (evensOf_nodup ka na) (evensOf_nodup kb nb)
      (fun x h h' => disj x (mea h) (meb h'))
      (by intro _; rw [evensOf_length]; omega)
      (by intro _; rw [evensOf_length]; omega)
    rw [e2]; simp only [Option.bind_some]
    have l1 := M1.len
    rw [oddsOf_length, oddsOf_length] at l1
    have l2 := M2.len
    rw [evensOf_length, evensOf_length] at l2
    have disj' : ∀ x ∈ odd, x ∉ even := by
      intro x h h'
      rcases M2.mem x h' with h2 | h2 | h2
      · rcases M1.mem x h with h1 | h1 | h1
        · obtain ⟨i, hi, pi, rfl⟩ := mem_oddsOf ka h1
          obtain ⟨j, hj, pj, ej⟩ := mem_evensOf ka h2
          exact nth_ne_of_nodup na hi hj (by omega) ej
        · exact disj x (mea h2) (mob h1)
        · exact h1 (oa _ (mea h2))
      · rcases M1.mem x h with h1 | h1 | h1
        · exact disj x (moa h1) (meb h2)
        · obtain ⟨i, hi, pi, rfl⟩ := mem_oddsOf kb h1
          obtain ⟨j, hj, pj, ej⟩ := mem_evensOf kb h2
          exact nth_ne_of_nodup nb hi hj (by omega) ej
        · exact h1 (ob _ (meb h2))
      · exact h2 (M1.old x h)
    have ho0 : 0 < odd.length := by omega
    have oodd : ∀ l ∈ odd, s2.Old l.v := fun l h => M2.le.old (M1.old l h)
    obtain ⟨out, s3, e3, L⟩ := mergeLoop_spec (c := c) (P := (a2 + 1) / 2 + (b2 + 1) / 2) (Q := a2 / 2 + b2 / 2) (odd := odd) (even := even) (d := d)
      (by omega) (by omega) (by omega) (by omega) (by omega) disj' (odd.length + 2) 1 [odd.nth 0] s2 (by omega) (by simp) (by simp; omega) (by omega)
      M2.wf oodd M2.old (by simpa using oodd _ (getBang_mem ho0)) (by simp)
      (by intro k k1 k2 h; simp at h; exact nth_ne_of_nodup M1.nodup k2 ho0 (by omega) h)
      (by intro k k1 k2 h; simp at h; exact disj' _ (getBang_mem ho0) (h ▸ getBang_mem k2))
    rw [e3]; simp only [Option.bind_some]
    rw [if_pos L.len]
    have p0 : out.nth 0 = odd.nth 0 := L.pre 0 (by simp)
    refine ⟨out, s3, rfl, ⟨by rw [L.len, hc], (M1.le.trans M2.le).trans L.le, L.wf, L.old, L.nodup, ?_, ?_, ?_, ?_⟩⟩
    · intro l hl
      have h1 : ∀ {x}, x ∈ odd → x ∈ a ∨ x ∈ b ∨ ¬ s.Old x.v := by
        intro x hx
        rcases M1.mem x hx with h | h | h
        · exact Or.inl (moa h)
        · exact Or.inr (Or.inl (mob h))
        · exact Or.inr (Or.inr h)
      rcases L.mem l hl with h | h | h | h
      · simp at h; subst h; exact h1 (getBang_mem ho0)
      · exact h1 h
      · rcases M2.mem l h with h | h | h
        · exact Or.inl (mea h)
        · exact Or.inr (Or.inl (meb h))
        · exact Or.inr (Or.inr fun h' => h (M1.le.old h'))
      · exact Or.inr (Or.inr fun h' => h (M2.le.old (M1.le.old h')))
    · intro hd' σ hs A B hA hB uA uB k k1 k2
      have hs2 := L.le.sat hs
      have uA' : Up σ a (min A a2) := uA.mono (by omega)
      have uB' : Up σ b (min B b2) := uB.mono (by omega)
      have uO := M1.up hd' σ (M2.le.sat hs2) ((min A a2 + 1) / 2) ((min B b2 + 1) / 2) (by rw [oddsOf_length]; omega) (by rw [oddsOf_length]; omega)
        (odds_up ka uA') (odds_up kb uB')
      have uE := M2.up hd' σ hs2 (min A a2 / 2) (min B b2 / 2) (by rw [evensOf_length]; omega) (by rw [evensOf_length]; omega)
        (evens_up ka uA') (evens_up kb uB')
      rw [L.len] at k1
      by_cases hk0 : k = 0
      · subst hk0; rw [p0]; exact uO 0 ho0 (by omega)
      · exact L.up hd' σ hs _ _ (by omega) (by omega) (by omega) (by omega) uO uE k (by simp; omega) k1 (by omega)
    · intro hd' σ hs A B dA dB k k1 k2
      have hs2 := L.le.sat hs
      have dO := M1.dn hd' σ (M2.le.sat hs2) ((A + 1) / 2) ((B + 1) / 2) (odds_dn ka dA) (odds_dn kb dB)
      have dE := M2.dn hd' σ hs2 (A / 2) (B / 2) (evens_dn ka dA) (evens_dn kb dB)
      rw [L.len] at k1
      by_cases hk0 : k = 0
      · subst hk0; rw [p0] at k2; have := dO 0 ho0 k2; omega
      · have := L.dn hd' σ hs _ _ (by omega) (by omega) dO dE k (by simp; omega) k1 k2
        omega
    · intro σ hs A B hA hB xA xB
      have hxO : ∀ {l : List Lit} {N k : Nat}, Ex σ l N → k ≤ l.length → Ex σ (oddsOf k l) ((min N k + 1) / 2) := by
        intro l N k h hk i hi
        rw [odds_ex hk h i hi, decide_eq_decide]; rw [oddsOf_length] at hi; omega
      have hxE : ∀ {l : List Lit} {N k : Nat}, Ex σ l N → k ≤ l.length → Ex σ (evensOf k l) (min N k / 2) := by
        intro l N k h hk i hi
        rw [evens_ex hk h i hi, decide_eq_decide]; rw [evensOf_length] at hi; omega
      obtain ⟨σ1, ag1, hs1, x1⟩ := M1.compl σ hs ((min A a2 + 1) / 2) ((min B b2 + 1) / 2) (by rw [oddsOf_length]; omega) (by rw [oddsOf_length]; omega)
        (hxO xA ka) (hxO xB kb)
      obtain ⟨σ2, ag2, hs2, x2⟩ := M2.compl σ1 hs1 (min A a2 / 2) (min B b2 / 2) (by rw [evensOf_length]; omega) (by rw [evensOf_length]; omega)
        (ag1.ex (fun l h => oa l (mea h)) (hxE xA ka)) (ag1.ex (fun l h => ob l (meb h)) (hxE xB kb))
      have x1' := ag2.ex M1.old x1
      obtain ⟨σ3, ag3, hs3, x3⟩ := L.compl σ2 hs2 _ _ (by omega) (by omega) (by omega) (by omega) x1' x2
      refine ⟨σ3, (ag1.trans M1.le ag2).trans (M1.le.trans M2.le) ag3, hs3, ?_⟩
      intro k k1
      rw [L.len] at k1
      by_cases hk0 : k = 0
      · subst hk0
        rw [p0, ag3.ex oodd x1' 0 ho0, decide_eq_decide]; omega
      · rw [x3 k (by simp; omega) k1, decide_eq_decide]; omega

end Verif
