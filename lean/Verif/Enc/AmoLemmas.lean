import Verif.Enc.Amo
namespace Verif
open ER

theorem pairNeg_sat (σ : Asg) (ls : List Lit) :
    (∀ c ∈ pairNeg ls, Clause.Sat σ c) ↔ cntL σ ls ≤ 1 := by
  unfold cntL
  rw [countP_le_one_iff]
  induction ls with
  | nil => simp [pairNeg]
  | cons a l ih =>
    simp only [pairNeg, List.mem_append, List.mem_map, or_imp, forall_and, List.pairwise_cons, ← ih,
      forall_exists_index, and_imp, forall_apply_eq_imp_iff₂]
    refine and_congr ?_ Iff.rfl
    refine forall_congr' fun b => imp_congr Iff.rfl ?_
    simp only [Clause.sat_cons, Lit.eval_neg, Clause.sat_nil, or_false]
    cases a.eval σ <;> cases b.eval σ <;> simp

theorem pairNeg_vars {ls : List Lit} {P : Var → Prop} (h : ∀ l ∈ ls, P l.v) :
    ∀ c ∈ pairNeg ls, ∀ l ∈ c, P l.v := by
  induction ls with
  | nil => simp [pairNeg]
  | cons a l ih =>
    intro c hc m hm
    simp only [pairNeg, List.mem_append, List.mem_map] at hc
    rcases hc with ⟨b, hb, rfl⟩ | hc
    · simp only [List.mem_cons, List.not_mem_nil, or_false] at hm
      rcases hm with rfl | rfl
      · exact h a (by simp)
      · exact h b (by simp [hb])
    · exact ih (fun l hl => h l (by simp [hl])) c hc m hm

theorem pairNeg_encodes {ls : List Lit} {s : ER} (hw : Wf s) (hv : ∀ l ∈ ls, s.Old l.v) :
    Encodes s (s.addClauses (pairNeg ls)) (fun σ => cntL σ ls ≤ 1) :=
  (addClauses_encodes hw (pairNeg_vars hv)).congr (fun σ => pairNeg_sat σ ls)

theorem map_p_old {vars : List Var} {s : ER} (hv : ∀ v ∈ vars, s.Old v) : ∀ l ∈ vars.map Var.p, s.Old l.v := by
  simpa using hv

theorem map_n_old {vars : List Var} {s : ER} (hv : ∀ v ∈ vars, s.Old v) : ∀ l ∈ vars.map Var.n, s.Old l.v := by
  simpa using hv

theorem amoPure_encodes {vars : List Var} {s : ER} (hw : Wf s) (hv : ∀ v ∈ vars, s.Old v) :
    Encodes s (amoPure vars s) (fun σ => cntV σ vars ≤ 1) :=
  (pairNeg_encodes hw (map_p_old hv)).congr (fun σ => by rw [cntL_map_p])

theorem getBang {α} [Inhabited α] (l : List α) (i : Nat) (h : i < l.length) : (l.nth i) = l[i] :=
  by simp [List.nth, List.getD, h]

theorem getBang_mem {α} [Inhabited α] {l : List α} {i : Nat} (h : i < l.length) : (l.nth i) ∈ l := by
  rw [getBang l i h]; exact List.getElem_mem h

/-- Pairwise exclusion by indices. -/
theorem cntV_le_one_iff (σ : Asg) (vars : List Var) :
    cntV σ vars ≤ 1 ↔ ∀ i j, i < j → j < vars.length → σ (vars.nth i) = true → σ (vars.nth j) = true → False := by
  unfold cntV
  rw [countP_le_one_iff, List.pairwise_iff_getElem]
  constructor
  · intro h i j hij hj h1 h2
    have hi : i < vars.length := by omega
    rw [getBang _ _ hi] at h1; rw [getBang _ _ hj] at h2
    exact h i j hi hj hij ⟨h1, h2⟩
  · intro h i j hi hj hij ⟨h1, h2⟩
    refine h i j hij hj ?_ ?_
    · rw [getBang _ _ hi]; exact h1
    · rw [getBang _ _ hj]; exact h2

/-- Generic completeness step: allocate `n` variables, give them values `b σ`, add clauses. -/
theorem newAuxs_addClauses_encodes {s : ER} (n : Nat) (mk : List Var → List Clause) (C : Asg → Prop)
    (hw : Wf s)
    (hvars : ∀ c ∈ mk (s.newAuxs .cc n).1, ∀ l ∈ c, (s.newAuxs .cc n).2.Old l.v)
    (hC : ∀ σ σ', Agree s σ σ' → C σ → C σ')
    (sound : ∀ σ, Sat σ s → (∀ c ∈ mk (s.newAuxs .cc n).1, Clause.Sat σ c) → C σ)
    (compl : ∀ σ, C σ → ∃ b : Nat → Bool, ∀ σ', Agree s σ σ' →
      (∀ i, i < n → σ' (((s.newAuxs .cc n).1.nth i)) = b i) →
      ∀ c ∈ mk (s.newAuxs .cc n).1, Clause.Sat σ' c) :
    Encodes s ((s.newAuxs .cc n).2.addClauses (mk (s.newAuxs .cc n).1)) C := by
  refine Encodes.mk' ((newAuxs_le _ _ _).trans (addClauses_le _ _)) hw (addClauses_wf (newAuxs_wf hw) hvars) hC ?_ ?_
  · intro σ h
    have := addClauses_sat.1 h
    exact sound σ (newAuxs_sat.1 this.1) this.2
  · intro σ hs hc
    obtain ⟨b, hb⟩ := compl σ hc
    obtain ⟨σ', ha, hv⟩ := newAuxs_ext .cc n s b σ
    refine ⟨σ', ha, addClauses_sat.2 ⟨newAuxs_sat.2 ((ha.sat hw).1 hs), ?_⟩⟩
    refine hb σ' ha ?_
    intro i hi
    have hi' : i < (newAuxs .cc n s).1.length := by simpa using hi
    rw [getBang _ _ hi']
    exact hv i hi'

theorem newAuxs_old! {n} {s : ER} {i : Nat} (hi : i < n) : (s.newAuxs .cc n).2.Old (((s.newAuxs .cc n).1.nth i)) :=
  newAuxs_old (by decide) _ (getBang_mem (by simpa using hi))

theorem old_newAuxs {n} {s : ER} {v} (h : s.Old v) : (s.newAuxs .cc n).2.Old v := (newAuxs_le _ _ _).old h

theorem amoLadder_encodes {vars : List Var} {s : ER} (hlen : 2 ≤ vars.length) (hw : Wf s)
    (hv : ∀ v ∈ vars, s.Old v) : Encodes s (amoLadder vars s) (fun σ => cntV σ vars ≤ 1) := by
  have hold : ∀ i, i < vars.length → (s.newAuxs .cc (vars.length - 1)).2.Old (vars.nth i) := fun i hi =>
    old_newAuxs (hv _ (getBang_mem hi))
  refine newAuxs_addClauses_encodes (vars.length - 1) (fun aux => (List.range vars.length).flatMap fun i =>
    if i = 0 then [[(vars.nth i).n, (aux.nth 0).p]]
    else if i = vars.length - 1 then [[(vars.nth i).n, (aux.nth (i-1)).n]]
    else [[(vars.nth i).n, (aux.nth i).p], [(aux.nth (i-1)).n, (aux.nth i).p], [(vars.nth i).n, (aux.nth (i-1)).n]]) _ hw ?_ ?_ ?_ ?_
  · intro c hc l hl
    simp only [List.mem_flatMap, List.mem_range] at hc
    obtain ⟨i, hi, hc⟩ := hc
    split at hc
    · simp at hc; subst hc; simp at hl
      rcases hl with rfl | rfl
      · exact hold _ (by omega)
      · exact newAuxs_old! (by omega)
    · split at hc
      · simp at hc; subst hc; simp at hl
        rcases hl with rfl | rfl
        · exact hold _ (by omega)
        · exact newAuxs_old! (by omega)
      · simp at hc
        rcases hc with rfl | rfl | rfl <;> simp at hl <;> rcases hl with rfl | rfl <;>
          first | exact hold _ (by omega) | exact newAuxs_old! (by omega)
  · intro σ σ' ha h; rw [← ha.cntV hv]; exact h
  · intro σ hs h
    rw [cntV_le_one_iff]
    -- aux i is true from the first true variable on
    have key : ∀ d i, i + d < vars.length - 1 → σ (vars.nth i) = true →
        σ (((s.newAuxs .cc (vars.length - 1)).1.nth (i + d))) = true := by
      intro d
      induction d with
      | zero =>
        intro i hi ht
        by_cases h0 : i = 0
        · subst h0
          have := h [(vars.nth 0).n, (((s.newAuxs .cc (vars.length - 1)).1.nth 0)).p]
            (by simp only [List.mem_flatMap, List.mem_range]; exact ⟨0, by omega, by simp⟩)
          simp [ht] at this; simpa using this
        · have := h [(vars.nth i).n, (((s.newAuxs .cc (vars.length - 1)).1.nth i)).p]
            (by simp only [List.mem_flatMap, List.mem_range]
                exact ⟨i, by omega, by rw [if_neg h0, if_neg (by omega)]; simp⟩)
          simp [ht] at this; simpa using this
      | succ d ih =>
        intro i hi ht
        have h1 := ih i (by omega) ht
        have := h [(((s.newAuxs .cc (vars.length - 1)).1.nth (i + d))).n, (((s.newAuxs .cc (vars.length - 1)).1.nth (i + (d + 1)))).p]
            (by simp only [List.mem_flatMap, List.mem_range]
                refine ⟨i + (d + 1), by omega, ?_⟩
                rw [if_neg (by omega), if_neg (by omega)]
                have : i + (d + 1) - 1 = i + d := by omega
                rw [this]; simp)
        simp [h1] at this; simpa using this
    intro i j hij hj h1 h2
    have hk := key (j - 1 - i) i (by omega) h1
    have he : i + (j - 1 - i) = j - 1 := by omega
    rw [he] at hk
    have := h [(vars.nth j).n, (((s.newAuxs .cc (vars.length - 1)).1.nth (j-1))).n]
      (by simp only [List.mem_flatMap, List.mem_range]
          refine ⟨j, by omega, ?_⟩
          rw [if_neg (by omega)]
          split <;> simp)
    simp [hk, h2] at this
  · intro σ hc
    rw [cntV_le_one_iff] at hc
    refine ⟨fun i => (List.range (i + 1)).any fun k => σ (vars.nth k), ?_⟩
    intro σ' ha hb c hcm
    have hσ : ∀ i, i < vars.length → σ' (vars.nth i) = σ (vars.nth i) := fun i hi => (ha _ (hv _ (getBang_mem hi))).symm
    have neg : ∀ i, 0 < i → i < vars.length → σ (vars.nth i) = true →
        (List.range (i - 1 + 1)).any (fun k => σ (vars.nth k)) = false := by
      intro i h0 hi ht
      rw [Bool.eq_false_iff]
      intro hh
      simp only [List.any_eq_true, List.mem_range] at hh
      obtain ⟨k, hk, hkt⟩ := hh
      exact hc k i (by omega) hi hkt ht
    have pos : ∀ i, σ (vars.nth i) = true → (List.range (i + 1)).any (fun k => σ (vars.nth k)) = true := by
      intro i ht
      simp only [List.any_eq_true, List.mem_range]
      exact ⟨i, by omega, ht⟩
    have mono : ∀ i, 0 < i → (List.range (i - 1 + 1)).any (fun k => σ (vars.nth k)) = true →
        (List.range (i + 1)).any (fun k => σ (vars.nth k)) = true := by
      intro i h0 hh
      simp only [List.any_eq_true, List.mem_range] at hh ⊢
      obtain ⟨k, hk, hkt⟩ := hh
      exact ⟨k, by omega, hkt⟩
    simp only [List.mem_flatMap, List.mem_range] at hcm
    obtain ⟨i, hi, hcm⟩ := hcm
    split at hcm
    · subst_vars
      simp only [List.mem_singleton] at hcm; subst hcm
      simp only [Clause.sat_cons, Lit.eval_n, Lit.eval_p, Clause.sat_nil, or_false, hσ 0 (by omega), hb 0 (by omega)]
      cases ht : σ (vars.nth 0) with
      | false => simp
      | true => right; exact pos 0 ht
    · rename_i h0
      have hpos : 0 < i := by omega
      have cl1 : Clause.Sat σ' [(vars.nth i).n, (((s.newAuxs .cc (vars.length - 1)).1.nth (i-1))).n] := by
        simp only [Clause.sat_cons, Lit.eval_n, Clause.sat_nil, or_false, hσ i hi, hb (i-1) (by omega)]
        cases ht : σ (vars.nth i) with
        | false => simp
        | true => right; rw [neg i hpos hi ht]; rfl
      split at hcm
      · simp only [List.mem_singleton] at hcm; subst hcm; exact cl1
      · simp only [List.mem_cons, List.not_mem_nil, or_false] at hcm
        rcases hcm with rfl | rfl | rfl
        · simp only [Clause.sat_cons, Lit.eval_n, Lit.eval_p, Clause.sat_nil, or_false, hσ i hi, hb i (by omega)]
          cases ht : σ (vars.nth i) with
          | false => simp
          | true => right; exact pos i ht
        · simp only [Clause.sat_cons, Lit.eval_n, Lit.eval_p, Clause.sat_nil, or_false, hb (i-1) (by omega), hb i (by omega)]
          cases ht : (List.range (i - 1 + 1)).any (fun k => σ (vars.nth k)) with
          | false => simp
          | true => right; exact mono i hpos ht
        · exact cl1

end Verif
