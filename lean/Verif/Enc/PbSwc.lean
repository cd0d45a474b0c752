import Verif.Enc.AmoLemmas2
/-!
Pseudo-Boolean encoders, part 1: common definitions and the sequential weighted counter.
-/
namespace Verif
open ER

/-- Weighted number of true literals (specification). -/
def wsum (σ : Asg) (ts : List (Lit × Nat)) : Nat := (ts.map fun t => if t.1.eval σ then t.2 else 0).sum

/-- A term list over existing variables. -/
def TermsOld (s : ER) (ts : List (Lit × Nat)) : Prop := ∀ t ∈ ts, s.Old t.1.v

@[simp] theorem wsum_nil (σ : Asg) : wsum σ [] = 0 := rfl
@[simp] theorem wsum_cons (σ : Asg) (t : Lit × Nat) (ts) :
    wsum σ (t :: ts) = (if t.1.eval σ then t.2 else 0) + wsum σ ts := by simp [wsum]
theorem wsum_append (σ : Asg) (a b) : wsum σ (a ++ b) = wsum σ a + wsum σ b := by simp [wsum]

theorem wsum_perm {σ : Asg} {a b : List (Lit × Nat)} (h : a.Perm b) : wsum σ a = wsum σ b :=
  (h.map _).sum_nat

theorem ER.Agree.wsum {s : ER} {σ σ'} (h : Agree s σ σ') {ts} (ho : TermsOld s ts) : wsum σ ts = wsum σ' ts := by
  unfold Verif.wsum
  congr 1
  refine List.map_congr_left fun t ht => ?_
  rw [h.lit (ho t ht)]

instance : Inhabited (Lit × Nat) := ⟨(default, 0)⟩

theorem wsum_take_succ {σ : Asg} {ts : List (Lit × Nat)} {i : Nat} (h : i < ts.length) :
    wsum σ (ts.take (i + 1)) = wsum σ (ts.take i) + (if (ts.nth i).1.eval σ then (ts.nth i).2 else 0) := by
  have : ts.take (i + 1) = ts.take i ++ [ts.nth i] := by
    rw [getBang _ _ h, List.take_append_getElem h]
  rw [this, wsum_append]; simp

theorem TermsOld.mono {s s' : ER} (h : Le s s') {ts} (ho : TermsOld s ts) : TermsOld s' ts :=
  fun t ht => h.old (ho t ht)

/-- Model of `new_pb_variable` called `n` times, assigning the new variables freely. -/
theorem newAuxs_extTy (ty : AuxTy) (n) (s : ER) (b : Nat → Bool) (σ : Asg) :
    ∃ σ', Agree s σ σ' ∧ ∀ i, i < n → σ' ((s.newAuxs ty n).1.nth i) = b i := by
  obtain ⟨σ', h1, h2⟩ := newAuxs_ext ty n s b σ
  refine ⟨σ', h1, fun i hi => ?_⟩
  rw [getBang _ _ (by simpa using hi)]; exact h2 i (by simpa using hi)

/-- The clauses written in round `i` of `encode_swc`, src/pseudo_booleans/pb_swc.rs:12-34.
`X` holds the `n × rhs` matrix row by row. -/
def swcRow (ts : List (Lit × Nat)) (rhs : Nat) (X : List Var) (i : Nat) : List Clause :=
  let l := (ts.nth i).1
  let w := (ts.nth i).2
  ((List.range rhs).flatMap fun j =>
    (if i ≥ 1 then [[(X.nth ((i - 1) * rhs + j)).n, (X.nth (i * rhs + j)).p]] else []) ++
    (if j < w then [[l.neg, (X.nth (i * rhs + j)).p]] else []) ++
    (if i ≥ 1 ∧ j + w < rhs then [[(X.nth ((i - 1) * rhs + j)).n, l.neg, (X.nth (i * rhs + (j + w))).p]] else [])) ++
  (if i ≥ 1 then [[(X.nth ((i - 1) * rhs + (rhs - w))).n, l.neg]] else [])

/-- Models `encode_swc`, src/pseudo_booleans/pb_swc.rs:6-36.  `none`: the assertion
`wi <= rhs` (line 15) fails.  Coefficients are given as natural numbers (they are positive
here, see `encodeInternal`). -/
def encodeSwc (ts : List (Lit × Nat)) (rhs : Nat) (s : ER) : Option ER :=
  if ts.any (fun t => decide (rhs < t.2)) then none
  else
    let (X, s) := s.newAuxs .pb (ts.length * rhs)
    some (s.addClauses ((List.range ts.length).flatMap (swcRow ts rhs X)))

theorem swcRow_sat {σ : Asg} {ts rhs X i} :
    (∀ c ∈ swcRow ts rhs X i, Clause.Sat σ c) ↔
    (∀ j, j < rhs →
      (1 ≤ i → σ (X.nth ((i - 1) * rhs + j)) = true → σ (X.nth (i * rhs + j)) = true) ∧
      (j < (ts.nth i).2 → (ts.nth i).1.eval σ = true → σ (X.nth (i * rhs + j)) = true) ∧
      (1 ≤ i → j + (ts.nth i).2 < rhs → σ (X.nth ((i - 1) * rhs + j)) = true → (ts.nth i).1.eval σ = true →
        σ (X.nth (i * rhs + (j + (ts.nth i).2))) = true)) ∧
    (1 ≤ i → σ (X.nth ((i - 1) * rhs + (rhs - (ts.nth i).2))) = true → (ts.nth i).1.eval σ = true → False) := by
  unfold swcRow
  simp only [List.mem_append, or_imp, forall_and, List.mem_flatMap, List.mem_range, forall_exists_index, and_imp]
  refine and_congr ⟨fun h => ?_, fun h => ?_⟩ ⟨fun h => ?_, fun h => ?_⟩
  · obtain ⟨⟨h1, h2⟩, h3⟩ := h
    refine ⟨fun j hj hi ht => ?_, fun j hj hw ht => ?_, fun j hj hi hw h4 h5 => ?_⟩
    · have := h1 _ j hj (by rw [if_pos hi]; exact List.mem_singleton.2 rfl); simpa [ht] using this
    · have := h2 _ j hj (by rw [if_pos hw]; exact List.mem_singleton.2 rfl); simpa [ht] using this
    · have := h3 _ j hj (by rw [if_pos ⟨hi, hw⟩]; exact List.mem_singleton.2 rfl); simpa [h4, h5] using this
  · obtain ⟨h1, h2, h3⟩ := h
    refine ⟨⟨fun c j hj hc => ?_, fun c j hj hc => ?_⟩, fun c j hj hc => ?_⟩
    · split at hc <;> simp at hc; subst hc; rename_i hi
      have := h1 j hj hi; simp; cases hh : σ (X.nth ((i - 1) * rhs + j)) <;> simp_all
    · split at hc <;> simp at hc; subst hc; rename_i hi
      have := h2 j hj hi; simp; cases hh : (ts.nth i).1.eval σ <;> simp_all
    · split at hc <;> simp at hc; subst hc; rename_i hi
      have := h3 j hj hi.1 hi.2; simp
      cases hh : σ (X.nth ((i - 1) * rhs + j)) <;> cases hh2 : (ts.nth i).1.eval σ <;> simp_all
  · intro hi h4 h5
    have := h [(X.nth ((i - 1) * rhs + (rhs - (ts.nth i).2))).n, (ts.nth i).1.neg] (by rw [if_pos hi]; simp)
    simp [h4, h5] at this
  · intro c hc
    split at hc <;> simp at hc; subst hc; rename_i hi
    have := h hi; simp
    cases hh : σ (X.nth ((i - 1) * rhs + (rhs - (ts.nth i).2))) <;> cases hh2 : (ts.nth i).1.eval σ <;> simp_all

theorem row_lt {n i j rhs : Nat} (hi : i < n) (hj : j < rhs) : i * rhs + j < n * rhs := by
  have : (i + 1) * rhs ≤ n * rhs := Nat.mul_le_mul_right _ hi
  rw [Nat.add_mul] at this; omega

theorem swcRow_vars {ts : List (Lit × Nat)} {rhs : Nat} {X : List Var} {i : Nat} {P : Var → Prop}
    (hw : 0 < (ts.nth i).2) (hX : X.length = ts.length * rhs) (hi : i < ts.length) (hrhs : 0 < rhs)
    (hP : ∀ v ∈ X, P v) (hT : ∀ t ∈ ts, P t.1.v) : ∀ c ∈ swcRow ts rhs X i, ∀ l ∈ c, P l.v := by
  have hx : ∀ i' j, i' < ts.length → j < rhs → P (X.nth (i' * rhs + j)) := fun i' j h1 h2 =>
    hP _ (getBang_mem (by rw [hX]; exact row_lt h1 h2))
  have hl : P (ts.nth i).1.v := hT _ (getBang_mem hi)
  intro c hc l hlc
  simp only [swcRow, List.mem_append, List.mem_flatMap, List.mem_range] at hc
  rcases hc with ⟨j, hj, (hc | hc) | hc⟩ | hc
  · split at hc <;> simp at hc; subst hc; simp at hlc
    rcases hlc with rfl | rfl
    · exact hx _ _ (by omega) hj
    · exact hx _ _ hi hj
  · split at hc <;> simp at hc; subst hc; simp at hlc
    rcases hlc with rfl | rfl
    · exact hl
    · exact hx _ _ hi hj
  · split at hc <;> simp at hc; subst hc; simp at hlc
    rename_i h
    rcases hlc with rfl | rfl | rfl
    · exact hx _ _ (by omega) hj
    · exact hl
    · exact hx _ _ hi h.2
  · split at hc <;> simp at hc; subst hc; simp at hlc
    rcases hlc with rfl | rfl
    · exact hx _ _ (by omega) (by omega)
    · exact hl

/-- The sequential weighted counter says exactly `weighted sum ≤ rhs`. -/
theorem encodeSwc_encodes {ts : List (Lit × Nat)} {rhs : Nat} {s : ER} (hw : Wf s) (ho : TermsOld s ts)
    (hpos : ∀ t ∈ ts, 0 < t.2) (hle : ∀ t ∈ ts, t.2 ≤ rhs) :
    ∃ s', encodeSwc ts rhs s = some s' ∧ Encodes s s' (fun σ => wsum σ ts ≤ rhs) := by
  refine ⟨(s.newAuxs .pb (ts.length * rhs)).2.addClauses
      ((List.range ts.length).flatMap (swcRow ts rhs (s.newAuxs .pb (ts.length * rhs)).1)), ?_, ?_⟩
  · unfold encodeSwc
    rw [if_neg (by simpa using hle)]
  have hnth : ∀ i, i < ts.length → 0 < (ts.nth i).2 ∧ (ts.nth i).2 ≤ rhs := fun i hi =>
    ⟨hpos _ (getBang_mem hi), hle _ (getBang_mem hi)⟩
  generalize hX : s.newAuxs .pb (ts.length * rhs) = r
  obtain ⟨X, s1⟩ := r
  have hlen : X.length = ts.length * rhs := by have := newAuxs_length .pb (ts.length * rhs) s; rw [hX] at this; exact this
  have hle1 : Le s s1 := by have := newAuxs_le .pb (ts.length * rhs) s; rw [hX] at this; exact this
  have hw1 : Wf s1 := by have := newAuxs_wf (ty := .pb) (n := ts.length * rhs) hw; rw [hX] at this; exact this
  have hoX : ∀ v ∈ X, s1.Old v := by
    have := newAuxs_old (ty := .pb) (n := ts.length * rhs) (s := s) (by decide); rw [hX] at this; exact this
  have hs1 : ∀ {σ}, Sat σ s1 ↔ Sat σ s := by
    intro σ; have := newAuxs_sat (ty := .pb) (n := ts.length * rhs) (s := s) (σ := σ); rw [hX] at this; exact this
  have hext := fun b σ => newAuxs_extTy .pb (ts.length * rhs) s b σ
  rw [hX] at hext
  have hsat : ∀ σ, (∀ c ∈ (List.range ts.length).flatMap (swcRow ts rhs X), Clause.Sat σ c) ↔
      ∀ i, i < ts.length → ∀ c ∈ swcRow ts rhs X i, Clause.Sat σ c := by
    intro σ; simp only [List.mem_flatMap, List.mem_range, forall_exists_index, and_imp]
    exact ⟨fun h i hi c hc => h c i hi hc, fun h c i hi hc => h i hi c hc⟩
  simp only
  refine Encodes.mk' (hle1.trans (addClauses_le _ _)) hw (addClauses_wf hw1 ?_) ?_ ?_ ?_
  · intro c hc
    simp only [List.mem_flatMap, List.mem_range] at hc
    obtain ⟨i, hi, hc⟩ := hc
    have := hnth i hi
    exact swcRow_vars this.1 hlen hi (by omega) hoX (ho.mono hle1) c hc
  · intro σ σ' ha h; rwa [← ha.wsum ho]
  · intro σ hs
    have hr := (hsat σ).1 (addClauses_sat.1 hs).2
    have inv : ∀ i, i < ts.length → wsum σ (ts.take (i + 1)) ≤ rhs ∧
        ∀ j, j < rhs → j < wsum σ (ts.take (i + 1)) → σ (X.nth (i * rhs + j)) = true := by
      intro i
      induction i with
      | zero =>
        intro hi
        obtain ⟨h1, _⟩ := swcRow_sat.1 (hr 0 hi)
        have := hnth 0 hi
        rw [wsum_take_succ hi]; simp only [List.take_zero, wsum_nil, Nat.zero_add]
        refine ⟨by split <;> omega, fun j hj hlt => ?_⟩
        split at hlt
        · exact (h1 j hj).2.1 hlt (by assumption) |> (by simpa using ·)
        · omega
      | succ i ih =>
        intro hi
        obtain ⟨ih1, ih2⟩ := ih (by omega)
        obtain ⟨h1, h2⟩ := swcRow_sat.1 (hr (i + 1) hi)
        have hwi := hnth (i + 1) hi
        rw [wsum_take_succ hi]
        simp only [Nat.add_sub_cancel] at h1 h2
        cases hl : (ts.nth (i + 1)).1.eval σ
        · simp only [Bool.false_eq_true, if_false, Nat.add_zero]
          exact ⟨ih1, fun j hj hlt => (h1 j hj).1 (by omega) (ih2 j hj hlt)⟩
        · simp only [if_true]
          have hub : wsum σ (ts.take (i + 1)) + (ts.nth (i + 1)).2 ≤ rhs := by
            apply Nat.le_of_not_lt; intro hgt
            exact h2 (by omega) (ih2 _ (by omega) (by omega)) hl
          refine ⟨hub, fun j hj hlt => ?_⟩
          by_cases hj2 : j < (ts.nth (i + 1)).2
          · exact (h1 j hj).2.1 hj2 hl
          · have := (h1 (j - (ts.nth (i + 1)).2) (by omega)).2.2 (by omega) (by omega) (ih2 _ (by omega) (by omega)) hl
            rwa [Nat.sub_add_cancel (by omega)] at this
    by_cases h0 : ts.length = 0
    · rw [List.length_eq_zero_iff.1 h0]; simp
    · have := (inv (ts.length - 1) (by omega)).1
      rwa [Nat.sub_add_cancel (by omega), List.take_length] at this
  · intro σ hs hc
    obtain ⟨σ', ha, hv⟩ := hext (fun k => decide (k % rhs < wsum σ (ts.take (k / rhs + 1)))) σ
    refine ⟨σ', ha, addClauses_sat.2 ⟨hs1.2 ((ha.sat hw).1 hs), (hsat σ').2 ?_⟩⟩
    have hval : ∀ i j, i < ts.length → j < rhs → σ' (X.nth (i * rhs + j)) = decide (j < wsum σ (ts.take (i + 1))) := by
      intro i j hi hj
      rw [hv _ (row_lt hi hj)]
      rw [Nat.mul_comm i rhs, Nat.mul_add_mod, Nat.mod_eq_of_lt hj, Nat.mul_add_div (by omega), Nat.div_eq_of_lt hj,
        Nat.add_zero]
    have hlit : ∀ i, i < ts.length → (ts.nth i).1.eval σ' = (ts.nth i).1.eval σ := fun i hi =>
      (ha.lit (ho _ (getBang_mem hi))).symm
    intro i hi
    rw [swcRow_sat, hlit i hi]
    have hwi := hnth i hi
    have hts := wsum_take_succ (σ := σ) hi
    refine ⟨fun j hj => ⟨fun h1 h => ?_, fun hj2 h => ?_, fun h1 hj2 h h' => ?_⟩, fun h1 h h' => ?_⟩
    · rw [hval _ _ (by omega) hj, Nat.sub_add_cancel h1, decide_eq_true_iff] at h
      rw [hval _ _ hi hj, decide_eq_true_iff]; omega
    · rw [hval _ _ hi hj, decide_eq_true_iff, hts, if_pos h]; omega
    · rw [hval _ _ (by omega) hj, Nat.sub_add_cancel h1, decide_eq_true_iff] at h
      rw [hval _ _ hi hj2, decide_eq_true_iff, hts, if_pos h']; omega
    · rw [hval _ _ (by omega) (by omega), Nat.sub_add_cancel h1, decide_eq_true_iff] at h
      rw [if_pos h'] at hts
      have : wsum σ ts = wsum σ (ts.take (i + 1)) + wsum σ (ts.drop (i + 1)) := by
        rw [← wsum_append, List.take_append_drop]
      omega

end Verif
