import Verif.Enc.UpTot
import Verif.Enc.PbSwc

/-
Unit propagation on the sequential weighted counter.
-/
namespace Verif
open ER
namespace Prop1

open Classical in
/-- Weight of the terms whose literal is in `S`. -/
noncomputable def wS (S : Lit → Prop) (ts : List (Lit × Nat)) : Nat := (ts.map fun t => if S t.1 then t.2 else 0).sum

/-- A literal and its negation. -/
def Confl (S : Lit → Prop) : Prop := ∃ o, S o ∧ S o.neg

open Classical in
theorem wS_cons (S : Lit → Prop) (t : Lit × Nat) (ts) : wS S (t :: ts) = (if S t.1 then t.2 else 0) + wS S ts := by simp [wS]
theorem wS_nil (S : Lit → Prop) : wS S [] = 0 := rfl
theorem wS_append (S : Lit → Prop) (a b) : wS S (a ++ b) = wS S a + wS S b := by simp [wS]
theorem wS_perm {S : Lit → Prop} {a b : List (Lit × Nat)} (h : a.Perm b) : wS S a = wS S b := (h.map _).sum_nat

open Classical in
theorem wS_mono {S S' : Lit → Prop} (h : ∀ l, S l → S' l) : ∀ ts, wS S ts ≤ wS S' ts
  | [] => by simp [wS]
  | t :: ts => by
    have := wS_mono h ts
    rw [wS_cons, wS_cons]
    by_cases h1 : S t.1
    · rw [if_pos h1, if_pos (h _ h1)]; omega
    · rw [if_neg h1]; omega

theorem wS_pos {S : Lit → Prop} : ∀ {ts}, 0 < wS S ts → ∃ t ∈ ts, S t.1
  | [], h => by simp [wS] at h
  | t :: ts, h => by
    by_cases h1 : S t.1
    · exact ⟨t, by simp, h1⟩
    · rw [wS_cons, if_neg h1] at h
      rw [Nat.zero_add] at h
      obtain ⟨u, hu, h2⟩ := wS_pos h
      exact ⟨u, by simp [hu], h2⟩

open Classical in
theorem wS_take_succ {S : Lit → Prop} {ts : List (Lit × Nat)} {i : Nat} (h : i < ts.length) :
    wS S (ts.take (i + 1)) = wS S (ts.take i) + (if S (ts.nth i).1 then (ts.nth i).2 else 0) := by
  have : ts.take (i + 1) = ts.take i ++ [ts.nth i] := by rw [getBang _ _ h, List.take_append_getElem h]
  rw [this, wS_append, wS_cons, wS_nil]; rfl

open Classical in
theorem wS_drop {S : Lit → Prop} {ts : List (Lit × Nat)} {i : Nat} (h : i < ts.length) :
    wS S (ts.drop i) = (if S (ts.nth i).1 then (ts.nth i).2 else 0) + wS S (ts.drop (i + 1)) := by
  rw [List.drop_eq_getElem_cons h, wS_cons, getBang _ _ h]

section swc
variable {S : Lit → Prop} {ts : List (Lit × Nat)} {rhs : Nat} {X : List Var} {cs : List Clause}

/-- The clauses of row `i`. -/
structure SwcRow (S : Lit → Prop) (ts : List (Lit × Nat)) (rhs : Nat) (X : List Var) (i : Nat) : Prop where
  chain : 1 ≤ i → ∀ j, j < rhs → (S (X.nth ((i - 1) * rhs + j)).p → S (X.nth (i * rhs + j)).p) ∧
    (S (X.nth (i * rhs + j)).n → S (X.nth ((i - 1) * rhs + j)).n)
  start : ∀ j, j < rhs → j < (ts.nth i).2 → (S (ts.nth i).1 → S (X.nth (i * rhs + j)).p) ∧ (S (X.nth (i * rhs + j)).n → S (ts.nth i).1.neg)
  add : 1 ≤ i → ∀ j, j + (ts.nth i).2 < rhs →
    (S (X.nth ((i - 1) * rhs + j)).p → S (ts.nth i).1 → S (X.nth (i * rhs + (j + (ts.nth i).2))).p) ∧
    (S (X.nth (i * rhs + (j + (ts.nth i).2))).n → S (ts.nth i).1 → S (X.nth ((i - 1) * rhs + j)).n) ∧
    (S (X.nth (i * rhs + (j + (ts.nth i).2))).n → S (X.nth ((i - 1) * rhs + j)).p → S (ts.nth i).1.neg)
  stop : 1 ≤ i → (S (ts.nth i).1 → S (X.nth ((i - 1) * rhs + (rhs - (ts.nth i).2))).n) ∧
    (S (X.nth ((i - 1) * rhs + (rhs - (ts.nth i).2))).p → S (ts.nth i).1.neg)

theorem swcRow_up (hS : ClN S cs) {i : Nat} (h : ∀ c ∈ swcRow ts rhs X i, c ∈ cs) : SwcRow S ts rhs X i := by
  have hm : ∀ c j, j < rhs → c ∈ ((if i ≥ 1 then [[(X.nth ((i - 1) * rhs + j)).n, (X.nth (i * rhs + j)).p]] else []) ++
      (if j < (ts.nth i).2 then [[(ts.nth i).1.neg, (X.nth (i * rhs + j)).p]] else []) ++
      (if i ≥ 1 ∧ j + (ts.nth i).2 < rhs then [[(X.nth ((i - 1) * rhs + j)).n, (ts.nth i).1.neg, (X.nth (i * rhs + (j + (ts.nth i).2))).p]] else []) : List Clause) → c ∈ cs :=
    fun c j hj hc => h c (List.mem_append_left _ (List.mem_flatMap.2 ⟨j, List.mem_range.2 hj, hc⟩))
  refine ⟨fun hi j hj => ?_, fun j hj hw => ?_, fun hi j hj => ?_, fun hi => ?_⟩
  · exact hS.two (hm _ j hj (List.mem_append_left _ (List.mem_append_left _ (by rw [if_pos hi]; exact List.mem_singleton.2 rfl))))
  · have := hS.two (hm _ j hj (List.mem_append_left _ (List.mem_append_right _ (by rw [if_pos hw]; exact List.mem_singleton.2 rfl))))
    rw [Lit.neg_neg] at this; exact this
  · have := hS.three (hm _ j (by omega) (List.mem_append_right _ (by rw [if_pos ⟨hi, hj⟩]; exact List.mem_singleton.2 rfl)))
    rw [Lit.neg_neg] at this
    exact ⟨fun a b => this.2.2 a b, fun a b => this.1 b a, fun a b => this.2.1 b a⟩
  · have := hS.two (h [(X.nth ((i - 1) * rhs + (rhs - (ts.nth i).2))).n, (ts.nth i).1.neg] (List.mem_append_right _ (by rw [if_pos hi]; exact List.mem_singleton.2 rfl)))
    rw [Lit.neg_neg] at this
    exact ⟨this.2, this.1⟩

/-- The counters reach the weight of the prefix. -/
theorem swc_prefix (h : ∀ i, i < ts.length → SwcRow S ts rhs X i) : ∀ i, i < ts.length → ∀ j, j < rhs → j < wS S (ts.take (i + 1)) →
    S (X.nth (i * rhs + j)).p
  | 0, hi, j, hj, hw => by
    rw [wS_take_succ hi] at hw
    simp only [List.take_zero, wS_nil, Nat.zero_add] at hw
    by_cases hl : S (ts.nth 0).1
    · rw [if_pos hl] at hw; exact ((h 0 hi).start j hj hw).1 hl
    · rw [if_neg hl] at hw; omega
  | i + 1, hi, j, hj, hw => by
    have ih := swc_prefix h i (by omega)
    have R := h (i + 1) hi
    rw [wS_take_succ hi] at hw
    by_cases h1 : j < wS S (ts.take (i + 1))
    · exact (R.chain (by omega) j hj).1 (ih j hj h1)
    by_cases hl : S (ts.nth (i + 1)).1
    · rw [if_pos hl] at hw
      by_cases h2 : j < (ts.nth (i + 1)).2
      · exact (R.start j hj h2).1 hl
      · have := (R.add (by omega) (j - (ts.nth (i + 1)).2) (by omega)).1 (ih _ (by omega) (by omega)) hl
        rwa [Nat.sub_add_cancel (by omega)] at this
    · rw [if_neg hl] at hw; omega

/-- The weight of the rest makes counters false. -/
theorem swc_suffix (h : ∀ i, i < ts.length → SwcRow S ts rhs X i) (hle : ∀ i, i < ts.length → (ts.nth i).2 ≤ rhs) : ∀ d i, i + d + 1 = ts.length →
    1 ≤ wS S (ts.drop (i + 1)) → Confl S ∨ (wS S (ts.drop (i + 1)) ≤ rhs ∧ S (X.nth (i * rhs + (rhs - wS S (ts.drop (i + 1))))).n)
  | 0, i, hd, hq => by
    rw [List.drop_of_length_le (by omega), wS_nil] at hq; omega
  | d + 1, i, hd, hq => by
    have ih := swc_suffix h hle d (i + 1) (by omega)
    have hi : i + 1 < ts.length := by omega
    have R := h (i + 1) hi
    have hw := hle (i + 1) hi
    rw [wS_drop hi] at hq ⊢
    generalize hq' : wS S (ts.drop (i + 1 + 1)) = q at *
    by_cases hl : S (ts.nth (i + 1)).1
    · rw [if_pos hl] at hq ⊢
      by_cases h0 : q = 0
      · subst h0
        exact .inr ⟨by omega, by simpa using (R.stop (by omega)).1 hl⟩
      · rcases ih (by omega) with hc | ⟨h1, h2⟩
        · exact .inl hc
        by_cases h3 : rhs - q < (ts.nth (i + 1)).2
        · exact .inl ⟨_, hl, (R.start (rhs - q) (by omega) h3).2 h2⟩
        · refine .inr ⟨by omega, ?_⟩
          have := (R.add (by omega) (rhs - q - (ts.nth (i + 1)).2) (by omega)).2.1 (by rw [Nat.sub_add_cancel (by omega)]; exact h2) hl
          rw [show rhs - ((ts.nth (i + 1)).2 + q) = rhs - q - (ts.nth (i + 1)).2 by omega]
          exact this
    · rw [if_neg hl, Nat.zero_add] at hq ⊢
      rcases ih hq with hc | ⟨h1, h2⟩
      · exact .inl hc
      · exact .inr ⟨h1, (R.chain (by omega) _ (by omega)).2 h2⟩

theorem swc_up (h : ∀ i, i < ts.length → SwcRow S ts rhs X i) (hle : ∀ i, i < ts.length → (ts.nth i).2 ≤ rhs) {i : Nat} (hi : i < ts.length)
    (hpos : 1 ≤ (ts.nth i).2) (hw : rhs < wS S (ts.take i) + (ts.nth i).2 + wS S (ts.drop (i + 1))) : Confl S ∨ S (ts.nth i).1.neg := by
  have R := h i hi
  have hwi := hle i hi
  have P : 1 ≤ i → ∀ j, j < rhs → j < wS S (ts.take i) → S (X.nth ((i - 1) * rhs + j)).p := fun h1 j hj hp =>
    swc_prefix h (i - 1) (by omega) j hj (by rw [Nat.sub_add_cancel h1]; exact hp)
  have h0 : i = 0 → wS S (ts.take i) = 0 := fun h => by subst h; simp [wS]
  by_cases hq : wS S (ts.drop (i + 1)) = 0
  · by_cases hi0 : i = 0
    · have := h0 hi0; omega
    · exact .inr ((R.stop (by omega)).2 (P (by omega) _ (by omega) (by omega)))
  · rcases swc_suffix h hle (ts.length - i - 1) i (by omega) (by omega) with hc | ⟨h1, h2⟩
    · exact .inl hc
    generalize wS S (ts.drop (i + 1)) = q at *
    right
    by_cases h3 : rhs - q < (ts.nth i).2
    · exact (R.start _ (by omega) h3).2 h2
    · have hi0 : i ≠ 0 := fun h => by have := h0 h; omega
      exact (R.add (by omega) (rhs - q - (ts.nth i).2) (by omega)).2.2 (by rw [Nat.sub_add_cancel (by omega)]; exact h2) (P (by omega) _ (by omega) (by omega))

end swc

/-- What complete propagation of "weight at most rhs" means for a set `S`. -/
def PbS (S : Lit → Prop) (ts : List (Lit × Nat)) (rhs : Nat) : Prop :=
  ∀ pre t post, ts = pre ++ t :: post → rhs < wS S pre + t.2 + wS S post → Confl S ∨ S t.1.neg

theorem encodeSwc_mono {ts : List (Lit × Nat)} {rhs : Nat} {s s' : ER} (e : encodeSwc ts rhs s = some s') : ∀ c ∈ s.clauses, c ∈ s'.clauses := by
  unfold encodeSwc at e
  by_cases ha : ts.any (fun t => decide (rhs < t.2))
  · rw [if_pos ha] at e; simp at e
  rw [if_neg ha] at e
  simp only [Option.some.injEq] at e
  subst e
  exact fun c hc => mem_addClauses.2 (.inl hc)

theorem encodeSwc_up {ts : List (Lit × Nat)} {rhs : Nat} {s s' : ER} (e : encodeSwc ts rhs s = some s') (hpos : ∀ t ∈ ts, 0 < t.2) {S : Lit → Prop}
    (hS : ClN S s'.clauses) : PbS S ts rhs := by
  unfold encodeSwc at e
  by_cases ha : ts.any (fun t => decide (rhs < t.2))
  · rw [if_pos ha] at e; simp at e
  rw [if_neg ha] at e
  simp only [Option.some.injEq] at e
  have hle : ∀ i, i < ts.length → (ts.nth i).2 ≤ rhs := fun i hi => by
    simp only [List.any_eq_true, decide_eq_true_eq, not_exists, not_and] at ha
    have := ha _ (getBang_mem hi)
    omega
  have hrow : ∀ i, i < ts.length → SwcRow S ts rhs (s.newAuxs .pb (ts.length * rhs)).1 i := fun i hi =>
    swcRow_up hS fun c hc => by
      subst e
      exact mem_addClauses.2 (.inr (List.mem_flatMap.2 ⟨i, List.mem_range.2 hi, hc⟩))
  intro pre t post ht hw
  have hi : pre.length < ts.length := by rw [ht]; simp
  have hn : ts.nth pre.length = t := by rw [getBang _ _ hi]; simp [ht]
  have := swc_up hrow hle hi (by rw [hn]; exact hpos t (by rw [ht]; simp)) (by rw [hn]; simpa [ht] using hw)
  rwa [hn] at this

end Prop1
end Verif
