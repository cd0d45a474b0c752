import Verif.Enc.UpTot
import Verif.Enc.Sorter3

/-
Unit propagation on the cardinality networks.
-/
namespace Verif
open ER
namespace Prop1

/-- What a comparator with one output propagates. -/
structure Comp1 (S : Lit → Prop) (d : Dir) (x1 x2 y : Lit) : Prop where
  up : d ≠ .o2i → (S x1 → S y) ∧ (S x2 → S y) ∧ (S y.neg → S x1.neg) ∧ (S y.neg → S x2.neg)
  dn : d ≠ .i2o → (S x1.neg → S x2.neg → S y.neg) ∧ (S y → S x1.neg → S x2) ∧ (S y → S x2.neg → S x1)

/-- What a comparator propagates from and to its smaller output. -/
structure Comp2 (S : Lit → Prop) (d : Dir) (x1 x2 y : Lit) : Prop where
  up : d ≠ .o2i → (S x1 → S x2 → S y) ∧ (S y.neg → S x1 → S x2.neg) ∧ (S y.neg → S x2 → S x1.neg)
  dn : d ≠ .i2o → (S x1.neg → S y.neg) ∧ (S x2.neg → S y.neg) ∧ (S y → S x1) ∧ (S y → S x2)

theorem ClN.two' {S : Lit → Prop} {cs : List Clause} {a b : Lit} (h : ClN S cs) (hc : [a.neg, b] ∈ cs) : (S a → S b) ∧ (S b.neg → S a.neg) := by
  have := h.two hc
  rwa [Lit.neg_neg] at this

theorem comp1_up {S : Lit → Prop} {x1 x2 y : Lit} {d : Dir} {cs : List Clause} (e : comp1 x1 x2 y d = some cs) (h : ClN S cs) : Comp1 S d x1 x2 y := by
  unfold comp1 at e
  by_cases hx : x1 = x2
  · simp [hx] at e
  rw [if_neg hx] at e
  simp only [Option.some.injEq] at e
  subst e
  refine ⟨fun hd => ?_, fun hd => ?_⟩
  · have hd : d = .i2o ∨ d = .both := by cases d <;> simp_all
    have m1 := h.two' (a := x1) (b := y) (by simp [hd])
    have m2 := h.two' (a := x2) (b := y) (by simp [hd])
    exact ⟨m1.1, m2.1, m1.2, m2.2⟩
  · have hd : d = .o2i ∨ d = .both := by cases d <;> simp_all
    have m := h.three (a := y.neg) (b := x1) (d := x2) (by simp [hd])
    rw [Lit.neg_neg] at m
    exact ⟨m.1, fun a b => m.2.2 a b, fun a b => m.2.1 a b⟩

theorem comp2_up {S : Lit → Prop} {x1 x2 y1 y2 : Lit} {d : Dir} {cs : List Clause} (e : comp2 x1 x2 y1 y2 d = some cs) (h : ClN S cs) :
    Comp1 S d x1 x2 y1 ∧ Comp2 S d x1 x2 y2 := by
  unfold comp2 at e
  by_cases hx : x1 = x2 ∨ y1 = y2
  · rw [if_pos hx] at e; simp at e
  rw [if_neg hx] at e
  simp only [Option.some.injEq] at e
  subst e
  refine ⟨⟨fun hd => ?_, fun hd => ?_⟩, ⟨fun hd => ?_, fun hd => ?_⟩⟩
  · have hd : d = .i2o ∨ d = .both := by cases d <;> simp_all
    have m1 := h.two' (a := x1) (b := y1) (by simp [hd])
    have m2 := h.two' (a := x2) (b := y1) (by simp [hd])
    exact ⟨m1.1, m2.1, m1.2, m2.2⟩
  · have hd : d = .o2i ∨ d = .both := by cases d <;> simp_all
    have m := h.three (a := y1.neg) (b := x1) (d := x2) (by simp [hd])
    rw [Lit.neg_neg] at m
    exact ⟨m.1, fun a b => m.2.2 a b, fun a b => m.2.1 a b⟩
  · have hd : d = .i2o ∨ d = .both := by cases d <;> simp_all
    have m := h.three (a := x1.neg) (b := x2.neg) (d := y2) (by simp [hd])
    rw [Lit.neg_neg, Lit.neg_neg] at m
    exact ⟨m.2.2, fun a b => m.2.1 b a, fun a b => m.1 b a⟩
  · have hd : d = .o2i ∨ d = .both := by cases d <;> simp_all
    have m1 := h.two' (a := y2) (b := x1) (by simp [hd])
    have m2 := h.two' (a := y2) (b := x2) (by simp [hd])
    exact ⟨m1.2, m2.2, m1.1, m2.1⟩

/-- The first `N` are derived. -/
def UpS (S : Lit → Prop) (l : List Lit) (N : Nat) : Prop := ∀ k, k < l.length → k < N → S (l.nth k)
/-- All from `N` on are refuted. -/
def DnS (S : Lit → Prop) (l : List Lit) (N : Nat) : Prop := ∀ k, k < l.length → N ≤ k → S (l.nth k).neg

/-- Outputs `2i-1` and `2i` of the merger. -/
def Pair (S : Lit → Prop) (c : Nat) (d : Dir) (odd even out : List Lit) (i : Nat) : Prop :=
  (i < odd.length → i - 1 < even.length → (2 * i - 1 < c → Comp1 S d (odd.nth i) (even.nth (i - 1)) (out.nth (2 * i - 1))) ∧
    (2 * i < c → Comp2 S d (odd.nth i) (even.nth (i - 1)) (out.nth (2 * i)))) ∧
  (i < odd.length → even.length ≤ i - 1 → 2 * i - 1 < c → out.nth (2 * i - 1) = odd.nth i) ∧
  (odd.length ≤ i → i - 1 < even.length → 2 * i - 1 < c → out.nth (2 * i - 1) = even.nth (i - 1))

theorem newLits_clauses (k : Nat) (s : ER) : (newLits k s).2.clauses = s.clauses := rfl

theorem mergeLoop_pairs {c P Q : Nat} {odd even : List Lit} {d : Dir}
    (hP : odd.length = min (c / 2 + 1) P) (hQ : even.length = min (c / 2) Q) (h1 : Q ≤ P) (h2 : P ≤ Q + 2) :
    ∀ (fuel i : Nat) (out : List Lit) (s : ER) (out' : List Lit) (s' : ER), 1 ≤ i → out.length = 2 * i - 1 → out.length < c →
      mergeLoop c odd even d fuel i out s = some (out', s') →
      (∀ x ∈ s.clauses, x ∈ s'.clauses) ∧ (∀ k, k < out.length → out'.nth k = out.nth k) ∧
      ∀ S, ClN S s'.clauses → ∀ j, i ≤ j → Pair S c d odd even out' j := by
  intro fuel
  induction fuel with
  | zero => intro i out s out' s' _ _ _ h; simp [mergeLoop] at h
  | succ fuel ih =>
    intro i out s out' s' hi hlen hlt h
    simp only [mergeLoop] at h
    by_cases hb : i < odd.length ∧ i - 1 < even.length
    · rw [if_pos hb] at h
      by_cases hc2 : out.length + 2 ≤ c
      · rw [if_pos hc2] at h
        generalize hz : (newLits 2 s).1 = z at h
        cases hcmp : comp2 (odd.nth i) (even.nth (i - 1)) (z.nth 0) (z.nth 1) d with
        | none => rw [hcmp] at h; simp at h
        | some cs =>
          rw [hcmp] at h
          simp only [Option.bind_some] at h
          by_cases he : out.length + 2 = c
          · rw [if_pos he] at h
            simp only [Option.some.injEq, Prod.mk.injEq] at h
            obtain ⟨rfl, rfl⟩ := h
            refine ⟨fun x hx => mem_addClauses.2 (.inl hx), fun k hk => nth_append_left hk, fun S hS j hj => ?_⟩
            by_cases hji : j = i
            · subst hji
              have hc := comp2_up hcmp (hS.mono fun x hx => mem_addClauses.2 (.inr hx))
              refine ⟨fun _ _ => ⟨fun _ => ?_, fun _ => ?_⟩, fun _ h => by omega, fun h => by omega⟩
              · rw [← hlen, nth_append_len]; exact hc.1
              · rw [show 2 * j = out.length + 1 by omega, nth_append_len1]; exact hc.2
            · exact ⟨fun _ _ => ⟨fun _ => by omega, fun _ => by omega⟩, fun _ _ _ => by omega, fun _ _ _ => by omega⟩
          · rw [if_neg he] at h
            obtain ⟨m1, m2, m3⟩ := ih (i + 1) _ _ _ _ (by omega) (by simp; omega) (by simp; omega) h
            refine ⟨fun x hx => m1 x (mem_addClauses.2 (.inl hx)), fun k hk => ?_, fun S hS j hj => ?_⟩
            · rw [m2 k (by simp; omega), nth_append_left hk]
            · by_cases hji : j = i
              · subst hji
                have hc := comp2_up hcmp (hS.mono fun x hx => m1 x (mem_addClauses.2 (.inr hx)))
                refine ⟨fun _ _ => ⟨fun _ => ?_, fun _ => ?_⟩, fun _ h => by omega, fun h => by omega⟩
                · rw [← hlen, m2 _ (by simp), nth_append_len]; exact hc.1
                · rw [show 2 * j = out.length + 1 by omega, m2 _ (by simp), nth_append_len1]; exact hc.2
              · exact m3 S hS j (by omega)
      · rw [if_neg hc2] at h
        have he : out.length + 1 = c := by omega
        rw [if_pos he] at h
        generalize hz : (newLits 1 s).1 = z at h
        cases hcmp : comp1 (odd.nth i) (even.nth (i - 1)) (z.nth 0) d with
        | none => rw [hcmp] at h; simp at h
        | some cs =>
          rw [hcmp] at h
          simp only [Option.bind_some, Option.some.injEq, Prod.mk.injEq] at h
          obtain ⟨rfl, rfl⟩ := h
          refine ⟨fun x hx => mem_addClauses.2 (.inl hx), fun k hk => nth_append_left hk, fun S hS j hj => ?_⟩
          by_cases hji : j = i
          · subst hji
            have hc := comp1_up hcmp (hS.mono fun x hx => mem_addClauses.2 (.inr hx))
            refine ⟨fun _ _ => ⟨fun _ => ?_, fun _ => by omega⟩, fun _ h => by omega, fun h => by omega⟩
            rw [← hlen, nth_append_len]; exact hc
          · exact ⟨fun _ _ => ⟨fun _ => by omega, fun _ => by omega⟩, fun _ _ _ => by omega, fun _ _ _ => by omega⟩
    · rw [if_neg hb] at h
      -- after the last element of one list both lists are used up
      have fin : ∀ (out1 out' : List Lit) (s s' : ER) (fuel i : Nat), odd.length ≤ i → even.length ≤ i - 1 →
          mergeLoop c odd even d fuel i out1 s = some (out', s') → out' = out1 ∧ s' = s := by
        intro out1 out' s s' fuel i ho he h
        cases fuel with
        | zero => simp [mergeLoop] at h
        | succ fuel =>
          simp only [mergeLoop] at h
          rw [if_neg (by omega), if_pos ⟨ho, he⟩] at h
          simp only [Option.some.injEq, Prod.mk.injEq] at h
          exact ⟨h.1.symm, h.2.symm⟩
      by_cases hf : i ≥ odd.length ∧ i - 1 ≥ even.length
      · rw [if_pos hf] at h
        simp only [Option.some.injEq, Prod.mk.injEq] at h
        obtain ⟨rfl, rfl⟩ := h
        exact ⟨fun x hx => hx, fun k _ => rfl, fun S _ j hj => ⟨fun h => by omega, fun h => by omega, fun _ h => by omega⟩⟩
      · rw [if_neg hf] at h
        by_cases ho : i ≥ odd.length
        · rw [if_pos ho] at h
          obtain ⟨rfl, rfl⟩ := fin _ _ _ _ _ _ (by omega) (by omega) h
          refine ⟨fun x hx => hx, fun k hk => nth_append_left hk, fun S _ j hj => ?_⟩
          refine ⟨fun h => by omega, fun h => by omega, fun _ h _ => ?_⟩
          have : j = i := by omega
          subst this
          rw [← hlen, nth_append_len]
          congr 1; omega
        · rw [if_neg ho] at h
          obtain ⟨rfl, rfl⟩ := fin _ _ _ _ _ _ (by omega) (by omega) h
          refine ⟨fun x hx => hx, fun k hk => nth_append_left hk, fun S _ j hj => ?_⟩
          refine ⟨fun _ h => by omega, fun h _ _ => ?_, fun _ h => by omega⟩
          have : j = i := by omega
          subst this
          rw [← hlen, nth_append_len]
          congr 1; omega

/-! ### One level of odd-even merging -/

section level
variable {S : Lit → Prop} {c P Q O E : Nat} {d : Dir} {odd even out : List Lit}

structure Lv (S : Lit → Prop) (c P Q : Nat) (d : Dir) (odd even out : List Lit) : Prop where
  hP : odd.length = min (c / 2 + 1) P
  hQ : even.length = min (c / 2) Q
  h1 : Q ≤ P
  h2 : P ≤ Q + 2
  h3 : c ≤ P + Q
  hc : 1 ≤ c
  len : out.length = c
  zero : out.nth 0 = odd.nth 0
  pair : ∀ j, 1 ≤ j → Pair S c d odd even out j

theorem Lv.up (L : Lv S c P Q d odd even out) (hd : d ≠ .o2i) (e1 : E ≤ O) (e2 : O ≤ E + 2) (hO : O ≤ P) (hE : E ≤ Q) (u1 : UpS S odd O)
    (u2 : UpS S even E) : UpS S out (O + E) := by
  obtain ⟨hP, hQ, h1, h2, h3, hc, len, zero, pair⟩ := L
  intro k k1 k2
  rw [len] at k1
  by_cases k0 : k = 0
  · subst k0; rw [zero]; exact u1 0 (by omega) (by omega)
  obtain ⟨i, hi, hk⟩ : ∃ i, 1 ≤ i ∧ (k = 2 * i - 1 ∨ k = 2 * i) := ⟨(k + 1) / 2, by omega, by omega⟩
  have p := pair i hi
  rcases hk with hk | hk
  · by_cases x1 : i < odd.length
    · by_cases x2 : i - 1 < even.length
      · have := ((p.1 x1 x2).1 (by omega)).up hd
        rw [hk]
        by_cases h : i < O
        · exact this.1 (u1 i x1 h)
        · exact this.2.1 (u2 _ x2 (by omega))
      · rw [hk, p.2.1 x1 (by omega) (by omega)]
        exact u1 i x1 (by omega)
    · by_cases x2 : i - 1 < even.length
      · rw [hk, p.2.2 (by omega) x2 (by omega)]
        exact u2 _ x2 (by omega)
      · omega
  · have := ((p.1 (by omega) (by omega)).2 (by omega)).up hd
    rw [hk]
    exact this.1 (u1 _ (by omega) (by omega)) (u2 _ (by omega) (by omega))

theorem Lv.upBack (L : Lv S c P Q d odd even out) (hd : d ≠ .o2i) (e1 : E ≤ O) (hO : O ≤ P) (hE : E ≤ Q) (u1 : UpS S odd O)
    (u2 : UpS S even E) (hN : O + E < c) (h : S (out.nth (O + E)).neg) :
    (O = E → O < odd.length ∧ S (odd.nth O).neg) ∧ (O = E + 1 → (O < odd.length → S (odd.nth O).neg) ∧ (E < even.length → S (even.nth E).neg)) ∧
    (O = E + 2 → E < even.length → S (even.nth E).neg) := by
  obtain ⟨hP, hQ, h1, h2, h3, hc, len, zero, pair⟩ := L
  refine ⟨fun he => ?_, fun he => ?_, fun he hl => ?_⟩
  · refine ⟨by omega, ?_⟩
    by_cases h0 : O = 0
    · have : E = 0 := by omega
      subst h0; subst this
      rw [← zero]; exact h
    · have := (((pair O (by omega)).1 (by omega) (by omega)).2 (by omega)).up hd
      refine this.2.2 ?_ (u2 _ (by omega) (by omega))
      rwa [show 2 * O = O + E by omega]
  · have p := pair O (by omega)
    have e : O + E = 2 * O - 1 := by omega
    rw [e] at h
    by_cases x1 : O < odd.length
    · by_cases x2 : O - 1 < even.length
      · have := ((p.1 x1 x2).1 (by omega)).up hd
        rw [show O - 1 = E by omega] at this
        exact ⟨fun _ => this.2.2.1 h, fun _ => this.2.2.2 h⟩
      · refine ⟨fun _ => ?_, fun _ => by omega⟩
        rw [p.2.1 x1 (by omega) (by omega)] at h; exact h
    · refine ⟨fun h => absurd h x1, fun hl => ?_⟩
      rw [p.2.2 (by omega) (by omega) (by omega), show O - 1 = E by omega] at h; exact h
  · have := (((pair (E + 1) (by omega)).1 (by omega) (by omega)).2 (by omega)).up hd
    rw [show E + 1 - 1 = E by omega] at this
    refine this.2.1 ?_ (u1 _ (by omega) (by omega))
    rwa [show 2 * (E + 1) = O + E by omega]

theorem Lv.dn (L : Lv S c P Q d odd even out) (hd : d ≠ .i2o) (e1 : E ≤ O) (e2 : O ≤ E + 2) (u1 : DnS S odd O)
    (u2 : DnS S even E) : DnS S out (O + E) := by
  obtain ⟨hP, hQ, h1, h2, h3, hc, len, zero, pair⟩ := L
  intro k k1 k2
  rw [len] at k1
  by_cases k0 : k = 0
  · subst k0; rw [zero]; exact u1 0 (by omega) (by omega)
  obtain ⟨i, hi, hk⟩ : ∃ i, 1 ≤ i ∧ (k = 2 * i - 1 ∨ k = 2 * i) := ⟨(k + 1) / 2, by omega, by omega⟩
  have p := pair i hi
  rcases hk with hk | hk
  · by_cases x1 : i < odd.length
    · by_cases x2 : i - 1 < even.length
      · have := ((p.1 x1 x2).1 (by omega)).dn hd
        rw [hk]
        exact this.1 (u1 _ x1 (by omega)) (u2 _ x2 (by omega))
      · rw [hk, p.2.1 x1 (by omega) (by omega)]
        exact u1 i x1 (by omega)
    · by_cases x2 : i - 1 < even.length
      · rw [hk, p.2.2 (by omega) x2 (by omega)]
        exact u2 _ x2 (by omega)
      · omega
  · have := ((p.1 (by omega) (by omega)).2 (by omega)).dn hd
    rw [hk]
    by_cases h : O ≤ i
    · exact this.1 (u1 _ (by omega) h)
    · exact this.2.1 (u2 _ (by omega) (by omega))

theorem Lv.dnBack (L : Lv S c P Q d odd even out) (hd : d ≠ .i2o) (e1 : E ≤ O) (hO : O ≤ P) (hE : E ≤ Q) (u1 : DnS S odd O)
    (u2 : DnS S even E) (hN : O + E ≤ c) (hN1 : 1 ≤ O + E) (h : S (out.nth (O + E - 1))) :
    (O = E → S (even.nth (E - 1))) ∧ (O = E + 1 → S (odd.nth (O - 1)) ∧ (1 ≤ E → S (even.nth (E - 1)))) ∧
    (O = E + 2 → S (odd.nth (O - 1))) := by
  obtain ⟨hP, hQ, h1, h2, h3, hc, len, zero, pair⟩ := L
  refine ⟨fun he => ?_, fun he => ?_, fun he => ?_⟩
  · have p := pair O (by omega)
    rw [show O + E - 1 = 2 * O - 1 by omega] at h
    rw [show E - 1 = O - 1 by omega]
    by_cases x1 : O < odd.length
    · exact (((p.1 x1 (by omega)).1 (by omega)).dn hd).2.1 h (u1 _ x1 (by omega))
    · rw [p.2.2 (by omega) (by omega) (by omega)] at h; exact h
  · by_cases h0 : E = 0
    · subst h0
      rw [show O + 0 - 1 = 0 by omega, zero] at h
      rw [show O - 1 = 0 by omega]
      exact ⟨h, fun h => by omega⟩
    · have := (((pair E (by omega)).1 (by omega) (by omega)).2 (by omega)).dn hd
      rw [show O + E - 1 = 2 * E by omega] at h
      rw [show O - 1 = E by omega]
      exact ⟨this.2.2.1 h, fun _ => this.2.2.2 h⟩
  · have p := pair (E + 1) (by omega)
    rw [show O + E - 1 = 2 * (E + 1) - 1 by omega] at h
    rw [show O - 1 = E + 1 by omega]
    by_cases x2 : E < even.length
    · exact (((p.1 (by omega) (by omega)).1 (by omega)).dn hd).2.2 h (u2 _ (by omega) (by omega))
    · rw [p.2.1 (by omega) (by omega) (by omega)] at h; exact h

end level

/-! ### The merger -/

/-- What a merger propagates. -/
structure MergeP (S : Lit → Prop) (d : Dir) (a b out : List Lit) : Prop where
  up : d ≠ .o2i → ∀ A B, A ≤ a.length → B ≤ b.length → UpS S a A → UpS S b B → UpS S out (A + B)
  upBack : d ≠ .o2i → ∀ A B, A ≤ a.length → B ≤ b.length → UpS S a A → UpS S b B → A + B < out.length → S (out.nth (A + B)).neg →
    (A < a.length → S (a.nth A).neg) ∧ (B < b.length → S (b.nth B).neg)
  dn : d ≠ .i2o → ∀ A B, A ≤ a.length → B ≤ b.length → DnS S a A → DnS S b B → DnS S out (A + B)
  dnBack : d ≠ .i2o → ∀ A B, A ≤ a.length → B ≤ b.length → DnS S a A → DnS S b B → 1 ≤ A + B → A + B ≤ out.length →
    S (out.nth (A + B - 1)) → (1 ≤ A → S (a.nth (A - 1))) ∧ (1 ≤ B → S (b.nth (B - 1)))

theorem MergeP.nilL {S d b} : MergeP S d [] b b := by
  constructor
  · intro _ A B hA _ _ uB; simp at hA; subst hA; rwa [Nat.zero_add]
  · intro _ A B hA _ _ _ hN h; simp at hA; subst hA; rw [Nat.zero_add] at h; exact ⟨fun h => by simp at h, fun _ => h⟩
  · intro _ A B hA _ _ uB; simp at hA; subst hA; rwa [Nat.zero_add]
  · intro _ A B hA _ _ _ _ hN h; simp at hA; subst hA; rw [Nat.zero_add] at h; exact ⟨fun h => by omega, fun _ => h⟩

theorem MergeP.nilR {S d a} : MergeP S d a [] a := by
  constructor
  · intro _ A B _ hA uB _; simp at hA; subst hA; exact uB
  · intro _ A B _ hA _ _ hN h; simp at hA; subst hA; exact ⟨fun _ => h, fun h => by simp at h⟩
  · intro _ A B _ hA uB _; simp at hA; subst hA; exact uB
  · intro _ A B _ hA _ _ _ hN h; simp at hA; subst hA; exact ⟨fun _ => h, fun h => by omega⟩

theorem MergeP.nil {S d a b} : MergeP S d a b [] := by
  constructor
  · intro _ A B _ _ _ _ k hk; simp at hk
  · intro _ A B _ _ _ _ hk; simp at hk
  · intro _ A B _ _ _ _ k hk; simp at hk
  · intro _ A B _ _ _ _ h hk; simp at hk; omega

section lists
variable {S : Lit → Prop} {k A : Nat} {l : List Lit}

theorem odds_upS (hk : k ≤ l.length) (h : UpS S l A) : UpS S (oddsOf k l) ((A + 1) / 2) := by
  intro i hi h2; rw [oddsOf_length] at hi; rw [oddsOf_nth hi]; exact h _ (by omega) (by omega)
theorem evens_upS (hk : k ≤ l.length) (h : UpS S l A) : UpS S (evensOf k l) (A / 2) := by
  intro i hi h2; rw [evensOf_length] at hi; rw [evensOf_nth hi]; exact h _ (by omega) (by omega)
theorem odds_dnS (hk : k ≤ l.length) (h : DnS S l A) : DnS S (oddsOf k l) ((A + 1) / 2) := by
  intro i hi h2; rw [oddsOf_length] at hi; rw [oddsOf_nth hi]; exact h _ (by omega) (by omega)
theorem evens_dnS (hk : k ≤ l.length) (h : DnS S l A) : DnS S (evensOf k l) (A / 2) := by
  intro i hi h2; rw [evensOf_length] at hi; rw [evensOf_nth hi]; exact h _ (by omega) (by omega)
theorem UpS.mono {A' : Nat} (h : UpS S l A) (hA : A' ≤ A) : UpS S l A' := fun k k1 k2 => h k k1 (by omega)
end lists

theorem Lv.lenO {S c P Q d odd even out} (L : Lv S c P Q d odd even out) {n : Nat} (h1 : n ≤ c / 2) (h2 : n < P) : n < odd.length := by
  rw [L.hP]; omega
theorem Lv.lenE {S c P Q d odd even out} (L : Lv S c P Q d odd even out) {n : Nat} (h1 : n < c / 2) (h2 : n < Q) : n < even.length := by
  rw [L.hQ]; omega

private theorem odd_at {l : List Lit} {k A : Nat} (h1 : A % 2 = 0) (h2 : A < k) : (oddsOf k l).nth ((A + 1) / 2) = l.nth A := by
  rw [oddsOf_nth (by omega)]; congr 1; omega
private theorem even_at {l : List Lit} {k A : Nat} (h1 : A % 2 = 1) (h2 : A < k) : (evensOf k l).nth (A / 2) = l.nth A := by
  rw [evensOf_nth (by omega)]; congr 1; omega
private theorem odd_before {l : List Lit} {k A : Nat} (h1 : A % 2 = 1) (h2 : A ≤ k) : (oddsOf k l).nth ((A + 1) / 2 - 1) = l.nth (A - 1) := by
  rw [oddsOf_nth (by omega)]; congr 1; omega
private theorem even_before {l : List Lit} {k A : Nat} (h1 : A % 2 = 0) (h0 : 1 ≤ A) (h2 : A ≤ k) : (evensOf k l).nth (A / 2 - 1) = l.nth (A - 1) := by
  rw [evensOf_nth (by omega)]; congr 1; omega

private theorem sum_halves (A B : Nat) : (A + 1) / 2 + (B + 1) / 2 + (A / 2 + B / 2) = A + B := by omega

section level2
variable {S : Lit → Prop} {c : Nat} {d : Dir} {a b odd even out : List Lit} {a2 b2 : Nat}

theorem level_upS (M1 : MergeP S d (oddsOf a2 a) (oddsOf b2 b) odd) (M2 : MergeP S d (evensOf a2 a) (evensOf b2 b) even) (ka : a2 ≤ a.length) (kb : b2 ≤ b.length)
    (hd : d ≠ .o2i) {A B : Nat} (hA : A ≤ a2) (hB : B ≤ b2) (uA : UpS S a A) (uB : UpS S b B) :
    UpS S odd ((A + 1) / 2 + (B + 1) / 2) ∧ UpS S even (A / 2 + B / 2) :=
  ⟨M1.up hd _ _ (by rw [oddsOf_length]; omega) (by rw [oddsOf_length]; omega) (odds_upS ka uA) (odds_upS kb uB),
    M2.up hd _ _ (by rw [evensOf_length]; omega) (by rw [evensOf_length]; omega) (evens_upS ka uA) (evens_upS kb uB)⟩

theorem level_dnS (M1 : MergeP S d (oddsOf a2 a) (oddsOf b2 b) odd) (M2 : MergeP S d (evensOf a2 a) (evensOf b2 b) even) (ka : a2 ≤ a.length) (kb : b2 ≤ b.length)
    (hd : d ≠ .i2o) {A B : Nat} (hA : A ≤ a2) (hB : B ≤ b2) (uA : DnS S a A) (uB : DnS S b B) :
    DnS S odd ((A + 1) / 2 + (B + 1) / 2) ∧ DnS S even (A / 2 + B / 2) :=
  ⟨M1.dn hd _ _ (by rw [oddsOf_length]; omega) (by rw [oddsOf_length]; omega) (odds_dnS ka uA) (odds_dnS kb uB),
    M2.dn hd _ _ (by rw [evensOf_length]; omega) (by rw [evensOf_length]; omega) (evens_dnS ka uA) (evens_dnS kb uB)⟩

theorem level_upBack (M1 : MergeP S d (oddsOf a2 a) (oddsOf b2 b) odd) (M2 : MergeP S d (evensOf a2 a) (evensOf b2 b) even)
    (L : Lv S c ((a2 + 1) / 2 + (b2 + 1) / 2) (a2 / 2 + b2 / 2) d odd even out) (ka : a2 ≤ a.length) (kb : b2 ≤ b.length) (hd : d ≠ .o2i) {A B : Nat}
    (hA : A ≤ a2) (hB : B ≤ b2) (uA : UpS S a A) (uB : UpS S b B) (hN : A + B < c) (h : S (out.nth (A + B)).neg) :
    (A < a2 → S (a.nth A).neg) ∧ (B < b2 → S (b.nth B).neg) := by
  obtain ⟨u1, u2⟩ := level_upS M1 M2 ka kb hd hA hB uA uB
  have := L.upBack hd (by omega) (by omega) (by omega) u1 u2 (by rw [sum_halves]; exact hN) (by rw [sum_halves]; exact h)
  have B1 := M1.upBack hd ((A + 1) / 2) ((B + 1) / 2) (by rw [oddsOf_length]; omega) (by rw [oddsOf_length]; omega) (odds_upS ka uA) (odds_upS kb uB)
  have B2 := M2.upBack hd (A / 2) (B / 2) (by rw [evensOf_length]; omega) (by rw [evensOf_length]; omega) (evens_upS ka uA) (evens_upS kb uB)
  rw [oddsOf_length, oddsOf_length] at B1
  rw [evensOf_length, evensOf_length] at B2
  clear h u1 u2 ka kb
  rcases Nat.mod_two_eq_zero_or_one A with pa | pa <;> rcases Nat.mod_two_eq_zero_or_one B with pb | pb
  · obtain ⟨q1, q2⟩ := this.1 (by omega)
    have B1 := B1 q1 q2
    refine ⟨fun hl => ?_, fun hl => ?_⟩
    · have := B1.1 (by omega); rwa [odd_at pa hl] at this
    · have := B1.2 (by omega); rwa [odd_at pb hl] at this
  · obtain ⟨q1, q2⟩ := this.2.1 (by omega)
    refine ⟨fun hl => ?_, fun hl => ?_⟩
    · have hlt := L.lenO (n := (A + 1) / 2 + (B + 1) / 2) (by omega) (by omega)
      have := (B1 hlt (q1 hlt)).1 (by omega); rwa [odd_at pa hl] at this
    · have hlt := L.lenE (n := A / 2 + B / 2) (by omega) (by omega)
      have := (B2 hlt (q2 hlt)).2 (by omega); rwa [even_at pb hl] at this
  · obtain ⟨q1, q2⟩ := this.2.1 (by omega)
    refine ⟨fun hl => ?_, fun hl => ?_⟩
    · have hlt := L.lenE (n := A / 2 + B / 2) (by omega) (by omega)
      have := (B2 hlt (q2 hlt)).1 (by omega); rwa [even_at pa hl] at this
    · have hlt := L.lenO (n := (A + 1) / 2 + (B + 1) / 2) (by omega) (by omega)
      have := (B1 hlt (q1 hlt)).2 (by omega); rwa [odd_at pb hl] at this
  · have q2 := this.2.2 (by omega)
    refine ⟨fun hl => ?_, fun hl => ?_⟩
    · have hlt := L.lenE (n := A / 2 + B / 2) (by omega) (by omega)
      have := (B2 hlt (q2 hlt)).1 (by omega); rwa [even_at pa hl] at this
    · have hlt := L.lenE (n := A / 2 + B / 2) (by omega) (by omega)
      have := (B2 hlt (q2 hlt)).2 (by omega); rwa [even_at pb hl] at this

theorem level_dnBack (M1 : MergeP S d (oddsOf a2 a) (oddsOf b2 b) odd) (M2 : MergeP S d (evensOf a2 a) (evensOf b2 b) even)
    (L : Lv S c ((a2 + 1) / 2 + (b2 + 1) / 2) (a2 / 2 + b2 / 2) d odd even out) (ka : a2 ≤ a.length) (kb : b2 ≤ b.length) (hd : d ≠ .i2o) {A B : Nat}
    (hA : A ≤ a2) (hB : B ≤ b2) (uA : DnS S a A) (uB : DnS S b B) (hN1 : 1 ≤ A + B) (hN : A + B ≤ c) (h : S (out.nth (A + B - 1))) :
    (1 ≤ A → S (a.nth (A - 1))) ∧ (1 ≤ B → S (b.nth (B - 1))) := by
  obtain ⟨u1, u2⟩ := level_dnS M1 M2 ka kb hd hA hB uA uB
  have := L.dnBack hd (by omega) (by omega) (by omega) u1 u2 (by rw [sum_halves]; exact hN) (by rw [sum_halves]; exact hN1) (by rw [sum_halves]; exact h)
  have lO : (A + 1) / 2 + (B + 1) / 2 ≤ odd.length := by
    by_cases h0 : (A + 1) / 2 + (B + 1) / 2 = 0
    · omega
    · have := L.lenO (n := (A + 1) / 2 + (B + 1) / 2 - 1) (by omega) (by omega); omega
  have lE : A / 2 + B / 2 ≤ even.length := by
    by_cases h0 : A / 2 + B / 2 = 0
    · omega
    · have := L.lenE (n := A / 2 + B / 2 - 1) (by omega) (by omega); omega
  have B1 := M1.dnBack hd ((A + 1) / 2) ((B + 1) / 2) (by rw [oddsOf_length]; omega) (by rw [oddsOf_length]; omega) (odds_dnS ka uA) (odds_dnS kb uB)
  have B2 := M2.dnBack hd (A / 2) (B / 2) (by rw [evensOf_length]; omega) (by rw [evensOf_length]; omega) (evens_dnS ka uA) (evens_dnS kb uB)
  clear h u1 u2 ka kb
  rcases Nat.mod_two_eq_zero_or_one A with pa | pa <;> rcases Nat.mod_two_eq_zero_or_one B with pb | pb
  · have B2 := B2 (by omega) lE (this.1 (by omega))
    refine ⟨fun hl => ?_, fun hl => ?_⟩
    · have := B2.1 (by omega); rwa [even_before pa hl hA] at this
    · have := B2.2 (by omega); rwa [even_before pb hl hB] at this
  · obtain ⟨q1, q2⟩ := this.2.1 (by omega)
    refine ⟨fun hl => ?_, fun hl => ?_⟩
    · have := (B2 (by omega) lE (q2 (by omega))).1 (by omega); rwa [even_before pa hl hA] at this
    · have := (B1 (by omega) lO q1).2 (by omega); rwa [odd_before pb hB] at this
  · obtain ⟨q1, q2⟩ := this.2.1 (by omega)
    refine ⟨fun hl => ?_, fun hl => ?_⟩
    · have := (B1 (by omega) lO q1).1 (by omega); rwa [odd_before pa hA] at this
    · have := (B2 (by omega) lE (q2 (by omega))).2 (by omega); rwa [even_before pb hl hB] at this
  · have B1 := B1 (by omega) lO (this.2.2 (by omega))
    refine ⟨fun hl => ?_, fun hl => ?_⟩
    · have := B1.1 (by omega); rwa [odd_before pa hA] at this
    · have := B1.2 (by omega); rwa [odd_before pb hB] at this

/-- One level of the merger, given the two smaller mergers. -/
theorem level_merge (ha2 : a2 = min c a.length) (hb2 : b2 = min c b.length)
    (M1 : MergeP S d (oddsOf a2 a) (oddsOf b2 b) odd) (M2 : MergeP S d (evensOf a2 a) (evensOf b2 b) even)
    (L : Lv S c ((a2 + 1) / 2 + (b2 + 1) / 2) (a2 / 2 + b2 / 2) d odd even out) : MergeP S d a b out := by
  have ka : a2 ≤ a.length := by omega
  have kb : b2 ≤ b.length := by omega
  have lout := L.len
  refine ⟨?_, ?_, ?_, ?_⟩
  · intro hd A B hA hB uA uB
    obtain ⟨u1, u2⟩ := level_upS M1 M2 ka kb hd (A := min A a2) (B := min B b2) (by omega) (by omega) (uA.mono (by omega)) (uB.mono (by omega))
    have := L.up hd (by omega) (by omega) (by omega) (by omega) u1 u2
    rw [sum_halves] at this
    exact fun k k1 k2 => this k k1 (by omega)
  · intro hd A B hA hB uA uB hN h
    have := level_upBack M1 M2 L ka kb hd (A := A) (B := B) (by omega) (by omega) uA uB (by omega) h
    exact ⟨fun hl => this.1 (by omega), fun hl => this.2 (by omega)⟩
  · intro hd A B hA hB uA uB k k1 k2
    obtain ⟨u1, u2⟩ := level_dnS M1 M2 ka kb hd (A := A) (B := B) (by omega) (by omega) uA uB
    have := L.dn hd (by omega) (by omega) u1 u2
    rw [sum_halves] at this
    exact this k k1 k2
  · intro hd A B hA hB uA uB hN1 hN h
    exact level_dnBack M1 M2 L ka kb hd (by omega) (by omega) uA uB hN1 (by omega) h

end level2

theorem comp1_merge {S d} {a b : List Lit} {z : Lit} (la : 0 < a.length) (lb : 0 < b.length) (h : Comp1 S d (a.nth 0) (b.nth 0) z) :
    MergeP S d a b [z] := by
  constructor
  · intro hd A B hA hB uA uB k k1 k2
    simp at k1; subst k1
    show S z
    by_cases h0 : 0 < A
    · exact (h.up hd).1 (uA 0 la h0)
    · exact (h.up hd).2.1 (uB 0 lb (by omega))
  · intro hd A B hA hB uA uB hN hz
    simp at hN
    obtain ⟨rfl, rfl⟩ := hN
    exact ⟨fun _ => (h.up hd).2.2.1 hz, fun _ => (h.up hd).2.2.2 hz⟩
  · intro hd A B hA hB uA uB k k1 k2
    simp at k1; subst k1
    exact (h.dn hd).1 (uA 0 la (by omega)) (uB 0 lb (by omega))
  · intro hd A B hA hB uA uB h1 hN hz
    simp at hN
    rw [show A + B - 1 = 0 by omega] at hz
    refine ⟨fun hl => ?_, fun hl => ?_⟩
    · rw [show A - 1 = 0 by omega]; exact (h.dn hd).2.2 hz (uB 0 lb (by omega))
    · rw [show B - 1 = 0 by omega]; exact (h.dn hd).2.1 hz (uA 0 la (by omega))

theorem comp2_merge {S d} {x1 x2 z0 z1 : Lit} (h : Comp1 S d x1 x2 z0) (h' : Comp2 S d x1 x2 z1) : MergeP S d [x1] [x2] [z0, z1] := by
  constructor
  · intro hd A B hA hB uA uB k k1 k2
    have hk : k = 0 ∨ k = 1 := by simp at k1; omega
    simp at hA hB
    rcases hk with rfl | rfl
    · show S z0
      by_cases h0 : 0 < A
      · exact (h.up hd).1 (uA 0 (by simp) h0)
      · exact (h.up hd).2.1 (uB 0 (by simp) (by omega))
    · exact (h'.up hd).1 (uA 0 (by simp) (by omega)) (uB 0 (by simp) (by omega))
  · intro hd A B hA hB uA uB hN hz
    simp at hA hB hN
    refine ⟨fun hl => ?_, fun hl => ?_⟩
    · have : A = 0 := by simp at hl; omega
      subst this
      by_cases hB0 : B = 0
      · subst hB0; exact (h.up hd).2.2.1 hz
      · rw [show B = 1 by omega] at hz
        exact (h'.up hd).2.2 hz (uB 0 (by simp) (by omega))
    · have : B = 0 := by simp at hl; omega
      subst this
      by_cases hB0 : A = 0
      · subst hB0; exact (h.up hd).2.2.2 hz
      · rw [show A = 1 by omega] at hz
        exact (h'.up hd).2.1 hz (uA 0 (by simp) (by omega))
  · intro hd A B hA hB uA uB k k1 k2
    have hk : k = 0 ∨ k = 1 := by simp at k1; omega
    rcases hk with rfl | rfl
    · exact (h.dn hd).1 (uA 0 (by simp) (by omega)) (uB 0 (by simp) (by omega))
    · show S z1.neg
      by_cases h0 : A = 0
      · exact (h'.dn hd).1 (uA 0 (by simp) (by omega))
      · exact (h'.dn hd).2.1 (uB 0 (by simp) (by omega))
  · intro hd A B hA hB uA uB h1 hN hz
    simp at hA hB
    by_cases h2 : A + B = 2
    · rw [h2] at hz
      rw [show A = 1 by omega, show B = 1 by omega]
      exact ⟨fun _ => (h'.dn hd).2.2.1 hz, fun _ => (h'.dn hd).2.2.2 hz⟩
    · rw [show A + B - 1 = 0 by omega] at hz
      refine ⟨fun hl => ?_, fun hl => ?_⟩
      · rw [show A = 1 by omega]; exact (h.dn hd).2.2 hz (uB 0 (by simp) (by omega))
      · rw [show B = 1 by omega]; exact (h.dn hd).2.1 hz (uA 0 (by simp) (by omega))

theorem ccMerge_up : ∀ (fuel m : Nat) (a b : List Lit) (d : Dir) (s : ER) (out : List Lit) (s' : ER), d ≠ .i2o →
    (a = [] → b.length ≤ m) → (b = [] → a.length ≤ m) → ccMerge fuel m a b d s = some (out, s') →
    out.length = min m (a.length + b.length) ∧ (∀ x ∈ s.clauses, x ∈ s'.clauses) ∧ ∀ S, ClN S s'.clauses → MergeP S d a b out := by
  intro fuel
  induction fuel with
  | zero => intro m a b d s out s' _ _ _ h; simp [ccMerge] at h
  | succ fuel ih =>
    intro m a b d s out s' hd ha0 hb0 h
    simp only [ccMerge] at h
    by_cases hm : m = 0
    · rw [if_pos hm] at h
      simp only [Option.some.injEq, Prod.mk.injEq] at h
      obtain ⟨rfl, rfl⟩ := h
      exact ⟨by simp [hm], fun _ h => h, fun _ _ => .nil⟩
    rw [if_neg hm] at h
    by_cases hae : a = []
    · subst hae
      rw [if_pos (by simp)] at h
      simp only [Option.some.injEq, Prod.mk.injEq] at h
      obtain ⟨rfl, rfl⟩ := h
      exact ⟨by have := ha0 rfl; simp; omega, fun _ h => h, fun _ _ => .nilL⟩
    rw [if_neg (by simpa using hae)] at h
    by_cases hbe : b = []
    · subst hbe
      rw [if_pos (by simp)] at h
      simp only [Option.some.injEq, Prod.mk.injEq] at h
      obtain ⟨rfl, rfl⟩ := h
      exact ⟨by have := hb0 rfl; simp; omega, fun _ h => h, fun _ _ => .nilR⟩
    rw [if_neg (by simpa using hbe)] at h
    have la : 0 < a.length := List.length_pos_iff.2 hae
    have lb : 0 < b.length := List.length_pos_iff.2 hbe
    obtain ⟨c, hc⟩ : ∃ c, c = min m (a.length + b.length) := ⟨_, rfl⟩
    rw [← hc] at h ⊢
    have hc1 : 1 ≤ c := by omega
    rw [if_neg hd] at h
    obtain ⟨a2, ha2⟩ : ∃ a2, a2 = min c a.length := ⟨_, rfl⟩
    obtain ⟨b2, hb2⟩ : ∃ b2, b2 = min c b.length := ⟨_, rfl⟩
    rw [← ha2, ← hb2] at h
    by_cases hc' : c = 1
    · rw [if_pos hc'] at h
      cases hcmp : comp1 (a.nth 0) (b.nth 0) ((newLits 1 s).1.nth 0) d with
      | none => rw [hcmp] at h; simp at h
      | some cs =>
        rw [hcmp] at h
        simp only [Option.bind_some] at h
        rw [if_pos (by simp; omega)] at h
        simp only [Option.some.injEq, Prod.mk.injEq] at h
        obtain ⟨rfl, rfl⟩ := h
        refine ⟨by simp; omega, fun x hx => mem_addClauses.2 (.inl hx), fun S hS => ?_⟩
        exact comp1_merge la lb (comp1_up hcmp (hS.mono fun x hx => mem_addClauses.2 (.inr hx)))
    rw [if_neg hc'] at h
    by_cases hab : a2 = 1 ∧ b2 = 1
    · rw [if_pos hab, if_neg (by omega)] at h
      have la1 : a.length = 1 := by omega
      have lb1 : b.length = 1 := by omega
      obtain ⟨x1, rfl⟩ := List.length_eq_one_iff.1 la1
      obtain ⟨x2, rfl⟩ := List.length_eq_one_iff.1 lb1
      cases hcmp : comp2 ([x1].nth 0) ([x2].nth 0) ((newLits 2 s).1.nth 0) ((newLits 2 s).1.nth 1) d with
      | none => rw [hcmp] at h; simp at h
      | some cs =>
        rw [hcmp] at h
        simp only [Option.bind_some] at h
        rw [if_pos (by simp at hc ⊢; omega)] at h
        simp only [Option.some.injEq, Prod.mk.injEq] at h
        obtain ⟨rfl, rfl⟩ := h
        refine ⟨by simp at hc ⊢; omega, fun x hx => mem_addClauses.2 (.inl hx), fun S hS => ?_⟩
        have := comp2_up hcmp (hS.mono fun x hx => mem_addClauses.2 (.inr hx))
        exact comp2_merge this.1 this.2
    rw [if_neg hab] at h
    cases e1 : ccMerge fuel (c / 2 + 1) (oddsOf a2 a) (oddsOf b2 b) d s with
    | none => rw [e1] at h; simp at h
    | some r1 =>
      obtain ⟨odd, s1⟩ := r1
      rw [e1] at h
      simp only [Option.bind_some] at h
      cases e2 : ccMerge fuel (c / 2) (evensOf a2 a) (evensOf b2 b) d s1 with
      | none => rw [e2] at h; simp at h
      | some r2 =>
        obtain ⟨even, s2⟩ := r2
        rw [e2] at h
        simp only [Option.bind_some] at h
        cases e3 : mergeLoop c odd even d (odd.length + 2) 1 [odd.nth 0] s2 with
        | none => rw [e3] at h; simp at h
        | some r3 =>
          obtain ⟨out3, s3⟩ := r3
          rw [e3] at h
          simp only [Option.bind_some] at h
          by_cases hl : out3.length = c
          · rw [if_pos hl] at h
            simp only [Option.some.injEq, Prod.mk.injEq] at h
            obtain ⟨rfl, rfl⟩ := h
            obtain ⟨l1, m1, M1⟩ := ih _ _ _ _ _ _ _ hd
              (by intro h; have := oddsOf_length a2 a; rw [h] at this; simp at this; omega)
              (by intro h; have := oddsOf_length b2 b; rw [h] at this; simp at this; omega) e1
            obtain ⟨l2, m2, M2⟩ := ih _ _ _ _ _ _ _ hd (by intro _; rw [evensOf_length]; omega) (by intro _; rw [evensOf_length]; omega) e2
            rw [oddsOf_length, oddsOf_length] at l1
            rw [evensOf_length, evensOf_length] at l2
            obtain ⟨m3, pre, M3⟩ := mergeLoop_pairs l1 l2 (by omega) (by omega) _ 1 _ _ _ _ (by omega) (by simp) (by simp; omega) e3
            refine ⟨hl, fun x hx => m3 x (m2 x (m1 x hx)), fun S hS => ?_⟩
            refine level_merge ha2 hb2 (M1 S (hS.mono fun x hx => m3 x (m2 x hx))) (M2 S (hS.mono m3)) ?_
            exact ⟨l1, l2, by omega, by omega, by omega, hc1, hl, pre 0 (by simp), M3 S hS⟩
          · rw [if_neg hl] at h; simp at h

end Prop1
end Verif
