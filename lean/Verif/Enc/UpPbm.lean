import Verif.Enc.UpPb
import Verif.Enc.UpSort2
import Verif.Enc.PbMerge2

/-
Unit propagation on the binary merge encoding.
-/
namespace Verif
open ER
namespace Prop1

/-! ### Unary adders -/

/-- An adder of unary numbers with all clauses from inputs to outputs. -/
theorem add_merge {S : Lit → Prop} {a b out : List Lit} {cs : List Clause} (hS : ClN S cs)
    (h1 : ∀ i, i < a.length → i < out.length → [(a.nth i).neg, out.nth i] ∈ cs)
    (h2 : ∀ i, i < b.length → i < out.length → [(b.nth i).neg, out.nth i] ∈ cs)
    (h3 : ∀ i j, i < a.length → j < b.length → i + j + 1 < out.length → [(a.nth i).neg, (b.nth j).neg, out.nth (i + j + 1)] ∈ cs) :
    MergeP S .i2o a b out := by
  have g1 := fun i hi ho => hS.two' (h1 i hi ho)
  have g2 := fun i hi ho => hS.two' (h2 i hi ho)
  have g3 := fun i j hi hj ho => by have := hS.three (h3 i j hi hj ho); rwa [Lit.neg_neg, Lit.neg_neg] at this
  refine ⟨fun _ A B hA hB uA uB k hk hkAB => ?_, fun _ A B hA hB uA uB hN h => ⟨fun hl => ?_, fun hl => ?_⟩, fun h => absurd rfl h, fun h => absurd rfl h⟩
  · by_cases k1 : k < A
    · exact (g1 k (by omega) hk).1 (uA k (by omega) k1)
    by_cases k2 : k < B
    · exact (g2 k (by omega) hk).1 (uB k (by omega) k2)
    have := (g3 (A - 1) (k - A) (by omega) (by omega) (by omega)).2.2 (uA _ (by omega) (by omega)) (uB _ (by omega) (by omega))
    rwa [show A - 1 + (k - A) + 1 = k by omega] at this
  · by_cases hB0 : B = 0
    · subst hB0; exact (g1 A hl hN).2 h
    · have := (g3 A (B - 1) hl (by omega) (by omega)).1
      rw [show A + (B - 1) + 1 = A + B by omega] at this
      exact this (uB _ (by omega) (by omega)) h
  · by_cases hA0 : A = 0
    · subst hA0; rw [Nat.zero_add] at hN h; exact (g2 B hl hN).2 h
    · have := (g3 (A - 1) B (by omega) hl (by omega)).2.1
      rw [show A - 1 + B + 1 = A + B by omega] at this
      exact this (uA _ (by omega) (by omega)) h

theorem unaryAdder_up (u v : List Lit) (s : ER) : (unaryAdder u v s).1.length = u.length + v.length ∧
    (∀ c ∈ s.clauses, c ∈ (unaryAdder u v s).2.clauses) ∧ ∀ S, ClN S (unaryAdder u v s).2.clauses → MergeP S .i2o u v (unaryAdder u v s).1 := by
  unfold unaryAdder
  by_cases hu : u.isEmpty
  · rw [if_pos hu]
    have : u = [] := by simpa using hu
    subst this
    exact ⟨by simp, fun _ h => h, fun _ _ => .nilL⟩
  rw [if_neg hu]
  by_cases hv : v.isEmpty
  · rw [if_pos hv]
    have : v = [] := by simpa using hv
    subst this
    exact ⟨by simp, fun _ h => h, fun _ _ => .nilR⟩
  rw [if_neg hv]
  refine ⟨newPbLits_length _ _, fun c hc => mem_addClauses.2 (.inl hc), fun S hS => ?_⟩
  refine add_merge hS (fun i hi _ => ?_) (fun i hi _ => ?_) fun i j hi hj _ => ?_
  · exact mem_addClauses.2 (.inr (List.mem_append_right _ (List.mem_map.2 ⟨i, List.mem_range.2 hi, rfl⟩)))
  · exact mem_addClauses.2 (.inr (List.mem_append_left _ (List.mem_append_right _ (List.mem_map.2 ⟨i, List.mem_range.2 hi, rfl⟩))))
  · exact mem_addClauses.2 (.inr (List.mem_append_left _ (List.mem_append_left _ (List.mem_flatMap.2 ⟨i, List.mem_range.2 hi, List.mem_map.2 ⟨j, List.mem_range.2 hj, rfl⟩⟩))))

theorem ccMerge_i2o_up {fuel m : Nat} {a b : List Lit} {s : ER} {out : List Lit} {s' : ER} (ha : a ≠ []) (hb : b ≠ []) (hm : 1 ≤ m)
    (h : ccMerge fuel m a b .i2o s = some (out, s')) :
    out.length = min m (a.length + b.length) ∧ (∀ x ∈ s.clauses, x ∈ s'.clauses) ∧ ∀ S, ClN S s'.clauses → MergeP S .i2o a b out := by
  cases fuel with
  | zero => simp [ccMerge] at h
  | succ fuel =>
    simp only [ccMerge] at h
    rw [if_neg (by omega), if_neg (by simpa using ha), if_neg (by simpa using hb)] at h
    simp only [reduceIte, Option.some.injEq, directMerger, Prod.mk.injEq] at h
    obtain ⟨rfl, rfl⟩ := h
    have hl := newLits_length (min m (a.length + b.length)) s
    refine ⟨hl, fun c hc => mem_addClauses.2 (.inl hc), fun S hS => ?_⟩
    refine add_merge hS (fun i hi ho => ?_) (fun i hi ho => ?_) fun i j hi hj ho => ?_ <;> rw [hl] at ho
    · exact mem_addClauses.2 (.inr (List.mem_append_left _ (List.mem_append_left _ (List.mem_map.2 ⟨i, List.mem_range.2 (by omega), rfl⟩))))
    · exact mem_addClauses.2 (.inr (List.mem_append_left _ (List.mem_append_right _ (List.mem_map.2 ⟨i, List.mem_range.2 (by omega), rfl⟩))))
    · exact mem_addClauses.2 (.inr (List.mem_append_right _ (List.mem_flatMap.2 ⟨i, List.mem_range.2 hi, List.mem_flatMap.2 ⟨j, List.mem_range.2 hj, by rw [if_pos ho]; simp⟩⟩)))

theorem SortP.nil {S : Lit → Prop} {d : Dir} : SortP S d [] [] := by
  refine ⟨fun _ k hk => ?_, fun _ _ _ l hl => ?_, fun _ k hk => ?_, fun _ _ _ _ l hl => ?_⟩
  · simp at hk
  · simp at hl
  · simp at hk
  · simp at hl

theorem pbTotalizer_up : ∀ (fuel : Nat) (x : List Lit) (s : ER) (out : List Lit) (s' : ER), pbTotalizer fuel x s = some (out, s') →
    out.length = x.length ∧ (∀ c ∈ s.clauses, c ∈ s'.clauses) ∧ ∀ S, ClN S s'.clauses → SortP S .i2o x out := by
  intro fuel
  induction fuel with
  | zero => intro x s out s' h; simp [pbTotalizer] at h
  | succ fuel ih =>
    intro x s out s' h
    simp only [pbTotalizer] at h
    by_cases hx : x.length ≤ 1
    · rw [if_pos hx] at h
      simp only [Option.some.injEq, Prod.mk.injEq] at h
      obtain ⟨rfl, rfl⟩ := h
      refine ⟨rfl, fun _ h => h, fun S _ => ?_⟩
      match x, hx with
      | [], _ => exact .nil
      | [y], _ => exact .one
    rw [if_neg hx] at h
    cases e1 : pbTotalizer fuel (x.take (x.length / 2)) s with
    | none => rw [e1] at h; simp at h
    | some r1 =>
      obtain ⟨u, s1⟩ := r1
      rw [e1] at h
      simp only [Option.bind_some] at h
      cases e2 : pbTotalizer fuel (x.drop (x.length / 2)) s1 with
      | none => rw [e2] at h; simp at h
      | some r2 =>
        obtain ⟨v, s2⟩ := r2
        rw [e2] at h
        simp only [Option.bind_some, Option.some.injEq] at h
        obtain ⟨l1, m1, P1⟩ := ih _ _ _ _ e1
        obtain ⟨l2, m2, P2⟩ := ih _ _ _ _ e2
        obtain ⟨l3, m3, P3⟩ := unaryAdder_up u v s2
        rw [h] at l3 m3 P3
        simp only at l3 m3 P3
        have n1 : (x.take (x.length / 2)).length = x.length / 2 := by simp; omega
        have n2 : (x.drop (x.length / 2)).length = x.length - x.length / 2 := by simp
        refine ⟨by omega, fun c hc => m3 c (m2 c (m1 c hc)), fun S hS => ?_⟩
        have := SortP.merge (m := x.length) (P1 S (hS.mono fun c hc => m3 c (m2 c hc))) (P2 S (hS.mono m3)) (by omega) (by omega) (by omega) (P3 S hS)
        rwa [List.take_append_drop] at this

/-! ### One level -/

/-- The reaction to a count that is too high: a contradiction, or the guard literal. -/
def Fire (S : Lit → Prop) : Option Lit → Prop
  | none => Confl S
  | some g => S g

/-- The bound is in force. -/
def Act (S : Lit → Prop) : Option Lit → Prop
  | none => True
  | some g => S g.neg

theorem Fire.confl {S : Lit → Prop} {gac : Option Lit} (h : Fire S gac) (ha : Act S gac) : Confl S := by
  cases gac with
  | none => exact h
  | some g => exact ⟨g, h, ha⟩

theorem guard_clause {S : Lit → Prop} {gac : Option Lit} {l : Lit} {cs : List Clause} (hS : ClN S cs) (h : guardCl gac l.neg ∈ cs) :
    (S l → Fire S gac) ∧ (Act S gac → S l.neg) := by
  cases gac with
  | none => exact ⟨fun hl => ⟨l, hl, hS.one h⟩, fun _ => hS.one h⟩
  | some g =>
    have := hS.two h
    rw [Lit.neg_neg] at this
    exact ⟨this.2, this.1⟩

/-- Output number `K` of a unary number is guarded. -/
def Guard (S : Lit → Prop) (gac : Option Lit) (K : Nat) (L : List Lit) : Prop :=
  K ≤ L.length → (S (L.nth (K - 1)) → Fire S gac) ∧ (Act S gac → S (L.nth (K - 1)).neg)

/-- What follows for the inputs of a level. -/
def Back (S : Lit → Prop) (carries b : List Lit) (C : Nat) : Prop :=
  (C < carries.length → S (carries.nth C).neg) ∧ ∀ l ∈ b, S l ∨ S l.neg

section level
variable {S : Lit → Prop} {K : Nat} {b card carries mg : List Lit} {C : Nat}

theorem bm_len (lc : card.length = b.length ∨ card.length = min K b.length)
    (lm : (mg.length = card.length + carries.length ∧ (card.length = b.length ∨ carries = [])) ∨ mg.length = min K (card.length + carries.length)) :
    min K (carries.length + b.length) ≤ mg.length := by
  have : carries = [] → carries.length = 0 := fun h => by rw [h]; rfl
  rcases lm with ⟨h1, h2 | h2⟩ | h
  · omega
  · have := this h2; omega
  · omega

theorem bm_up (P : SortP S .i2o b card) (M : MergeP S .i2o card carries mg) (lc : card.length = b.length ∨ card.length = min K b.length)
    (lm : (mg.length = card.length + carries.length ∧ (card.length = b.length ∨ carries = [])) ∨ mg.length = min K (card.length + carries.length))
    (hC : C ≤ carries.length) (uC : UpS S carries C) : UpS S mg (trL S b + C) := by
  have hle := trL_le S b
  have e0 : carries = [] → carries.length = 0 := fun h => by rw [h]; rfl
  have u := M.up (by simp) (min (trL S b) card.length) C (by omega) hC (fun k hk h => P.up (by simp) k hk (by omega)) uC
  intro k hk h
  refine u k hk ?_
  rcases lm with ⟨h1, h2 | h2⟩ | h3
  · omega
  · have := e0 h2; omega
  · omega

theorem bm_back (P : SortP S .i2o b card) (M : MergeP S .i2o card carries mg) (lc : card.length = b.length ∨ card.length = min K b.length)
    (lm : (mg.length = card.length + carries.length ∧ (card.length = b.length ∨ carries = [])) ∨ mg.length = min K (card.length + carries.length))
    (hC : C ≤ carries.length) (uC : UpS S carries C) (hT : trL S b + C < mg.length) (h : S (mg.nth (trL S b + C)).neg) : Back S carries b C := by
  have hle := trL_le S b
  have e0 : carries = [] → carries.length = 0 := fun h => by rw [h]; rfl
  have hA : trL S b ≤ card.length := by
    rcases lm with ⟨h1, h2 | h2⟩ | h3
    · omega
    · have := e0 h2; omega
    · omega
  obtain ⟨b1, b2⟩ := M.upBack (by simp) (trL S b) C hA hC (P.up (by simp)) uC hT h
  refine ⟨b2, ?_⟩
  by_cases hlt : trL S b < card.length
  · exact P.upBack (by simp) hlt (b1 hlt)
  · have : b.length ≤ trL S b := by
      rcases lm with ⟨h1, h2 | h2⟩ | h3
      · omega
      · have := e0 h2; omega
      · omega
    exact fun l hl => .inl (trL_all this l hl)

theorem bm_full (lc : card.length = b.length ∨ card.length = min K b.length)
    (lm : (mg.length = card.length + carries.length ∧ (card.length = b.length ∨ carries = [])) ∨ mg.length = min K (card.length + carries.length))
    (hT : mg.length ≤ trL S b + C) (hK : trL S b + C < K) (hC : C ≤ carries.length) : Back S carries b C := by
  have hl := bm_len lc lm
  have hle := trL_le S b
  exact ⟨fun h => by omega, fun l hl => .inl (trL_all (by omega) l hl)⟩

end level

/-! ### The loop over the bits -/

/-- Value of the buckets, counting the literals in `S`. -/
noncomputable def bvS (S : Lit → Prop) : List (List Lit) → Nat
  | [] => 0
  | b :: bs => trL S b + 2 * bvS S bs

/-- What the clauses from bit `i` on propagate; `K` is the bound in units of this bit. -/
structure LoopP (S : Lit → Prop) (gac : Option Lit) (K : Nat) (bs : List (List Lit)) (carries : List Lit) (C : Nat) : Prop where
  fwd : K ≤ C + bvS S bs → Fire S gac
  back : Act S gac → K ≤ C + bvS S bs + 1 → Confl S ∨ Back S carries (bs.nth 0) C
  single : Act S gac → ∀ j, j < bs.length → K ≤ C + bvS S bs + 2 ^ j → Confl S ∨ ∀ l ∈ bs.nth j, S l ∨ S l.neg

theorem loop_step {S : Lit → Prop} {gac : Option Lit} {K : Nat} {b : List Lit} {bs : List (List Lit)} {carries card mg : List Lit} {C : Nat}
    (P : SortP S .i2o b card) (M : MergeP S .i2o card carries mg) (lc : card.length = b.length ∨ card.length = min K b.length)
    (lm : (mg.length = card.length + carries.length ∧ (card.length = b.length ∨ carries = [])) ∨ mg.length = min K (card.length + carries.length))
    (hC : C ≤ carries.length) (uC : UpS S carries C) (G : Guard S gac K mg) (hK1 : 1 ≤ K)
    (ih : bs ≠ [] → ∃ K', K = 2 * K' ∧ ∀ C', C' ≤ (evensOf mg.length mg).length → UpS S (evensOf mg.length mg) C' → Guard S gac K' (evensOf mg.length mg) →
      LoopP S gac K' bs (evensOf mg.length mg) C') : LoopP S gac K (b :: bs) carries C := by
  have hlen := bm_len lc lm
  have up := bm_up P M lc lm hC uC
  have hback := bm_back P M lc lm hC uC
  have hfull := bm_full (S := S) (C := C) lc lm
  have hle := trL_le S b
  generalize hT : trL S b + C = T at *
  have fire : K ≤ T → Fire S gac := fun h => (G (by omega)).1 (up _ (by omega) (by omega))
  -- one less than the bound
  have last : Act S gac → T + 1 = K → Back S carries b C := fun ha h => by
    by_cases hm : T < mg.length
    · refine hback hm ?_
      have := (G (by omega)).2 ha
      rwa [show K - 1 = T by omega] at this
    · exact hfull (by omega) (by omega) hC
  have hbv : C + bvS S (b :: bs) = T + 2 * bvS S bs := by simp only [bvS]; omega
  by_cases hbs : bs = []
  · subst hbs
    have e0 : bvS S [] = 0 := rfl
    rw [e0] at hbv
    have bk : Act S gac → K ≤ C + bvS S [b] + 1 → Confl S ∨ Back S carries b C := fun ha h => by
      by_cases h1 : K ≤ T
      · exact .inl ((fire h1).confl ha)
      · exact .inr (last ha (by omega))
    refine ⟨fun h => fire (by omega), bk, fun ha j hj h => ?_⟩
    have : j = 0 := by simpa using hj
    subst this
    exact (bk ha (by simpa using h)).imp id fun h => h.2
  · obtain ⟨K', rfl, ih2⟩ := ih hbs
    have le' : (evensOf mg.length mg).length = mg.length / 2 := evensOf_length _ _
    by_cases hTK : 2 * K' ≤ T
    · have f := fire hTK
      exact ⟨fun _ => f, fun ha _ => .inl (f.confl ha), fun ha _ _ _ => .inl (f.confl ha)⟩
    have ih := ih2 (T / 2) (by rw [le']; omega) (evens_upS (Nat.le_refl _) up) (fun h => by
      rw [le'] at h
      rw [evensOf_nth (by omega), show 2 * (K' - 1) + 1 = 2 * K' - 1 by omega]
      exact G (by omega))
    have fwd : 2 * K' ≤ C + bvS S (b :: bs) → Fire S gac := fun h => ih.fwd (by omega)
    have bk : Act S gac → 2 * K' ≤ C + bvS S (b :: bs) + 1 → Confl S ∨ Back S carries b C := fun ha h => by
      by_cases h1 : T + 1 = 2 * K'
      · exact .inr (last ha h1)
      by_cases h2 : T % 2 = 0
      · exact .inl ((fwd (by omega)).confl ha)
      by_cases hm : T < mg.length
      · refine (ih.back ha (by omega)).imp id fun hb => hback hm ?_
        have := hb.1 (by rw [le']; omega)
        rwa [evensOf_nth (by omega), show 2 * (T / 2) + 1 = T by omega] at this
      · exact .inr (hfull (by omega) (by omega) hC)
    refine ⟨fwd, bk, fun ha j hj h => ?_⟩
    cases j with
    | zero => exact (bk ha (by simpa using h)).imp id fun h => h.2
    | succ j =>
      rw [Nat.pow_succ] at h
      exact ih.single ha j (by simpa using hj) (by omega)

theorem card_up {wd : Bool} {K : Nat} {b : List Lit} {s : ER} {card : List Lit} {s1 : ER} (hK : 1 ≤ K)
    (e : (if wd then pbTotalizer (b.length + 1) b s else ccSort (b.length + 1) K b .i2o s) = some (card, s1)) :
    ((wd = true ∧ card.length = b.length) ∨ (wd = false ∧ card.length = min K b.length)) ∧ (∀ c ∈ s.clauses, c ∈ s1.clauses) ∧
    ∀ S, ClN S s1.clauses → SortP S .i2o b card := by
  cases wd with
  | true =>
    obtain ⟨h1, h2, h3⟩ := pbTotalizer_up _ _ _ _ _ e
    exact ⟨.inl ⟨rfl, h1⟩, h2, h3⟩
  | false =>
    by_cases hb : b = []
    · subst hb
      simp [ccSort] at e
      obtain ⟨rfl, rfl⟩ := e
      exact ⟨.inr ⟨rfl, by simp⟩, fun _ h => h, fun _ _ => .nil⟩
    · obtain ⟨h1, h2, h3⟩ := ccSort_up _ _ _ _ _ _ _ e hK hb
      exact ⟨.inr ⟨rfl, h1⟩, h2, h3⟩

theorem bmLoop_up (wd : Bool) (nlt : Nat) (gac : Option Lit) (hn : 0 < nlt) : ∀ (bs : List (List Lit)) (i : Nat) (carries : List Lit) (s s' : ER),
    bmLoop wd nlt gac i bs carries s = some s' → (i = 0 → carries = []) → (∀ j, j < bs.length → 2 ^ (i + j) ∣ nlt) →
    (∀ c ∈ s.clauses, c ∈ s'.clauses) ∧ ∀ S, ClN S s'.clauses → bs ≠ [] → ∀ C, C ≤ carries.length → UpS S carries C →
      Guard S gac (nlt / 2 ^ i) carries → LoopP S gac (nlt / 2 ^ i) bs carries C
  | [], i, carries, s, s', e, _, _ => by
    simp only [bmLoop, Option.some.injEq] at e
    subst e
    exact ⟨fun _ h => h, fun _ _ h => absurd rfl h⟩
  | b :: bs, i, carries, s, s', e, hi0, hd => by
    have hd0 : 2 ^ i ∣ nlt := by simpa using hd 0 (by simp)
    have hp : 0 < 2 ^ i := Nat.two_pow_pos i
    have hk : divCeil nlt (2 ^ i) = nlt / 2 ^ i := by unfold divCeil; rw [if_pos (Nat.mod_eq_zero_of_dvd hd0)]
    have hK1 : 1 ≤ nlt / 2 ^ i := Nat.div_pos (Nat.le_of_dvd hn hd0) hp
    have hhalf : bs ≠ [] → nlt / 2 ^ i = 2 * (nlt / 2 ^ (i + 1)) := fun h => by
      have : 2 ^ (i + 1) ∣ nlt := hd 1 (by have := List.length_pos_iff.2 h; simp; omega)
      obtain ⟨q, rfl⟩ := this
      rw [Nat.mul_div_cancel_left _ (Nat.two_pow_pos _), Nat.pow_succ, Nat.mul_assoc, Nat.mul_div_cancel_left _ hp]
    simp only [bmLoop, hk] at e
    generalize nlt / 2 ^ i = K at *
    cases ec : (if wd then pbTotalizer (b.length + 1) b s else ccSort (b.length + 1) K b .i2o s) with
    | none => rw [ec] at e; simp at e
    | some r =>
      obtain ⟨card, s1⟩ := r
      rw [ec] at e
      simp only [Option.bind_some] at e
      obtain ⟨lc, m1, P⟩ := card_up hK1 ec
      by_cases has : K ≤ b.length ∧ ¬ (K = card.length ∨ wd)
      · rw [if_pos has] at e; simp at e
      rw [if_neg has] at e
      generalize hs2 : (if K ≤ b.length then s1.addClauses [guardCl gac (card.nth (K - 1)).neg] else s1) = s2 at e
      have m2 : ∀ c ∈ s1.clauses, c ∈ s2.clauses := fun c hc => by
        rw [← hs2]; split
        · exact mem_addClauses.2 (.inl hc)
        · exact hc
      have g2 : K ≤ b.length → guardCl gac (card.nth (K - 1)).neg ∈ s2.clauses := fun h => by
        rw [← hs2, if_pos h]; exact mem_addClauses.2 (.inr (by simp))
      -- continuing with the merged number
      have fin : ∀ mg s3, bmLoop wd nlt gac (i + 1) bs (evensOf mg.length mg) s3 = some s' → (∀ c ∈ s2.clauses, c ∈ s3.clauses) →
          ((mg.length = card.length + carries.length ∧ (card.length = b.length ∨ carries = [])) ∨ mg.length = min K (card.length + carries.length)) →
          (∀ S, ClN S s3.clauses → MergeP S .i2o card carries mg ∧ (Guard S gac K carries → Guard S gac K mg)) →
          (∀ c ∈ s.clauses, c ∈ s'.clauses) ∧ ∀ S, ClN S s'.clauses → b :: bs ≠ [] → ∀ C, C ≤ carries.length → UpS S carries C →
            Guard S gac K carries → LoopP S gac K (b :: bs) carries C := by
        intro mg s3 e3 m3 lm hS3
        obtain ⟨m4, L⟩ := bmLoop_up wd nlt gac hn bs (i + 1) _ s3 s' e3 (by omega) (fun j hj => by
          have := hd (j + 1) (by simpa using hj)
          rwa [show i + 1 + j = i + (j + 1) by omega])
        refine ⟨fun c hc => m4 c (m3 c (m2 c (m1 c hc))), fun S hS _ C hC uC G => ?_⟩
        obtain ⟨hM, hG⟩ := hS3 S (hS.mono m4)
        have lc' : card.length = b.length ∨ card.length = min K b.length := lc.imp (·.2) (·.2)
        exact loop_step (P S (hS.mono fun c hc => m4 c (m3 c (m2 c hc)))) hM lc' lm hC uC (hG G) hK1
          fun hb => ⟨nlt / 2 ^ (i + 1), hhalf hb, fun C' => L S hS hb C'⟩
      have gcard : carries = [] → ∀ S, ClN S s2.clauses → Guard S gac K card := fun _ S hS h =>
        guard_clause hS (g2 (by rcases lc with h1 | h1 <;> omega))
      by_cases hmrg : i > 0 ∧ ¬ carries.isEmpty
      · rw [if_pos hmrg] at e
        have hce : carries ≠ [] := by simpa using hmrg.2
        by_cases hcard : card.isEmpty
        · rw [if_pos hcard] at e
          simp only [Option.bind_some] at e
          have hcard : card = [] := by simpa using hcard
          subst hcard
          have hb0 : b.length = 0 := by rcases lc with h1 | h1 <;> simp at h1 <;> omega
          exact fin carries s2 e (fun _ h => h) (.inl ⟨by simp, .inl (by simp [hb0])⟩) fun S hS => ⟨.nilL, id⟩
        · rw [if_neg hcard] at e
          have hcard : card ≠ [] := by simpa using hcard
          cases em : (if wd then some (unaryAdder card carries s2) else ccMerge (card.length + carries.length + 1) K card carries .i2o s2) with
          | none => rw [em] at e; simp at e
          | some r =>
            obtain ⟨mg, s3⟩ := r
            rw [em] at e
            simp only [Option.bind_some] at e
            have hm : ((wd = true ∧ mg.length = card.length + carries.length) ∨ (wd = false ∧ mg.length = min K (card.length + carries.length))) ∧
                (∀ c ∈ s2.clauses, c ∈ s3.clauses) ∧ ∀ S, ClN S s3.clauses → MergeP S .i2o card carries mg := by
              cases wd with
              | true =>
                simp only [if_true, Option.some.injEq] at em
                have := unaryAdder_up card carries s2
                rw [em] at this
                exact ⟨.inl ⟨rfl, this.1⟩, this.2⟩
              | false =>
                have := ccMerge_i2o_up hcard hce hK1 em
                exact ⟨.inr ⟨rfl, this.1⟩, this.2⟩
            obtain ⟨lm, m3, hM⟩ := hm
            generalize hs4 : (if K = mg.length ∨ (wd = true ∧ K ≤ mg.length) then s3.addClauses [guardCl gac (mg.nth (K - 1)).neg] else s3) = s4 at e
            have m4 : ∀ c ∈ s3.clauses, c ∈ s4.clauses := fun c hc => by
              rw [← hs4]; split
              · exact mem_addClauses.2 (.inl hc)
              · exact hc
            refine fin mg s4 e (fun c hc => m4 c (m3 c hc)) ?_ fun S hS => ⟨hM S (hS.mono m4), fun _ h => guard_clause hS ?_⟩
            · rcases lm with ⟨hw, h1⟩ | ⟨hw, h1⟩
              · rcases lc with ⟨_, h2⟩ | ⟨hw', _⟩
                · exact .inl ⟨h1, .inl h2⟩
                · rw [hw] at hw'; simp at hw'
              · exact .inr h1
            · rw [← hs4, if_pos]
              · exact mem_addClauses.2 (.inr (by simp))
              · rcases lm with ⟨hw, h1⟩ | ⟨hw, h1⟩
                · exact .inr ⟨hw, h⟩
                · left; omega
      · rw [if_neg hmrg] at e
        simp only [Option.bind_some] at e
        have hce : carries = [] := by
          by_cases h0 : i = 0
          · exact hi0 h0
          · by_cases hc : carries = []
            · exact hc
            · exact absurd ⟨by omega, by simpa using hc⟩ hmrg
        subst hce
        exact fin card s2 e (fun _ h => h) (.inl ⟨by simp, .inr rfl⟩) fun S hS => ⟨.nilR, fun _ => gcard rfl S hS⟩

end Prop1
end Verif
