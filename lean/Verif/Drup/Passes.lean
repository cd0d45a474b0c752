import Verif.Drup.Analyze
/-
The two passes of the DRUP trimmer: the clauses marked in the end are unsatisfiable.
-/
namespace Verif.Drup

variable {c0 : Nat → List Int} {b n : Nat} {A : Int → Prop} {S S' : T}

/-! ### The literals of a lemma -/

theorem reorder_ok (fals : Int → Nat) (c : List Int) :
    (reorder fals c).1.Perm c ∧ (reorder fals c).2.1 = c.filter (fun x => fals x == 0) ∧ (reorder fals c).2.2 = c.any (fun x => fals (-x) != 0) ∧
      ∀ x, (reorder fals c).2.1[0]? = some x → (reorder fals c).1[0]? = some x := by
  have key : ∀ j, j ≤ c.length → ∀ r, (List.range j).foldl (reorderStep fals) (c, [], false) = r →
      r.1.Perm c ∧ r.1.drop j = c.drop j ∧ r.2.1 = (c.take j).filter (fun x => fals x == 0) ∧ r.2.2 = (c.take j).any (fun x => fals (-x) != 0) ∧
        ∀ x, r.2.1[0]? = some x → r.1[0]? = some x := by
    intro j
    induction j with
    | zero => rintro _ r rfl; simp
    | succ j ih =>
      rintro hj r rfl
      rw [List.range_succ, List.foldl_append]
      generalize hr : (List.range j).foldl (reorderStep fals) (c, [], false) = r
      obtain ⟨i1, i2, i3, i4, i5⟩ := ih (by omega) r hr
      have hjl : j < r.1.length := by rw [i1.length_eq]; omega
      have hg : r.1.getD j 0 = c[j]'(by omega) := by
        have h1 : r.1[j]? = c[j]? := by
          have := congrArg (·[0]?) i2
          simpa using this
        simp [List.getD, h1, show j < c.length by omega]
      have hg' : r.1[j] = c[j]'(by omega) := by
        simpa [List.getD, hjl] using hg
      have ht : c.take (j + 1) = c.take j ++ [c[j]'(by omega)] := by rw [List.take_add_one, List.getElem?_eq_getElem (by omega)]; rfl
      simp only [List.foldl_cons, List.foldl_nil]
      unfold reorderStep
      simp only [hg]
      have hbl : r.2.1.length ≤ j := by
        rw [i3]
        exact Nat.le_trans (List.length_filter_le _ _) (by simp; omega)
      by_cases hf : fals (c[j]'(by omega)) = 0
      · rw [if_pos hf]
        simp only
        refine ⟨?_, ?_, ?_, ?_, ?_⟩
        · split
          · have hb : r.2.1.length < r.1.length := by omega
            have := List.set_set_perm (as := r.1) (i := j) (j := r.2.1.length) hjl hb
            rw [hg'] at this
            have hd : r.1.getD r.2.1.length 0 = r.1[r.2.1.length] := by simp [List.getD, hb]
            rw [hd]
            exact this.trans i1
          · exact i1
        · have hd : r.1.drop (j + 1) = c.drop (j + 1) := by
            have := congrArg (List.drop 1) i2
            simpa [List.drop_drop, Nat.add_comm] using this
          split
          · rw [List.drop_set_of_lt (by omega), List.drop_set_of_lt (by omega)]; exact hd
          · exact hd
        · rw [ht, List.filter_append, i3]; simp [hf]
        · rw [ht, List.any_append, i4]; simp
        · intro x hx
          by_cases hb0 : r.2.1 = []
          · rw [hb0] at hx ⊢
            simp only [List.nil_append, List.getElem?_cons_zero, Option.some.injEq] at hx
            subst hx
            simp only [List.length_nil, Nat.zero_le, if_true]
            rw [List.getElem?_set]
            have : 0 < r.1.length := by omega
            simp [this]
          · have hpos : 0 < r.2.1.length := List.length_pos_iff.2 hb0
            rw [List.getElem?_append_left hpos] at hx
            have := i5 x hx
            split
            · rw [List.getElem?_set_ne (by omega), List.getElem?_set_ne (by omega)]; exact this
            · exact this
      · rw [if_neg hf]
        simp only
        refine ⟨i1, ?_, ?_, ?_, i5⟩
        · have := congrArg (List.drop 1) i2
          simpa [List.drop_drop, Nat.add_comm] using this
        · rw [ht, List.filter_append, i3]; simp [hf]
        · rw [ht, List.any_append, i4]; simp
  obtain ⟨k1, _, k3, k4, k5⟩ := key c.length (Nat.le_refl _) _ rfl
  rw [List.take_length] at k3 k4
  exact ⟨k1, k3, k4, k5⟩

/-! ### Deletions -/

/-- The deletions before a lemma: `rm` are the clauses removed before, `rm'` those removed after. -/
inductive Dels (c0 : Nat → List Int) (r : Nat → Option Nat) (T : List Int) (b : Nat) : List Nat → List Nat → List Nat → Prop
  | nil {rm : List Nat} : Dels c0 r T b [] rm rm
  | small {c : Nat} {ds rm rm' : List Nat} : (c0 c).length < 2 → Dels c0 r T b ds rm rm' → Dels c0 r T b (c :: ds) rm rm'
  | skip {c : Nat} {ds rm rm' : List Nat} {x : Int} : 2 ≤ (c0 c).length → x ∈ T → r x.natAbs = some c → Dels c0 r T b ds rm rm' → Dels c0 r T b (c :: ds) rm rm'
  | rem {c : Nat} {ds rm rm' : List Nat} : 2 ≤ (c0 c).length → c < b → c ∉ rm → Dels c0 r T b ds (c :: rm) rm' → Dels c0 r T b (c :: ds) rm rm'

variable {rm rm' : List Nat}

theorem Dels.mono {r r' : Nat → Option Nat} {T : List Int} {ds : List Nat} (h : Dels c0 r T b ds rm rm') (hr : ∀ x ∈ T, r' x.natAbs = r x.natAbs) : Dels c0 r' T b ds rm rm' := by
  induction h with
  | nil => exact .nil
  | small h1 _ ih => exact .small h1 ih
  | skip h1 hx h2 _ ih => exact .skip h1 hx (by rw [hr _ hx]; exact h2) ih
  | rem h1 h2 h3 _ ih => exact .rem h1 h2 h3 ih

/-- Only the watches change. -/
theorem TInv.setWl (h : TInv b A S) (w : Int → List (Nat × Bool)) : TInv b A { S with wl := w } := ⟨h.fs, h.asm, h.why⟩

theorem Fw.setWl (h : Fw S) (w : Int → List (Nat × Bool)) : Fw { S with wl := w } := ⟨h.nd, h.rs⟩

theorem two_le {c : List Int} (h : 2 ≤ c.length) : ∃ x y rest, c = x :: y :: rest := by
  match c, h with
  | x :: y :: rest, _ => exact ⟨x, y, rest, rfl⟩

theorem delAll_ok : ∀ {ds : List Nat} {rm : List Nat} {S S' : T}, Inv c0 b rm A S → Fw S → delAll ds S = some S' →
    ∃ rm', Dels c0 S.reason S.stack b ds rm rm' ∧ Inv c0 b rm' A S' ∧ S' = { S with wl := S'.wl } := by
  intro ds
  induction ds with
  | nil => intro rm S S' h hf e; injection e with e; subst e; exact ⟨rm, .nil, h, rfl⟩
  | cons c ds ih =>
    intro rm S S' h hf e
    unfold delAll at e
    split at e
    · rename_i a d rest ec
      have hl : 2 ≤ (c0 c).length := by rw [← (h.wf.perm c).length_eq, ec]; simp
      split at e
      · rename_i hr
        obtain ⟨rm', h1, h2, h3⟩ := ih h hf e
        obtain ⟨x, hx, e2⟩ := hf.rs _ _ hr
        exact ⟨rm', .skip hl hx (by rw [e2]; exact hr) h1, h2, h3⟩
      · rename_i hr
        obtain ⟨S1, e1, e⟩ := Option.bind_eq_some_iff.1 e
        have hrem := h.wf.remove e1
        have hS1 := removeWatches_fields e1
        have hin : c < b ∧ c ∉ rm := by
          unfold removeWatches at e1
          rw [ec] at e1
          simp only at e1
          obtain ⟨w, e2, e1⟩ := Option.bind_eq_some_iff.1 e1
          have h1 := removeOne_count e2 a c
          simp only [and_self, if_true] at h1
          have h2 := h.wf.cnt c a
          by_cases hh : c < b ∧ c ∉ rm ∧ 2 ≤ (S.cl c).length
          · exact ⟨hh.1, hh.2.1⟩
          · rw [if_neg hh] at h2; omega
        have hne : ∀ v k, S.reason v = some k → k ≠ c := by
          rintro v k hv rfl
          obtain ⟨x, hx, rfl⟩ := hf.rs _ _ hv
          obtain ⟨p, hp⟩ := List.getElem?_of_mem hx
          obtain ⟨_, tl, ec', _⟩ := h.inv.why p x k hp hv
          rw [ec] at ec'
          injection ec' with ea _
          subst ea
          rw [Int.natAbs_neg] at hr
          exact hr hv
        have h1 : Inv c0 b (c :: rm) A S1 := by
          refine ⟨⟨?_, ?_⟩, ?_, ?_⟩
          · rw [hS1]; exact h.wf.perm
          · intro i x
            refine Nat.le_trans (hrem i x) ?_
            have : S1.cl = S.cl := by rw [hS1]
            rw [this]
            by_cases hh : i < b ∧ i ∉ rm ∧ i ≠ c ∧ 2 ≤ (S.cl i).length
            · rw [if_pos hh, if_pos ⟨hh.1, by simp [hh.2.1, hh.2.2.1], hh.2.2.2⟩]; exact Nat.le_refl _
            · rw [if_neg hh]; exact Nat.zero_le _
          · rw [hS1]; exact h.inv.setWl _
          · rw [hS1]
            intro v k hv
            simp [h.ri v k hv, hne v k hv]
        have hf1 : Fw S1 := by rw [hS1]; exact hf.setWl _
        obtain ⟨rm', h2, h3, h4⟩ := ih h1 hf1 e
        refine ⟨rm', .rem hl hin.1 hin.2 ?_, h3, ?_⟩
        · rw [hS1] at h2; exact h2
        · rw [h4, hS1]
    · rename_i hn
      obtain ⟨rm', h1, h2, h3⟩ := ih h hf e
      refine ⟨rm', .small ?_ h1, h2, h3⟩
      by_contra hl
      rw [← (h.wf.perm c).length_eq] at hl
      obtain ⟨x, y, rest, e'⟩ := two_le (Nat.le_of_not_lt hl)
      exact hn x y rest e'

theorem undoAll_fields (ds : List Nat) : ∀ S : T, undoAll ds S = { S with wl := (undoAll ds S).wl } := by
  induction ds with
  | nil => intro S; rfl
  | cons c ds ih =>
    intro S
    unfold undoAll
    split
    · split
      · exact ih S
      · rw [addWatches_fields, ih S]
    · exact ih S

theorem undoAll_ok {r : Nat → Option Nat} {T0 : List Int} {ds : List Nat} {rm rm' : List Nat} (h : Dels c0 r T0 b ds rm rm') :
    ∀ {S : T}, Inv c0 b rm' A S → S.stack = T0 → (∀ x ∈ T0, S.reason x.natAbs = r x.natAbs) → Inv c0 b rm A (undoAll ds S) := by
  induction h with
  | nil => intro S h _ _; exact h
  | small hl _ ih =>
    rename_i c ds rm rm' _
    intro S h h1 h2
    have hi := ih h h1 h2
    unfold undoAll
    split
    · rename_i a d rest ec
      have := (hi.wf.perm c).length_eq
      rw [ec] at this
      simp at this
      omega
    · exact hi
  | skip hl hx hr _ ih =>
    rename_i c ds rm rm' x _
    intro S h h1 h2
    have hi := ih h h1 h2
    have hr' : (undoAll ds S).reason x.natAbs = some c := by rw [undoAll_fields]; show S.reason x.natAbs = some c; rw [h2 x hx]; exact hr
    have hx' : x ∈ (undoAll ds S).stack := by rw [undoAll_fields]; show x ∈ S.stack; rw [h1]; exact hx
    obtain ⟨p, hp⟩ := List.getElem?_of_mem hx'
    obtain ⟨_, tl, ec, _⟩ := hi.inv.why p x c hp hr'
    unfold undoAll
    split
    · rename_i a d rest ec'
      rw [ec] at ec'
      injection ec' with ea _
      subst ea
      rw [Int.natAbs_neg, if_pos hr']
      exact hi
    · exact hi
  | rem hl hb hc _ ih =>
    rename_i c ds rm rm' _
    intro S h h1 h2
    have hi := ih h h1 h2
    unfold undoAll
    split
    · rename_i a d rest ec
      rw [if_neg (fun hr => hi.ri _ _ hr (by simp))]
      refine ⟨hi.wf.add (by simp) (fun i hic h3 h4 => ⟨h3, fun h5 => h4 (by simp [h5])⟩) ⟨hb, hc⟩, ?_, ?_⟩
      · rw [addWatches_fields]; exact hi.inv.setWl _
      · rw [addWatches_fields]
        intro v k hv hk
        exact hi.ri v k hv (by simp [hk])
    · rename_i hn
      obtain ⟨x, y, rest, e'⟩ := two_le (c := (undoAll ds S).cl c) (by rw [(hi.wf.perm c).length_eq]; exact hl)
      exact absurd e' (hn x y rest)

/-! ### The history of the first pass -/

/-- The lemmas looked at, with the stack and the removed clauses after them; the first lemma has the number `n`, the next one the number `b`. -/
inductive Hist (c0 : Nat → List Int) (n : Nat) (r : Nat → Option Nat) : Nat → List Step → List Int → List Nat → Prop
  | nil {T : List Int} : (∀ x ∈ T, ∃ i < n, r x.natAbs = some i) → (∀ x ∈ T, -x ∉ T) → Hist c0 n r n [] T []
  | sat {b : Nat} {done : List Step} {T : List Int} {rm rm' ds : List Nat} : Hist c0 n r b done T rm → Dels c0 r T b ds rm rm' → (∃ l ∈ c0 b, -l ∈ T) → Hist c0 n r (b + 1) (⟨ds, b, true⟩ :: done) T rm'
  | opn {b : Nat} {done : List Step} {T : List Int} {rm rm' ds : List Nat} : Hist c0 n r b done T rm → Dels c0 r T b ds rm rm' → (∀ x ∈ c0 b, -x ∉ T) → 2 ≤ ((c0 b).filter fun x => decide (x ∉ T)).length →
      Hist c0 n r (b + 1) (⟨ds, b, false⟩ :: done) T rm'
  | unit {b : Nat} {done : List Step} {T : List Int} {rm rm' ds : List Nat} {e : Int} {R : List Int} : Hist c0 n r b done T rm → Dels c0 r T b ds rm rm' → (∀ x ∈ c0 b, -x ∉ T) → ((c0 b).filter fun x => decide (x ∉ T)) = [e] →
      (T ++ -e :: R).Nodup → (∀ x ∈ T ++ -e :: R, -x ∉ T ++ -e :: R) → (∀ x ∈ -e :: R, ∃ i < b + 1, r x.natAbs = some i) →
      Hist c0 n r (b + 1) (⟨ds, b, false⟩ :: done) (T ++ -e :: R) rm'

variable {r r' : Nat → Option Nat} {T0 : List Int} {done : List Step}

theorem Hist.mono (h : Hist c0 n r b done T0 rm) (hr : ∀ x ∈ T0, r' x.natAbs = r x.natAbs) : Hist c0 n r' b done T0 rm := by
  induction h with
  | nil h1 h2 => exact .nil (fun x hx => by rw [hr x hx]; exact h1 x hx) h2
  | sat h1 h2 h3 ih => exact .sat (ih hr) (h2.mono hr) h3
  | opn h1 h2 h3 h4 ih => exact .opn (ih hr) (h2.mono hr) h3 h4
  | unit h1 h2 h3 h4 h5 h6 h7 ih =>
    exact .unit (ih fun x hx => hr x (List.mem_append_left _ hx)) (h2.mono fun x hx => hr x (List.mem_append_left _ hx)) h3 h4 h5 h6 fun x hx => by
      rw [hr x (List.mem_append_right _ hx)]; exact h7 x hx

theorem Hist.reasons (h : Hist c0 n r b done T0 rm) : ∀ x ∈ T0, ∃ i < b, r x.natAbs = some i := by
  induction h with
  | nil h1 h2 => exact h1
  | sat h1 h2 h3 ih => exact fun x hx => let ⟨i, hi, e⟩ := ih x hx; ⟨i, by omega, e⟩
  | opn h1 h2 h3 h4 ih => exact fun x hx => let ⟨i, hi, e⟩ := ih x hx; ⟨i, by omega, e⟩
  | unit h1 h2 h3 h4 h5 h6 h7 ih =>
    intro x hx
    rcases List.mem_append.1 hx with hx | hx
    · obtain ⟨i, hi, e⟩ := ih x hx; exact ⟨i, by omega, e⟩
    · exact h7 x hx

theorem Hist.cons (h : Hist c0 n r b done T0 rm) : ∀ x ∈ T0, -x ∉ T0 := by
  induction h with
  | nil h1 h2 => exact h2
  | sat h1 h2 h3 ih => exact ih
  | opn h1 h2 h3 h4 ih => exact ih
  | unit h1 h2 h3 h4 h5 h6 h7 ih => exact h6

/-- A satisfied lemma has a literal that is true for an older reason. -/
theorem Hist.satLit (h : Hist c0 n r b done T0 rm) : ∀ s ∈ done, s.sat = true → ∃ l ∈ c0 s.k, -l ∈ T0 ∧ ∃ i < s.k, r l.natAbs = some i := by
  induction h with
  | nil h1 h2 => intro s hs; simp at hs
  | sat h1 h2 h3 ih =>
    intro s hs e
    rcases List.mem_cons.1 hs with rfl | hs
    · obtain ⟨l, hl, hm⟩ := h3
      obtain ⟨i, hi, e2⟩ := h1.reasons _ hm
      exact ⟨l, hl, hm, i, hi, by rwa [Int.natAbs_neg] at e2⟩
    · exact ih s hs e
  | opn h1 h2 h3 h4 ih =>
    intro s hs e
    rcases List.mem_cons.1 hs with rfl | hs
    · cases e
    · exact ih s hs e
  | unit h1 h2 h3 h4 h5 h6 h7 ih =>
    intro s hs e
    rcases List.mem_cons.1 hs with rfl | hs
    · cases e
    · obtain ⟨l, hl, hm, h⟩ := ih s hs e
      exact ⟨l, hl, List.mem_append_left _ hm, h⟩

/-- The marked clauses below `b` are unsatisfiable. -/
def Uns (c0 : Nat → List Int) (b : Nat) (mark : Nat → Bool) : Prop := ∀ σ, ∃ i < b, mark i = true ∧ ¬ satC σ (c0 i)

/-- Satisfied lemmas are not marked. -/
def NoSat (done : List Step) (mark : Nat → Bool) : Prop := ∀ s ∈ done, s.sat = true → mark s.k = false

theorem uns_of {mark : Nat → Bool} (h : ∀ σ, (∀ j < b, mark j = true → satC σ (c0 j)) → False) : Uns c0 b mark := by
  intro σ
  by_contra hn
  refine h σ fun j hj hm => ?_
  by_contra hs
  exact hn ⟨j, hj, hm, hs⟩

theorem noSat_of (h : Hist c0 n S.reason b done T0 rm) (hT : ∀ x ∈ T0, x ∈ S.stack) (hc : ∀ l, -l ∈ T0 → l ∉ S.stack) (hn : NoSat done S.mark) {B : Nat}
    (new : ∀ j, S'.mark j = true → S.mark j = true ∨ j < B ∧ ∀ l ∈ c0 j, -l ∈ S.stack → l ∉ S.stack → S.reason l.natAbs ≠ none → S.reason l.natAbs = some j) : NoSat done S'.mark := by
  intro s hs e
  cases hm : S'.mark s.k with
  | false => rfl
  | true =>
    rcases new s.k hm with h1 | ⟨_, h2⟩
    · rw [hn s hs e] at h1; cases h1
    · obtain ⟨l, hl, hm, i, hi, hr⟩ := h.satLit s hs e
      have := h2 l hl (hT _ hm) (hc l hm) (by rw [hr]; nofun)
      rw [hr] at this
      injection this with this
      omega

/-! ### The first pass -/

/-- No literal is false and true if all have reasons. -/
theorem TInv.cons (hz : ∀ i, ∀ x ∈ c0 i, x ≠ 0) (hp : ∀ i, (S.cl i).Perm (c0 i)) (h : TInv b (fun _ => False) S) : ∀ x ∈ S.stack, -x ∉ S.stack := by
  intro x hx hn
  cases hr : S.reason x.natAbs with
  | none => exact h.asm x hx hr
  | some i =>
    obtain ⟨p, hp1⟩ := List.getElem?_of_mem hx
    obtain ⟨q, hq1⟩ := List.getElem?_of_mem hn
    obtain ⟨_, tl, e1, _⟩ := h.why p x i hp1 hr
    obtain ⟨_, tl', e2, _⟩ := h.why q (-x) i hq1 (by rw [Int.natAbs_neg]; exact hr)
    rw [e1] at e2
    injection e2 with e2 _
    have : -x ≠ 0 := hz i (-x) ((hp i).mem_iff.1 (by rw [e1]; simp))
    omega

/-- The state in the first pass. -/
structure Front (c0 : Nat → List Int) (n b : Nat) (done : List Step) (rm : List Nat) (S : T) : Prop where
  inv : Inv c0 b rm (fun _ => False) S
  fw : Fw S
  proc : S.processed = S.stack.length
  mark : ∀ j, S.mark j = false
  hist : Hist c0 n S.reason b done S.stack rm

/-- The state in the second pass. -/
structure Back (c0 : Nat → List Int) (n b : Nat) (done : List Step) (rm : List Nat) (S : T) : Prop where
  inv : Inv c0 b rm (fun _ => False) S
  fc : S.forced = S.stack.length
  proc : S.processed = S.stack.length
  hist : Hist c0 n S.reason b done S.stack rm
  nosat : NoSat done S.mark
  uns : Uns c0 b S.mark

/-- The state after the conflict in the first pass: the last lemma is still watched, but its literal was taken back. -/
structure Start (c0 : Nat → List Int) (n k : Nat) (ds : List Nat) (done : List Step) (S : T) : Prop where
  ex : ∃ rm rm', Hist c0 n S.reason k done S.stack rm ∧ Dels c0 S.reason S.stack k ds rm rm' ∧ Inv c0 (k + 1) rm' (fun _ => False) S
  fc : S.forced = S.stack.length
  proc : S.processed = S.stack.length
  ntr : ∀ x ∈ c0 k, -x ∉ S.stack
  nosat : NoSat done S.mark
  uns : Uns c0 (k + 1) S.mark

theorem fals_zero (h : TInv b A S) (x : Int) : S.fals x = 0 ↔ x ∉ S.stack := by
  have := h.fs x
  constructor
  · intro e hm; exact this.2 hm e
  · intro hm; by_contra e; exact hm (this.1 e)

theorem filter_fals (h : TInv b A S) (c : List Int) : c.filter (fun x => S.fals x == 0) = c.filter (fun x => decide (x ∉ S.stack)) := by
  apply List.filter_congr
  intro x _
  have := fals_zero h x
  by_cases hx : x ∈ S.stack
  · have h1 : S.fals x ≠ 0 := (h.fs x).2 hx
    simp [hx, h1]
  · simp [hx, this.2 hx]

theorem any_fals (h : TInv b A S) (c : List Int) : c.any (fun x => S.fals (-x) != 0) = true ↔ ∃ x ∈ c, -x ∈ S.stack := by
  simp only [List.any_eq_true, bne_iff_ne, h.fs]

/-- The lemma is entered. -/
theorem Inv.enter (h : Inv c0 b rm A S) {c : List Int} (hc : c.Perm (S.cl b)) (hb : b ∉ rm) : Inv c0 (b + 1) rm A (addWatches b { S with cl := put S.cl b c }) := by
  have h1 := h.wf.reorder (i := b) (by omega) hc
  refine ⟨h1.add (by omega) (fun i _ h2 h3 => ⟨by omega, h3⟩) ⟨by omega, hb⟩, ?_, ?_⟩
  · rw [addWatches_fields]
    refine ⟨h.inv.fs, h.inv.asm, fun p x j hp hr => ?_⟩
    obtain ⟨hj, tl, e, ht⟩ := h.inv.why p x j hp hr
    refine ⟨by omega, tl, ?_, ht⟩
    show put S.cl b c j = _
    rw [put_ne _ _ (by omega)]
    exact e
  · rw [addWatches_fields]; exact h.ri

theorem Dels.lt {ds : List Nat} (h : Dels c0 r T0 b ds rm rm') (h0 : ∀ c ∈ rm, c < b) : ∀ c ∈ rm', c < b := by
  induction h with
  | nil => exact h0
  | small _ _ ih => exact ih h0
  | skip _ _ _ _ ih => exact ih h0
  | rem _ hb _ _ ih =>
    refine ih fun c hc => ?_
    rcases List.mem_cons.1 hc with rfl | hc
    · exact hb
    · exact h0 c hc

theorem Hist.rmlt (h : Hist c0 n r b done T0 rm) : ∀ c ∈ rm, c < b := by
  induction h with
  | nil => intro c hc; simp at hc
  | sat h1 h2 h3 ih => exact fun c hc => Nat.lt_succ_of_lt (h2.lt ih c hc)
  | opn h1 h2 h3 h4 ih => exact fun c hc => Nat.lt_succ_of_lt (h2.lt ih c hc)
  | unit h1 h2 h3 h4 h5 h6 h7 ih => exact fun c hc => Nat.lt_succ_of_lt (h2.lt ih c hc)

/-- The lemmas are numbered. -/
def Numbered (b : Nat) (ls : List (List Nat × Nat)) : Prop := ls.map Prod.snd = List.range' b ls.length

theorem forward_ok (hz : ∀ i, ∀ x ∈ c0 i, x ≠ 0) {fuel : Nat} : ∀ {ls : List (List Nat × Nat)} {b : Nat} {done : List Step} {rm : List Nat} {S : T} {res : List Step × T}, Numbered b ls →
    Front c0 n b done rm S → forward fuel ls done S = some res → ∃ k ds done', res.1 = ⟨ds, k, false⟩ :: done' ∧ Start c0 n k ds done' res.2 := by
  intro ls
  induction ls with
  | nil => intro b done rm S res _ _ e; cases e
  | cons p ls ih =>
    obtain ⟨ds, k⟩ := p
    intro b done rm S res hn h e
    have hn' : k = b ∧ Numbered (b + 1) ls := by
      unfold Numbered at hn ⊢
      rw [List.length_cons, List.range'_succ, List.map_cons] at hn
      injection hn with h1 h2
      exact ⟨h1, h2⟩
    obtain ⟨rfl, hn'⟩ := hn'
    unfold forward at e
    split at e
    · cases e
    · rename_i S1 e1
      obtain ⟨rm', hd, hI, hS1⟩ := delAll_ok h.inv h.fw e1
      have est : S1.stack = S.stack := by rw [hS1]
      have ers : S1.reason = S.reason := by rw [hS1]
      have emk : S1.mark = S.mark := by rw [hS1]
      have epr : S1.processed = S.processed := by rw [hS1]
      have hkrm : k ∉ rm' := fun hk => Nat.lt_irrefl _ (hd.lt h.hist.rmlt k hk)
      obtain ⟨r1, r2, r3, r4⟩ := reorder_ok S1.fals (S1.cl k)
      have hI2 := hI.enter (c := (reorder S1.fals (S1.cl k)).1) r1 hkrm
      have hfw2 : Fw (addWatches k { S1 with cl := put S1.cl k (reorder S1.fals (S1.cl k)).1 }) := by
        rw [addWatches_fields]; exact ⟨by rw [hS1]; exact h.fw.nd, by rw [hS1]; exact h.fw.rs⟩
      simp only at e
      generalize hS2 : addWatches k { S1 with cl := put S1.cl k (reorder S1.fals (S1.cl k)).1 } = S2 at e hI2 hfw2
      have e2 : S2 = { S1 with cl := put S1.cl k (reorder S1.fals (S1.cl k)).1, wl := S2.wl } := by
        rw [← hS2, addWatches_fields]
      have e2st : S2.stack = S.stack := by rw [e2]; exact est
      have e2rs : S2.reason = S.reason := by rw [e2]; exact ers
      have e2mk : S2.mark = S.mark := by rw [e2]; exact emk
      have e2pr : S2.processed = S.stack.length := by rw [e2]; show S1.processed = _; rw [epr]; exact h.proc
      have hpm := hI.wf.perm k
      have hbuf : (reorder S1.fals (S1.cl k)).2.1 = (S1.cl k).filter (fun x => decide (x ∉ S.stack)) := by rw [r2, filter_fals hI.inv, est]
      have hbufp : ((reorder S1.fals (S1.cl k)).2.1).Perm ((c0 k).filter (fun x => decide (x ∉ S.stack))) := by rw [hbuf]; exact hpm.filter _
      have hfl : (reorder S1.fals (S1.cl k)).2.2 = true ↔ ∃ x ∈ c0 k, -x ∈ S.stack := by
        rw [r3, any_fals hI.inv, est]
        simp only [hpm.mem_iff]
      split at e
      · rename_i hflag
        refine ih hn' ⟨hI2, hfw2, by rw [e2pr, e2st], by rw [e2mk]; exact h.mark, ?_⟩ e
        rw [e2rs, e2st]
        exact .sat h.hist hd (hfl.1 hflag)
      · rename_i hflag
        have hntr : ∀ x ∈ c0 k, -x ∉ S.stack := fun x hx hm => hflag (hfl.2 ⟨x, hx, hm⟩)
        generalize hb1 : (reorder S1.fals (S1.cl k)).2.1 = buf at e hbufp hbuf
        match buf, e with
        | [], e => cases e
        | [lit], e =>
          simp only at e
          have hfil : (c0 k).filter (fun x => decide (x ∉ S.stack)) = [lit] := by
            exact List.perm_singleton.1 hbufp.symm
          have hlm : lit ∈ c0 k ∧ lit ∉ S.stack := by
            have : lit ∈ (c0 k).filter (fun x => decide (x ∉ S.stack)) := by rw [hfil]; simp
            simpa using this
          have hlit : -lit ∉ S.stack := hntr lit hlm.1
          -- the tail of the lemma is false
          have hcl : ∃ tl, S2.cl k = lit :: tl ∧ ∀ y ∈ tl, y ∈ S2.stack := by
            have hh := r4 lit (by rw [hb1]; rfl)
            have ecl : S2.cl k = (reorder S1.fals (S1.cl k)).1 := by rw [e2]; simp
            rw [ecl]
            match hc : (reorder S1.fals (S1.cl k)).1, hh with
            | x :: tl, hh =>
              simp only [List.getElem?_cons_zero, Option.some.injEq] at hh
              subst hh
              refine ⟨tl, rfl, fun y hy => ?_⟩
              rw [hc] at r1
              have hp2 : ((x :: tl).filter (fun z => decide (z ∉ S.stack))).Perm [x] := by rw [← hfil]; exact (r1.trans hpm).filter _
              have hl2 := hp2.length_eq
              rw [e2st]
              by_contra hny
              have hy2 : y ∈ tl.filter (fun z => decide (z ∉ S.stack)) := by simp [hy, hny]
              rw [List.filter_cons_of_pos (by simp [hlm.2])] at hl2
              have := List.length_pos_of_mem hy2
              simp at hl2 this
              exact hl2 y hy |> hny
          obtain ⟨tl, hcl, htl⟩ := hcl
          have hfa : S2.fals lit = 0 := (fals_zero hI2.inv lit).2 (by rw [e2st]; exact hlm.2)
          have hfb : S2.fals (-lit) = 0 := (fals_zero hI2.inv (-lit)).2 (by rw [e2st]; exact hlit)
          obtain ⟨f1, f2⟩ := hI2.inv.force (i := k) (by omega) hcl htl hfa hfb
          generalize hS3 : ({ assign lit S2 with reason := put S2.reason lit.natAbs (some k), forced := S2.processed } : T) = S3 at e
          have e3st : S3.stack = S.stack ++ [-lit] := by rw [← hS3]; show S2.stack ++ [-lit] = _; rw [e2st]
          have e3rs : S3.reason = put S.reason lit.natAbs (some k) := by rw [← hS3, ← e2rs]
          have e3mk : S3.mark = S.mark := by rw [← hS3, ← e2mk]; rfl
          have e3fc : S3.forced = S.stack.length := by rw [← hS3, ← e2pr]
          have hI3 : Inv c0 (k + 1) rm' (fun _ => False) S3 := by
            subst hS3
            refine ⟨⟨hI2.wf.perm, hI2.wf.cnt⟩, ⟨f1.fs, f1.asm, f1.why⟩, fun v c hv => ?_⟩
            have hv : put S2.reason lit.natAbs (some k) v = some c := hv
            by_cases hv' : v = lit.natAbs
            · subst hv'
              rw [put_same] at hv
              injection hv with hv
              exact hv ▸ hkrm
            · rw [put_ne _ _ hv'] at hv
              exact hI2.ri v c hv
          have hfw3 : Fw S3 := by
            refine ⟨?_, fun v c hv => ?_⟩
            · rw [e3st, List.nodup_append]
              refine ⟨h.fw.nd, by simp, fun x hx y hy e' => ?_⟩
              rw [List.mem_singleton.1 hy] at e'
              exact hlit (e' ▸ hx)
            · rw [e3rs] at hv
              rw [e3st]
              by_cases hv' : v = lit.natAbs
              · exact ⟨-lit, by simp, by rw [hv', Int.natAbs_neg]⟩
              · rw [put_ne _ _ hv'] at hv
                obtain ⟨x, hx, e'⟩ := h.fw.rs v c hv
                exact ⟨x, List.mem_append_left _ hx, e'⟩
          have hrs3 : ∀ x ∈ S.stack, S3.reason x.natAbs = S.reason x.natAbs := by
            intro x hx
            rw [e3rs]
            have := f2 x (by rw [e2st]; exact hx)
            rw [e2rs] at this
            exact this
          split at e
          · cases e
          · rename_i S4 e4
            obtain ⟨hI4, g, hpr⟩ := prop_done hI3 e4
            obtain ⟨R, hR⟩ := g.pre
            have e4st : S4.stack = S.stack ++ -lit :: R := by rw [← hR, e3st]; simp
            have hrs4 : ∀ x ∈ S.stack, S4.reason x.natAbs = S.reason x.natAbs := fun x hx => (g.rs x (by rw [e3st]; simp [hx])).trans (hrs3 x hx)
            refine ih hn' ⟨hI4, g.fw hfw3, hpr, by rw [g.mark, e3mk]; exact h.mark, ?_⟩ e
            rw [e4st]
            have hcons := hI4.inv.cons hz hI4.wf.perm
            have hnd := (g.fw hfw3).nd
            rw [e4st] at hcons hnd
            refine .unit (h.hist.mono hrs4) (hd.mono hrs4) hntr hfil hnd hcons fun x hx => ?_
            have hx4 : x ∈ S4.stack := by rw [e4st]; exact List.mem_append_right _ hx
            cases hr : S4.reason x.natAbs with
            | none => exact absurd (hI4.inv.asm x hx4 hr) id
            | some i =>
              obtain ⟨p, hp⟩ := List.getElem?_of_mem hx4
              exact ⟨i, (hI4.inv.why p x i hp hr).1, rfl⟩
          · rename_i S4 e4
            injection e with e
            subst e
            have rf := prop_refuted hz hI3 (by rw [e3fc, e3st]; simp) e4
            have e4st : S4.stack = S.stack := by rw [rf.stack, e3fc, e3st]; simp
            have hrs4 : ∀ x ∈ S.stack, S4.reason x.natAbs = S.reason x.natAbs := fun x hx => (rf.rs x (by rw [e3st]; simp [hx])).trans (hrs3 x hx)
            have hh4 : Hist c0 n S4.reason k done S.stack rm := h.hist.mono hrs4
            have e4fc : S4.forced = S.stack.length := by rw [rf.forced, e3fc]
            have e4pr : S4.processed = S.stack.length := by rw [rf.processed, e3fc]
            refine ⟨k, ds, done, rfl, ⟨⟨rm, rm', ?_, ?_, ?_⟩, ?_, ?_, ?_, ?_, ?_⟩⟩
            · show Hist c0 n S4.reason k done S4.stack rm
              rw [e4st]; exact hh4
            · show Dels c0 S4.reason S4.stack k ds rm rm'
              rw [e4st]; exact hd.mono hrs4
            · refine ⟨⟨rf.wf.perm, rf.wf.cnt⟩, ⟨rf.fs, fun x hx hr => ?_, rf.why⟩, rf.ri⟩
              have hx : x ∈ S4.stack := hx
              rw [e4st] at hx
              obtain ⟨i, _, hi⟩ := hh4.reasons x hx
              have hr : S4.reason x.natAbs = none := hr
              rw [hr] at hi
              cases hi
            · show S4.processed = S4.stack.length
              rw [e4pr, e4st]
            · show S4.processed = S4.stack.length
              rw [e4pr, e4st]
            · show ∀ x ∈ c0 k, -x ∉ S4.stack
              rw [e4st]; exact hntr
            · show NoSat done S4.mark
              have hh3 : Hist c0 n S3.reason k done S.stack rm := h.hist.mono hrs3
              refine noSat_of (S := S3) (T0 := S.stack) hh3 (fun x hx => by rw [e3st]; simp [hx]) (fun l hl => ?_) (fun s _ _ => by rw [e3mk]; exact h.mark _) rf.new
              rw [e3st]
              intro hm
              rcases List.mem_append.1 hm with hm | hm
              · have := h.hist.cons l hm
                exact this hl
              · rw [List.mem_singleton.1 hm, Int.neg_neg] at hl
                exact hlm.2 hl
            · exact uns_of fun σ hs => rf.unsat σ hs fun _ h => h.elim
        | x :: y :: rest, e =>
          simp only at e
          refine ih hn' ⟨hI2, hfw2, by rw [e2pr, e2st], by rw [e2mk]; exact h.mark, ?_⟩ e
          rw [e2rs, e2st]
          refine .opn h.hist hd hntr ?_
          rw [← hbufp.length_eq]
          simp

end Verif.Drup
