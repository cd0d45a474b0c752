import Mathlib.Order.Defs.LinearOrder
import Mathlib.Order.Basic
/-
Model of src/collections/lng_heap.rs, the solver's variable order.
-/
namespace Verif

/-- `LngHeap`, lng_heap.rs:6-9.  `usize::MAX` in `indices` ("not in the heap") is `none`. -/
structure Heap where
  heap : List Nat
  idx : List (Option Nat)
deriving DecidableEq

namespace Heap
variable {α : Type} [LinearOrder α]

/-- `LngHeap::new`, lng_heap.rs:12-14. -/
def new : Heap := ⟨[], []⟩

/-- `in_heap`, lng_heap.rs:20-22. -/
def inHeap (s : Heap) (n : Nat) : Bool :=
  match s.idx[n]? with
  | some (some _) => true
  | _ => false

/-- `heap[j] = v; indices[v] = j`; out of bounds is a panic. -/
def put (s : Heap) (j v : Nat) : Option Heap :=
  if j < s.heap.length ∧ v < s.idx.length then some ⟨s.heap.set j v, s.idx.set v (some j)⟩ else none

/-- The loop of `percolate_up`, lng_heap.rs:81-89. Activities (`f64` without NaN) are from a linear order. -/
def upLoop (act : Nat → α) (x : Nat) : Nat → Nat → Heap → Option Heap
  | 0, _, _ => none
  | fuel + 1, j, s =>
    if j = 0 then s.put j x
    else
      match s.heap[(j - 1) / 2]? with
      | none => none
      | some hp =>
        if act hp < act x then
          match s.put j hp with
          | none => none
          | some s => upLoop act x fuel ((j - 1) / 2) s
        else s.put j x

/-- `percolate_up`, lng_heap.rs:77-90. -/
def up (act : Nat → α) (pos : Nat) (s : Heap) : Option Heap :=
  match s.heap[pos]? with
  | none => none
  | some x => upLoop act x (pos + 1) pos s

/-- The choice of the child, lng_heap.rs:98-102. -/
def child (act : Nat → α) (p : Nat) (s : Heap) : Nat :=
  match s.heap[(p + 1) * 2]?, s.heap[p * 2 + 1]? with
  | some r, some l => if act l < act r then (p + 1) * 2 else p * 2 + 1
  | _, _ => p * 2 + 1

/-- The loop of `percolate_down`, lng_heap.rs:95-111. -/
def downLoop (act : Nat → α) (y : Nat) : Nat → Nat → Heap → Option Heap
  | 0, _, _ => none
  | fuel + 1, p, s =>
    if p * 2 + 1 < s.heap.length then
      match s.heap[child act p s]? with
      | none => none
      | some hc =>
        if act hc ≤ act y then s.put p y
        else
          match s.put p hc with
          | none => none
          | some s' => downLoop act y fuel (child act p s) s'
    else s.put p y

/-- `percolate_down`, lng_heap.rs:92-112. -/
def down (act : Nat → α) (pos : Nat) (s : Heap) : Option Heap :=
  match s.heap[pos]? with
  | none => none
  | some y => downLoop act y (s.heap.length + 1) pos s

/-- `decrease`, lng_heap.rs:24-27 (a variable that is not in the heap leads to an index panic). -/
def decrease (act : Nat → α) (n : Nat) (s : Heap) : Option Heap :=
  match s.idx[n]? with
  | some (some i) => up act i s
  | _ => none

/-- `grow_to`, vector_functions.rs. -/
def grow (l : List (Option Nat)) (n : Nat) : List (Option Nat) := l ++ List.replicate (n - l.length) none

/-- `insert`, lng_heap.rs:29-35. -/
def insert (act : Nat → α) (n : Nat) (s : Heap) : Option Heap :=
  up act s.heap.length ⟨s.heap ++ [n], (grow s.idx (n + 1)).set n (some s.heap.length)⟩

/-- `remove_min`, lng_heap.rs:37-47. -/
def removeMin (act : Nat → α) (s : Heap) : Option (Nat × Heap) :=
  match s.heap[0]?, s.heap.getLast? with
  | some x, some l =>
    if l < s.idx.length ∧ x < s.idx.length then
      let s' : Heap := ⟨(s.heap.set 0 l).dropLast, (s.idx.set l (some 0)).set x none⟩
      if s'.heap.length > 1 then (down act 0 s').map fun s => (x, s) else some (x, s')
    else none
  | _, _ => none

/-- `remove`, lng_heap.rs:49-61. -/
def remove (act : Nat → α) (n : Nat) (s : Heap) : Option Heap :=
  match s.idx[n]? with
  | some (some k) =>
    let idx := s.idx.set n none
    if k < s.heap.length - 1 then
      match s.heap.getLast? with
      | none => none
      | some l => if l < idx.length then down act k ⟨(s.heap.set k l).dropLast, idx.set l (some k)⟩ else none
    else some ⟨s.heap.dropLast, idx⟩
  | _ => none

/-- First loop of `build`, lng_heap.rs:64-66. -/
def clearAll : List Nat → List (Option Nat) → Option (List (Option Nat))
  | [], idx => some idx
  | n :: ns, idx => if n < idx.length then clearAll ns (idx.set n none) else none

/-- Second loop of `build`, lng_heap.rs:68-71. -/
def pushAll : List Nat → Heap → Option Heap
  | [], s => some s
  | n :: ns, s => if n < s.idx.length then pushAll ns ⟨s.heap ++ [n], s.idx.set n (some s.heap.length)⟩ else none

/-- Third loop of `build`, lng_heap.rs:72-74: `i` counts down to 0. -/
def downAll (act : Nat → α) : Nat → Heap → Option Heap
  | 0, s => some s
  | i + 1, s =>
    match down act i s with
    | none => none
    | some s => downAll act i s

/-- `build`, lng_heap.rs:63-75. -/
def build (act : Nat → α) (ns : List Nat) (s : Heap) : Option Heap :=
  match clearAll s.heap s.idx with
  | none => none
  | some idx =>
    match pushAll ns ⟨[], idx⟩ with
    | none => none
    | some s => downAll act (s.heap.length / 2) s

/-! ### Specification -/

/-- The position table is right. -/
def Cons (s : Heap) : Prop := ∀ n i : Nat, s.idx[n]? = some (some i) ↔ s.heap[i]? = some n

/-- No element precedes its parent, from index `k` on. -/
def OrderFrom (act : Nat → α) (k : Nat) (s : Heap) : Prop :=
  ∀ i a b : Nat, 0 < i → k ≤ (i - 1) / 2 → s.heap[i]? = some a → s.heap[(i - 1) / 2]? = some b → act a ≤ act b

abbrev Order (act : Nat → α) (s : Heap) : Prop := OrderFrom act 0 s

/-! ### The moving hole -/

/-- `x` is about to be placed at position `j`; all other elements are in order. -/
structure Hole (s : Heap) (j x : Nat) : Prop where
  lt : j < s.heap.length
  xlt : x < s.idx.length
  cons : ∀ n, n ≠ x → ∀ i : Nat, s.idx[n]? = some (some i) ↔ i ≠ j ∧ s.heap[i]? = some n
  nox : ∀ i : Nat, i ≠ j → s.heap[i]? ≠ some x

/-- Elements with `x` in the hole. -/
def Mem (s : Heap) (j x n : Nat) : Prop := n = x ∨ ∃ i : Nat, i ≠ j ∧ s.heap[i]? = some n

/-- The sequence with `x` in the hole. -/
def V (s : Heap) (j x i : Nat) : Option Nat := if i = j then some x else s.heap[i]?

theorem idx_lt {s : Heap} {n : Nat} {o} (h : s.idx[n]? = some o) : n < s.idx.length := by
  rcases List.getElem?_eq_some_iff.1 h with ⟨h, _⟩; exact h

theorem Hole.place {s j x} (h : Hole s j x) : ∃ s', s.put j x = some s' ∧ s'.Cons ∧ s'.heap.length = s.heap.length ∧ s'.idx.length = s.idx.length ∧
    (∀ i : Nat, s'.heap[i]? = V s j x i) := by
  refine ⟨⟨s.heap.set j x, s.idx.set x (some j)⟩, by simp [put, h.lt, h.xlt], fun n i => ?_, by simp, by simp, fun i => ?_⟩
  · simp only [List.getElem?_set]
    by_cases hn : x = n
    · subst hn
      simp only [if_true, h.xlt, h.lt]
      by_cases hi : j = i
      · simp [hi]
      · simp [hi, h.nox i (Ne.symm hi)]
    · rw [if_neg hn, h.cons n (Ne.symm hn) i]
      by_cases hi : j = i
      · subst hi; simp [h.lt, hn]
      · simp [hi, Ne.symm hi]
  · simp only [List.getElem?_set, V]
    by_cases hi : i = j
    · subst hi; simp [h.lt]
    · simp [hi, Ne.symm hi]

theorem Hole.step {s j x} (h : Hole s j x) {p hp : Nat} (hpj : p ≠ j) (hh : s.heap[p]? = some hp) :
    ∃ s', s.put j hp = some s' ∧ Hole s' p x ∧ s'.heap.length = s.heap.length ∧ s'.idx.length = s.idx.length ∧
      (∀ i : Nat, V s' p x i = if i = p then some x else if i = j then some hp else V s j x i) ∧ (∀ n, Mem s' p x n ↔ Mem s j x n) := by
  have hx : hp ≠ x := fun e => h.nox p hpj (e ▸ hh)
  have hlt : hp < s.idx.length := idx_lt ((h.cons hp hx p).2 ⟨hpj, hh⟩)
  have hpl : p < s.heap.length := (List.getElem?_eq_some_iff.1 hh).1
  refine ⟨⟨s.heap.set j hp, s.idx.set hp (some j)⟩, by simp [put, h.lt, hlt], ⟨by simpa using hpl, by simpa using h.xlt, fun n hn i => ?_, fun i hi => ?_⟩, by simp, by simp, fun i => ?_, fun n => ?_⟩
  · simp only [List.getElem?_set]
    by_cases e : hp = n
    · subst e
      simp only [if_true, hlt]
      by_cases hi : j = i
      · subst hi; simp [Ne.symm hpj, h.lt]
      · simp only [hi, if_false, Option.some.injEq, false_iff, not_and]
        intro hip hs
        have h1 := (h.cons hp hx i).2 ⟨Ne.symm hi, hs⟩
        have h2 := (h.cons hp hx p).2 ⟨hpj, hh⟩
        rw [h1] at h2; injection h2 with h2; injection h2 with h2; exact hip h2
    · rw [if_neg e, h.cons n hn i]
      by_cases hi : j = i
      · subst hi; simp [h.lt, e]
      · simp only [hi, if_false, ne_eq, Ne.symm hi, not_false_eq_true, true_and]
        constructor
        · intro hs; exact ⟨fun e' => e (by rw [e', hh] at hs; injection hs), hs⟩
        · exact fun h => h.2
  · simp only [List.getElem?_set]
    split
    · simp [h.lt, hx]
    · rename_i hne; exact h.nox i (Ne.symm hne)
  · simp only [V, List.getElem?_set]
    by_cases hi : i = p
    · simp [hi]
    · by_cases hi' : i = j
      · subst hi'; simp [hi, h.lt]
      · simp [hi, hi', Ne.symm hi']
  · simp only [Mem, List.getElem?_set]
    refine or_congr Iff.rfl ⟨?_, ?_⟩
    · rintro ⟨i, hi, hs⟩
      split at hs
      · simp [h.lt] at hs; subst hs; exact ⟨p, hpj, hh⟩
      · rename_i hne; exact ⟨i, Ne.symm hne, hs⟩
    · rintro ⟨i, hi, hs⟩
      by_cases hip : i = p
      · subst hip; rw [hh] at hs; injection hs with hs; subst hs
        exact ⟨j, Ne.symm hpj, by simp [h.lt]⟩
      · exact ⟨i, hip, by simp [Ne.symm hi, hs]⟩

/-- The result of filling the hole. -/
structure Filled (s : Heap) (j x : Nat) (s' : Heap) : Prop where
  cons : s'.Cons
  len : s'.heap.length = s.heap.length
  ilen : s'.idx.length = s.idx.length
  mem : ∀ n, n ∈ s'.heap ↔ Mem s j x n

theorem Hole.filled {s j x} (h : Hole s j x) : ∃ s', s.put j x = some s' ∧ Filled s j x s' ∧ ∀ i : Nat, s'.heap[i]? = V s j x i := by
  obtain ⟨s', e, hc, hl, hil, hv⟩ := h.place
  refine ⟨s', e, ⟨hc, hl, hil, fun n => ?_⟩, hv⟩
  rw [List.mem_iff_getElem?]
  constructor
  · rintro ⟨i, hi⟩
    rw [hv, V] at hi
    split at hi
    · injection hi with hi; exact .inl hi.symm
    · rename_i hne; exact .inr ⟨i, hne, hi⟩
  · rintro (rfl | ⟨i, hi, hs⟩)
    · exact ⟨j, by rw [hv]; simp [V]⟩
    · exact ⟨i, by rw [hv]; simp [V, hi, hs]⟩

/-- Up-invariant. -/
structure Up (act : Nat → α) (s : Heap) (j x : Nat) : Prop where
  ord : ∀ i a b, 0 < i → i ≠ j → V s j x i = some a → V s j x ((i - 1) / 2) = some b → act a ≤ act b
  grand : 0 < j → ∀ i a b, 0 < i → (i - 1) / 2 = j → V s j x i = some a → V s j x ((j - 1) / 2) = some b → act a ≤ act b

theorem upLoop_ok (act : Nat → α) (x : Nat) (fuel : Nat) : ∀ {j s}, j < fuel → Hole s j x →
    ∃ s', upLoop act x fuel j s = some s' ∧ Filled s j x s' ∧ (Up act s j x → Order act s') := by
  induction fuel with
  | zero => intro j s h; omega
  | succ fuel ih =>
    intro j s hj h
    obtain ⟨s1, e1, f1, v1⟩ := h.filled
    unfold upLoop
    by_cases hz : j = 0
    · subst hz
      simp only [if_true]
      refine ⟨s1, e1, f1, fun hu i a b hi _ ha hb => ?_⟩
      rw [v1] at ha hb
      exact hu.ord i a b hi (by omega) ha hb
    · rw [if_neg hz]
      have hplt : (j - 1) / 2 < j := by omega
      have hpl : (j - 1) / 2 < s.heap.length := by have := h.lt; omega
      have hh : s.heap[(j - 1) / 2]? = some s.heap[(j - 1) / 2] := List.getElem?_eq_getElem hpl
      generalize s.heap[(j - 1) / 2] = hp at hh
      simp only [hh]
      have hVp : V s j x ((j - 1) / 2) = some hp := by simp [V, hh]; omega
      by_cases hlt : act hp < act x
      · rw [if_pos hlt]
        obtain ⟨s2, e2, h2, l2, il2, v2, m2⟩ := h.step (by omega) hh
        simp only [e2]
        obtain ⟨s3, e3, f3, o3⟩ := ih (j := (j - 1) / 2) (by omega) h2
        refine ⟨s3, e3, ⟨f3.cons, by rw [f3.len, l2], by rw [f3.ilen, il2], fun n => by rw [f3.mem, m2]⟩, fun hu => o3 ⟨?_, ?_⟩⟩
        · intro i a b hi hne ha hb
          rw [v2] at ha hb
          rw [if_neg hne] at ha
          by_cases hij : i = j
          · subst hij
            simp only [if_true] at ha hb
            injection ha with ha; injection hb with hb; subst ha; subst hb
            exact le_of_lt hlt
          · rw [if_neg hij] at ha
            by_cases hp1 : (i - 1) / 2 = (j - 1) / 2
            · rw [if_pos hp1] at hb
              injection hb with hb; subst hb
              exact le_trans (hu.ord i a hp hi hij ha (hp1 ▸ hVp)) (le_of_lt hlt)
            · rw [if_neg hp1] at hb
              by_cases hp2 : (i - 1) / 2 = j
              · rw [if_pos hp2] at hb
                injection hb with hb; subst hb
                exact hu.grand (by omega) i a hp hi hp2 ha hVp
              · rw [if_neg hp2] at hb
                exact hu.ord i a b hi hij ha hb
        · intro hp0 i a b hi hpi ha hb
          rw [v2] at ha hb
          rw [if_neg (by omega), if_neg (by omega)] at hb
          rw [if_neg (by omega)] at ha
          have hpb := hu.ord _ hp b hp0 (by omega) hVp hb
          by_cases hij : i = j
          · rw [if_pos hij] at ha; injection ha with ha; subst ha; exact hpb
          · rw [if_neg hij] at ha
            exact le_trans (hu.ord i a hp hi hij ha (hpi ▸ hVp)) hpb
      · rw [if_neg hlt]
        refine ⟨s1, e1, f1, fun hu i a b hi _ ha hb => ?_⟩
        rw [v1] at ha hb
        by_cases hij : i = j
        · subst hij
          rw [hVp] at hb; injection hb with hb; subst hb
          simp only [V, if_true] at ha; injection ha with ha; subst ha
          exact le_of_not_gt hlt
        · exact hu.ord i a b hi hij ha hb

/-- Down-invariant. -/
structure Down (act : Nat → α) (k : Nat) (s : Heap) (p y : Nat) : Prop where
  le : k ≤ p
  ord : ∀ i a b, 0 < i → k ≤ (i - 1) / 2 → (i - 1) / 2 ≠ p → V s p y i = some a → V s p y ((i - 1) / 2) = some b → act a ≤ act b
  grand : 0 < p → k ≤ (p - 1) / 2 → ∀ i a b, 0 < i → (i - 1) / 2 = p → V s p y i = some a → V s p y ((p - 1) / 2) = some b → act a ≤ act b

theorem child_ok (act : Nat → α) {p : Nat} {s : Heap} (h : p * 2 + 1 < s.heap.length) :
    ∃ hc : Nat, s.heap[child act p s]? = some hc ∧ (child act p s = p * 2 + 1 ∨ child act p s = (p + 1) * 2) ∧
      ∀ i a : Nat, 0 < i → (i - 1) / 2 = p → s.heap[i]? = some a → act a ≤ act hc := by
  have hl : s.heap[p * 2 + 1]? = some s.heap[p * 2 + 1] := List.getElem?_eq_getElem h
  generalize s.heap[p * 2 + 1] = l at hl
  have two : ∀ i, 0 < i → (i - 1) / 2 = p → i = p * 2 + 1 ∨ i = (p + 1) * 2 := by intro i h1 h2; omega
  cases hr : s.heap[(p + 1) * 2]? with
  | none =>
    have hc : child act p s = p * 2 + 1 := by unfold child; rw [hr]
    rw [hc]
    refine ⟨l, hl, .inl rfl, fun i a hi hp ha => ?_⟩
    rcases two i hi hp with rfl | rfl
    · rw [hl] at ha; injection ha with ha; subst ha; exact le_refl _
    · rw [hr] at ha; cases ha
  | some r =>
    by_cases hlr : act l < act r
    · have hc : child act p s = (p + 1) * 2 := by unfold child; rw [hr, hl]; simp [hlr]
      rw [hc]
      refine ⟨r, hr, .inr rfl, fun i a hi hp ha => ?_⟩
      rcases two i hi hp with rfl | rfl
      · rw [hl] at ha; injection ha with ha; subst ha; exact le_of_lt hlr
      · rw [hr] at ha; injection ha with ha; subst ha; exact le_refl _
    · have hc : child act p s = p * 2 + 1 := by unfold child; rw [hr, hl]; simp [hlr]
      rw [hc]
      refine ⟨l, hl, .inl rfl, fun i a hi hp ha => ?_⟩
      rcases two i hi hp with rfl | rfl
      · rw [hl] at ha; injection ha with ha; subst ha; exact le_refl _
      · rw [hr] at ha; injection ha with ha; subst ha; exact le_of_not_gt hlr

theorem downLoop_ok (act : Nat → α) (y : Nat) (fuel : Nat) : ∀ {p s}, s.heap.length < fuel + p → Hole s p y →
    ∃ s', downLoop act y fuel p s = some s' ∧ Filled s p y s' ∧ ∀ k, Down act k s p y → OrderFrom act k s' := by
  induction fuel with
  | zero => intro p s h hh; have := hh.lt; omega
  | succ fuel ih =>
    intro p s hf h
    obtain ⟨s1, e1, f1, v1⟩ := h.filled
    unfold downLoop
    by_cases hlen : p * 2 + 1 < s.heap.length
    · rw [if_pos hlen]
      obtain ⟨hc, ec, hcc, hmax⟩ := child_ok act hlen
      generalize child act p s = c at ec hcc
      simp only [ec]
      have hcp : c ≠ p := by omega
      have hc0 : 0 < c := by omega
      have hpc : (c - 1) / 2 = p := by omega
      have hVc : V s p y c = some hc := by simp [V, ec, hcp]
      have hkids : ∀ i a, 0 < i → (i - 1) / 2 = p → V s p y i = some a → act a ≤ act hc := by
        intro i a hi hp ha
        have : i ≠ p := by omega
        simp only [V, if_neg this] at ha
        exact hmax i a hi hp ha
      by_cases hle : act hc ≤ act y
      · rw [if_pos hle]
        refine ⟨s1, e1, f1, fun k hd i a b hi hk ha hb => ?_⟩
        rw [v1] at ha hb
        by_cases hip : (i - 1) / 2 = p
        · rw [hip] at hb; simp only [V, if_true] at hb; injection hb with hb; subst hb
          exact le_trans (hkids i a hi hip ha) hle
        · exact hd.ord i a b hi hk hip ha hb
      · rw [if_neg hle]
        obtain ⟨s2, e2, h2, l2, il2, v2, m2⟩ := h.step hcp ec
        simp only [e2]
        obtain ⟨s3, e3, f3, o3⟩ := ih (p := c) (s := s2) (by omega) h2
        refine ⟨s3, e3, ⟨f3.cons, by rw [f3.len, l2], by rw [f3.ilen, il2], fun n => by rw [f3.mem, m2]⟩, fun k hd => o3 k ⟨by have := hd.le; omega, ?_, ?_⟩⟩
        · intro i a b hi hk hic ha hb
          rw [v2] at ha hb
          rw [if_neg hic] at hb
          by_cases hiC : i = c
          · subst hiC
            rw [if_pos rfl] at ha; injection ha with ha; subst ha
            rw [if_pos hpc] at hb; injection hb with hb; subst hb
            exact le_of_not_ge hle
          · rw [if_neg hiC] at ha
            by_cases hip : i = p
            · subst hip
              rw [if_pos rfl] at ha; injection ha with ha; subst ha
              rw [if_neg (by omega)] at hb
              exact hd.grand hi hk c hc b hc0 hpc hVc hb
            · rw [if_neg hip] at ha
              by_cases hpi : (i - 1) / 2 = p
              · rw [if_pos hpi] at hb; injection hb with hb; subst hb
                exact hkids i a hi hpi ha
              · rw [if_neg hpi] at hb
                exact hd.ord i a b hi hk hpi ha hb
        · intro _ hk i a b hi hic ha hb
          rw [v2] at ha hb
          rw [if_neg (by omega), if_pos hpc] at hb
          injection hb with hb; subst hb
          rw [if_neg (by omega), if_neg (by omega)] at ha
          exact hd.ord i a hc hi (by have := hd.le; omega) (by omega) ha (hic ▸ hVc)
    · rw [if_neg hlen]
      refine ⟨s1, e1, f1, fun k hd i a b hi hk ha hb => ?_⟩
      rw [v1] at ha hb
      by_cases hip : (i - 1) / 2 = p
      · exfalso
        have : i ≠ p := by omega
        simp only [V, if_neg this] at ha
        have := (List.getElem?_eq_some_iff.1 ha).1
        omega
      · exact hd.ord i a b hi hk hip ha hb

/-! ### The operations -/

theorem Cons.hole {s : Heap} (h : s.Cons) {j x : Nat} (hj : s.heap[j]? = some x) : Hole s j x where
  lt := (List.getElem?_eq_some_iff.1 hj).1
  xlt := idx_lt ((h x j).2 hj)
  cons n hn i := by
    rw [h n i]
    refine ⟨fun hs => ⟨fun e => hn ?_, hs⟩, fun h => h.2⟩
    rw [e, hj] at hs; injection hs with hs; exact hs.symm
  nox i hi hs := by
    have h1 := (h x i).2 hs
    have h2 := (h x j).2 hj
    rw [h1] at h2; injection h2 with h2; injection h2 with h2; exact hi h2

theorem V_self {s : Heap} {j x : Nat} (hj : s.heap[j]? = some x) (i : Nat) : V s j x i = s.heap[i]? := by
  unfold V; split
  · rename_i e; rw [e, hj]
  · rfl

theorem mem_self {s : Heap} {j x n : Nat} (hj : s.heap[j]? = some x) : Mem s j x n ↔ n ∈ s.heap := by
  rw [List.mem_iff_getElem?]
  constructor
  · rintro (rfl | ⟨i, _, hi⟩)
    · exact ⟨j, hj⟩
    · exact ⟨i, hi⟩
  · rintro ⟨i, hi⟩
    by_cases e : i = j
    · rw [e, hj] at hi; injection hi with hi; exact .inl hi.symm
    · exact .inr ⟨i, e, hi⟩

theorem inHeap_iff {s : Heap} (h : s.Cons) (n : Nat) : s.inHeap n = true ↔ n ∈ s.heap := by
  rw [List.mem_iff_getElem?]
  unfold inHeap
  constructor
  · split
    · rename_i i hi; intro _; exact ⟨i, (h n i).1 hi⟩
    · intro h; cases h
  · rintro ⟨i, hi⟩; rw [(h n i).2 hi]

/-- Elements occur once. -/
theorem Cons.nodup {s : Heap} (h : s.Cons) : s.heap.Nodup := by
  rw [List.nodup_iff_pairwise_ne, List.pairwise_iff_getElem]
  intro i j hi hj hij e
  have h1 := (h _ j).2 (List.getElem?_eq_getElem hj)
  have h2 := (h _ i).2 (List.getElem?_eq_getElem hi)
  rw [e] at h2
  rw [h1] at h2; injection h2 with h2; injection h2 with h2; omega

/-- `decrease` after the activity of `n` was raised. -/
theorem decrease_ok {act act' : Nat → α} {n : Nat} {s : Heap} (h : s.Cons) (hn : n ∈ s.heap) (hother : ∀ m, m ≠ n → act' m = act m)
    (hraise : act n ≤ act' n) : ∃ s', s.decrease act' n = some s' ∧ s'.Cons ∧ s'.heap.length = s.heap.length ∧ s'.idx.length = s.idx.length ∧
      (∀ m, m ∈ s'.heap ↔ m ∈ s.heap) ∧ (Order act s → Order act' s') := by
  obtain ⟨i, hi⟩ := List.mem_iff_getElem?.1 hn
  obtain ⟨s', e, f, o⟩ := upLoop_ok act' n (i + 1) (Nat.lt_succ_self i) (h.hole hi)
  refine ⟨s', by simp [decrease, (h n i).2 hi, up, hi, e], f.cons, f.len, f.ilen, fun m => by rw [f.mem, mem_self hi], fun ho => o ⟨?_, ?_⟩⟩
  · intro k a b hk hki ha hb
    rw [V_self hi] at ha hb
    have hab := ho k a b hk (Nat.zero_le _) ha hb
    have hna : a ≠ n := by
      rintro rfl
      have h1 := (h _ k).2 ha
      have h2 := (h _ i).2 hi
      rw [h1] at h2; injection h2 with h2; injection h2 with h2; exact hki h2
    rw [hother a hna]
    by_cases hb' : b = n
    · subst hb'; exact le_trans hab hraise
    · rw [hother b hb']; exact hab
  · intro hi0 k a b hk hki ha hb
    rw [V_self hi] at ha hb
    have ne : ∀ {m q : Nat}, s.heap[m]? = some q → m ≠ i → q ≠ n := by
      rintro m q hm hne rfl
      have h1 := (h _ m).2 hm
      have h2 := (h _ i).2 hi
      rw [h1] at h2; injection h2 with h2; injection h2 with h2; exact hne h2
    have h1 := ho k a n hk (Nat.zero_le _) ha (hki ▸ hi)
    have h2 := ho i n b hi0 (Nat.zero_le _) hi hb
    rw [hother a (ne ha (by omega)), hother b (ne hb (by omega))]
    exact le_trans h1 h2

theorem grow_get (l : List (Option Nat)) (n m i : Nat) : (grow l n)[m]? = some (some i) ↔ l[m]? = some (some i) := by
  unfold grow
  by_cases hm : m < l.length
  · rw [List.getElem?_append_left hm]
  · have h1 : l[m]? = none := List.getElem?_eq_none (by omega)
    rw [List.getElem?_append_right (by omega), h1, List.getElem?_replicate]
    split <;> simp

theorem grow_length (l : List (Option Nat)) (n : Nat) : (grow l n).length = max l.length n := by
  simp [grow]; omega

theorem insert_ok {act : Nat → α} {n : Nat} {s : Heap} (h : s.Cons) (hn : n ∉ s.heap) :
    ∃ s', s.insert act n = some s' ∧ s'.Cons ∧ s'.heap.length = s.heap.length + 1 ∧ s'.idx.length = max s.idx.length (n + 1) ∧
      (∀ m, m ∈ s'.heap ↔ m = n ∨ m ∈ s.heap) ∧ (Order act s → Order act s') := by
  have hg : (s.heap ++ [n])[s.heap.length]? = some n := by simp
  have hlen : n < (grow s.idx (n + 1)).length := by rw [grow_length]; omega
  have hc : Cons ⟨s.heap ++ [n], (grow s.idx (n + 1)).set n (some s.heap.length)⟩ := by
    intro m i
    simp only [List.getElem?_set]
    by_cases e : n = m
    · subst e
      simp only [if_true, hlen, Option.some.injEq]
      constructor
      · rintro rfl; exact hg
      · intro hi
        by_cases hlt : i < s.heap.length
        · rw [List.getElem?_append_left hlt] at hi
          exact absurd (List.mem_iff_getElem?.2 ⟨i, hi⟩) hn
        · have := (List.getElem?_eq_some_iff.1 hi).1; simp at this; omega
    · rw [if_neg e, grow_get, h m i]
      by_cases hlt : i < s.heap.length
      · rw [List.getElem?_append_left hlt]
      · rw [List.getElem?_eq_none (by omega)]
        by_cases hi : i = s.heap.length
        · subst hi; rw [hg]; simp [e]
        · rw [List.getElem?_eq_none (by simp; omega)]
  obtain ⟨s', e, f, o⟩ := upLoop_ok act n (s.heap.length + 1) (Nat.lt_succ_self _) (hc.hole hg)
  refine ⟨s', by simp only [insert, up, hg, e], f.cons, by rw [f.len]; simp, by rw [f.ilen]; simp [grow_length], fun m => by rw [f.mem, mem_self hg]; simp [or_comm], fun ho => o ⟨?_, ?_⟩⟩
  · intro i a b hi hne ha hb
    rw [V_self hg] at ha hb
    have hil := (List.getElem?_eq_some_iff.1 ha).1
    simp at hil
    have hil : i < s.heap.length := by omega
    simp only [List.getElem?_append_left hil] at ha
    simp only [List.getElem?_append_left (show (i - 1) / 2 < s.heap.length by omega)] at hb
    exact ho i a b hi (Nat.zero_le _) ha hb
  · intro _ i a b hi hp ha _
    rw [V_self hg] at ha
    have := (List.getElem?_eq_some_iff.1 ha).1
    simp at this
    omega

/-- The root is a maximum. -/
theorem root_max {act : Nat → α} {s : Heap} (ho : Order act s) {x : Nat} (hx : s.heap[0]? = some x) : ∀ m ∈ s.heap, act m ≤ act x := by
  have key : ∀ n i a : Nat, i ≤ n → s.heap[i]? = some a → act a ≤ act x := by
    intro n
    induction n with
    | zero => intro i a hi ha; have : i = 0 := by omega
              subst this; rw [hx] at ha; injection ha with ha; subst ha; exact le_refl _
    | succ n ih =>
      intro i a hi ha
      by_cases h0 : i = 0
      · subst h0; rw [hx] at ha; injection ha with ha; subst ha; exact le_refl _
      · have hl := (List.getElem?_eq_some_iff.1 ha).1
        have hb : s.heap[(i - 1) / 2]? = some (s.heap[(i - 1) / 2]'(by omega)) := List.getElem?_eq_getElem (by omega)
        exact le_trans (ho i a _ (by omega) (Nat.zero_le _) ha hb) (ih _ _ (by omega) hb)
  intro m hm
  obtain ⟨i, hi⟩ := List.mem_iff_getElem?.1 hm
  exact key i i m (Nat.le_refl _) hi

theorem getElem?_dropLast' {β : Type} (l : List β) (i : Nat) : l.dropLast[i]? = if i + 1 < l.length then l[i]? else none := by
  rw [List.dropLast_eq_take, List.getElem?_take]
  by_cases h : i + 1 < l.length
  · rw [if_pos h, if_pos (by omega)]
  · rw [if_neg h, if_neg (by omega)]

/-- Taking the element at `k` out and the last one in. -/
theorem take_out {s : Heap} (h : s.Cons) {k n l : Nat} (hk : s.heap[k]? = some n) (hkl : k + 1 < s.heap.length) (hl : s.heap[s.heap.length - 1]? = some l) :
    Cons ⟨(s.heap.set k l).dropLast, (s.idx.set n none).set l (some k)⟩ ∧ l ≠ n ∧ (s.heap.set k l).dropLast[k]? = some l ∧
    (∀ i : Nat, i ≠ k → i + 1 < s.heap.length → (s.heap.set k l).dropLast[i]? = s.heap[i]?) ∧ (s.heap.set k l).dropLast.length = s.heap.length - 1 ∧
    (∀ m, m ∈ (s.heap.set k l).dropLast ↔ m ∈ s.heap ∧ m ≠ n) ∧ l < s.idx.length := by
  have hln : l ≠ n := by
    rintro rfl
    have h1 := (h _ k).2 hk
    have h2 := (h _ _).2 hl
    rw [h1] at h2; injection h2 with h2; injection h2 with h2; omega
  have hlt : l < s.idx.length := idx_lt ((h _ _).2 hl)
  have hgk : (s.heap.set k l).dropLast[k]? = some l := by
    rw [getElem?_dropLast', if_pos (by simpa using hkl), List.getElem?_set, if_pos rfl, if_pos (by omega)]
  have hgi : ∀ i : Nat, i ≠ k → i + 1 < s.heap.length → (s.heap.set k l).dropLast[i]? = s.heap[i]? := by
    intro i hi hlt; rw [getElem?_dropLast']; simp [hlt, List.getElem?_set, Ne.symm hi]
  have hgn : ∀ i : Nat, ¬ i + 1 < s.heap.length → (s.heap.set k l).dropLast[i]? = none := by
    intro i hi; rw [getElem?_dropLast']; simp [hi]
  have inj : ∀ {i j m : Nat}, s.heap[i]? = some m → s.heap[j]? = some m → i = j := by
    intro i j m hi hj
    have h1 := (h _ i).2 hi
    have h2 := (h _ j).2 hj
    rw [h1] at h2; injection h2 with h2; injection h2
  refine ⟨fun m i => ?_, hln, hgk, hgi, by simp, fun m => ?_, hlt⟩
  · simp only [List.getElem?_set]
    by_cases e : l = m
    · subst e
      simp only [if_true, List.length_set, hlt, Option.some.injEq]
      constructor
      · rintro rfl; exact hgk
      · intro hi
        apply Classical.byContradiction; intro hne
        by_cases hil : i + 1 < s.heap.length
        · rw [hgi i (Ne.symm hne) hil] at hi
          have := inj hi hl; omega
        · rw [hgn i hil] at hi; cases hi
    · rw [if_neg e]
      by_cases e' : n = m
      · subst e'
        have : n < s.idx.length := idx_lt ((h _ _).2 hk)
        simp only [if_true, this]
        refine ⟨fun h => (nomatch h), fun hi => ?_⟩
        exfalso
        by_cases hik : i = k
        · subst hik; rw [hgk] at hi; injection hi with hi; exact hln hi
        · by_cases hil : i + 1 < s.heap.length
          · rw [hgi i hik hil] at hi; exact hik (inj hi hk)
          · rw [hgn i hil] at hi; cases hi
      · rw [if_neg e', h m i]
        by_cases hik : i = k
        · subst hik; rw [hgk, hk]; simp [e, e']
        · by_cases hil : i + 1 < s.heap.length
          · rw [hgi i hik hil]
          · rw [hgn i hil]
            refine ⟨fun hi => ?_, fun h => (nomatch h)⟩
            have := (List.getElem?_eq_some_iff.1 hi).1
            have : i = s.heap.length - 1 := by omega
            rw [this, hl] at hi; injection hi with hi; exact absurd hi e
  · rw [List.mem_iff_getElem?, List.mem_iff_getElem?]
    constructor
    · rintro ⟨i, hi⟩
      by_cases hik : i = k
      · subst hik; rw [hgk] at hi; injection hi with hi; subst hi; exact ⟨⟨_, hl⟩, hln⟩
      · by_cases hil : i + 1 < s.heap.length
        · rw [hgi i hik hil] at hi
          exact ⟨⟨i, hi⟩, by rintro rfl; exact hik (inj hi hk)⟩
        · rw [hgn i hil] at hi; cases hi
    · rintro ⟨⟨i, hi⟩, hm⟩
      have hil := (List.getElem?_eq_some_iff.1 hi).1
      by_cases hik : i = k
      · subst hik; rw [hk] at hi; injection hi with hi; exact absurd hi.symm hm
      · by_cases hll : i + 1 < s.heap.length
        · exact ⟨i, by rw [hgi i hik hll]; exact hi⟩
        · have : i = s.heap.length - 1 := by omega
          rw [this, hl] at hi; injection hi with hi; subst hi; exact ⟨k, hgk⟩

theorem getLast?_eq' {β : Type} (l : List β) : l.getLast? = l[l.length - 1]? := List.getLast?_eq_getElem?

/-- Dropping the last element. -/
theorem drop_last {s : Heap} (h : s.Cons) {n : Nat} (hl : s.heap[s.heap.length - 1]? = some n) :
    Cons ⟨s.heap.dropLast, s.idx.set n none⟩ ∧ ∀ m, m ∈ s.heap.dropLast ↔ m ∈ s.heap ∧ m ≠ n := by
  have hpos : 0 < s.heap.length := by have := (List.getElem?_eq_some_iff.1 hl).1; omega
  have inj : ∀ {i j m : Nat}, s.heap[i]? = some m → s.heap[j]? = some m → i = j := by
    intro i j m hi hj
    have h1 := (h _ i).2 hi
    have h2 := (h _ j).2 hj
    rw [h1] at h2; injection h2 with h2; injection h2
  refine ⟨fun m i => ?_, fun m => ?_⟩
  · simp only [List.getElem?_set, getElem?_dropLast']
    by_cases e : n = m
    · subst e
      have : n < s.idx.length := idx_lt ((h _ _).2 hl)
      simp only [if_true, this]
      refine ⟨fun h => (nomatch h), fun hi => ?_⟩
      split at hi
      · have := inj hi hl; omega
      · cases hi
    · rw [if_neg e, h m i]
      split
      · rfl
      · refine ⟨fun hi => ?_, fun h => (nomatch h)⟩
        have := (List.getElem?_eq_some_iff.1 hi).1
        have : i = s.heap.length - 1 := by omega
        rw [this, hl] at hi; injection hi with hi; exact absurd hi e
  · rw [List.mem_iff_getElem?, List.mem_iff_getElem?]
    simp only [getElem?_dropLast']
    constructor
    · rintro ⟨i, hi⟩
      split at hi
      · exact ⟨⟨i, hi⟩, by rintro rfl; have := inj hi hl; omega⟩
      · cases hi
    · rintro ⟨⟨i, hi⟩, hm⟩
      have hil := (List.getElem?_eq_some_iff.1 hi).1
      refine ⟨i, ?_⟩
      rw [if_pos, hi]
      apply Classical.byContradiction; intro hn
      have : i = s.heap.length - 1 := by omega
      rw [this, hl] at hi; injection hi with hi; exact hm hi.symm

theorem removeMin_ok {act : Nat → α} {s : Heap} (h : s.Cons) (hne : s.heap ≠ []) :
    ∃ x s', s.removeMin act = some (x, s') ∧ x ∈ s.heap ∧ s'.Cons ∧ s'.heap.length + 1 = s.heap.length ∧ s'.idx.length = s.idx.length ∧
      (∀ m, m ∈ s'.heap ↔ m ∈ s.heap ∧ m ≠ x) ∧ (Order act s → (∀ m ∈ s.heap, act m ≤ act x) ∧ Order act s') := by
  have hpos : 0 < s.heap.length := List.length_pos_iff.2 hne
  have h0 : s.heap[0]? = some s.heap[0] := List.getElem?_eq_getElem hpos
  generalize s.heap[0] = x at h0
  have hl : s.heap[s.heap.length - 1]? = some (s.heap[s.heap.length - 1]'(by omega)) := List.getElem?_eq_getElem (by omega)
  generalize s.heap[s.heap.length - 1]'(by omega) = l at hl
  have hx : x ∈ s.heap := List.mem_iff_getElem?.2 ⟨0, h0⟩
  have hxl : x < s.idx.length := idx_lt ((h _ _).2 h0)
  have hll : l < s.idx.length := idx_lt ((h _ _).2 hl)
  unfold removeMin
  rw [getLast?_eq', hl, h0]
  simp only [hxl, hll, and_self, if_true]
  by_cases h1 : s.heap.length = 1
  · have hlx : l = x := by rw [h1] at hl; rw [h0] at hl; injection hl with hl; exact hl.symm
    subst hlx
    obtain ⟨d1, d2⟩ := drop_last h hl
    have e1 : s.heap.set 0 l = s.heap := by
      apply List.ext_getElem?; intro i; rw [List.getElem?_set]
      split
      · rename_i e; subst e; rw [h0]
      · rfl
    have e2 : (s.idx.set l (some 0)).set l none = s.idx.set l none := by simp
    have hlen : (s.heap.set 0 l).dropLast.length = 0 := by simp [h1]
    rw [if_neg (by rw [hlen]; omega), e1, e2]
    refine ⟨l, _, rfl, hx, d1, by simp; omega, by simp, d2, fun ho => ⟨root_max ho h0, ?_⟩⟩
    intro i a b _ _ ha
    simp [getElem?_dropLast', h1] at ha
  · obtain ⟨t1, t2, t3, t4, t5, t6, t7⟩ := take_out h h0 (by omega) hl
    have ecomm : (s.idx.set l (some 0)).set x none = (s.idx.set x none).set l (some 0) := List.set_comm _ _ t2
    rw [ecomm]
    have hord : Order act s → OrderFrom act 1 ⟨(s.heap.set 0 l).dropLast, (s.idx.set x none).set l (some 0)⟩ := by
      intro ho i a b hi hk ha hb
      have hil := (List.getElem?_eq_some_iff.1 ha).1
      simp only [t5] at hil
      rw [t4 i (by omega) (by omega)] at ha
      rw [t4 _ (by omega) (by omega)] at hb
      exact ho i a b hi (Nat.zero_le _) ha hb
    by_cases h2 : (s.heap.set 0 l).dropLast.length > 1
    · rw [if_pos h2]
      obtain ⟨s', e, f, o⟩ := downLoop_ok act l ((s.heap.set 0 l).dropLast.length + 1) (p := 0) (by simp only; omega) (t1.hole t3)
      refine ⟨x, s', by simp only [down, t3, e, Option.map_some], hx, f.cons, by rw [f.len]; simp only [t5]; omega, by rw [f.ilen]; simp, fun m => by rw [f.mem, mem_self t3]; exact t6 m, fun ho => ⟨root_max ho h0, o 0 ⟨Nat.le_refl _, ?_, fun h => absurd h (by omega)⟩⟩⟩
      intro i a b hi _ hp ha hb
      rw [V_self t3] at ha hb
      exact hord ho i a b hi (by omega) ha hb
    · rw [if_neg h2]
      refine ⟨x, _, rfl, hx, t1, by simp only [t5]; omega, by simp, t6, fun ho => ⟨root_max ho h0, ?_⟩⟩
      intro i a b hi _ ha hb
      have := (List.getElem?_eq_some_iff.1 ha).1
      simp only [t5] at this h2
      omega

/-- `remove` keeps the order if the element moved into the gap does not precede its new parent. -/
theorem remove_ok {act : Nat → α} {n : Nat} {s : Heap} (h : s.Cons) (hn : n ∈ s.heap) :
    ∃ s', s.remove act n = some s' ∧ s'.Cons ∧ s'.heap.length + 1 = s.heap.length ∧ s'.idx.length = s.idx.length ∧
      (∀ m, m ∈ s'.heap ↔ m ∈ s.heap ∧ m ≠ n) ∧
      (Order act s → (∀ k l b : Nat, s.heap[k]? = some n → s.heap.getLast? = some l → 0 < k → s.heap[(k - 1) / 2]? = some b → act l ≤ act b) → Order act s') := by
  obtain ⟨k, hk⟩ := List.mem_iff_getElem?.1 hn
  have hkl := (List.getElem?_eq_some_iff.1 hk).1
  have hl : s.heap[s.heap.length - 1]? = some (s.heap[s.heap.length - 1]'(by omega)) := List.getElem?_eq_getElem (by omega)
  generalize s.heap[s.heap.length - 1]'(by omega) = l at hl
  unfold remove
  rw [(h n k).2 hk]
  simp only
  by_cases hlast : k < s.heap.length - 1
  · rw [if_pos hlast, getLast?_eq', hl]
    obtain ⟨t1, t2, t3, t4, t5, t6, t7⟩ := take_out h hk (by omega) hl
    simp only [List.length_set, t7, if_true]
    obtain ⟨s', e, f, o⟩ := downLoop_ok act l ((s.heap.set k l).dropLast.length + 1) (p := k) (by simp only; omega) (t1.hole t3)
    refine ⟨s', by simp only [down, t3, e], f.cons, by rw [f.len]; simp only [t5]; omega, by rw [f.ilen]; simp, fun m => by rw [f.mem, mem_self t3]; exact t6 m, fun ho hp => o 0 ⟨Nat.zero_le _, ?_, ?_⟩⟩
    · intro i a b hi _ hp' ha hb
      rw [V_self t3] at ha hb
      have hil := (List.getElem?_eq_some_iff.1 ha).1
      simp only [t5] at hil
      rw [t4 _ hp' (by omega)] at hb
      by_cases hik : i = k
      · subst hik; simp only [t3] at ha; injection ha with ha; subst ha
        exact hp i _ b hk rfl hi hb
      · rw [t4 i hik (by omega)] at ha
        exact ho i a b hi (Nat.zero_le _) ha hb
    · intro hk0 _ i a b hi hp' ha hb
      rw [V_self t3] at ha hb
      have hil := (List.getElem?_eq_some_iff.1 ha).1
      simp only [t5] at hil
      rw [t4 _ (by omega) (by omega)] at hb
      rw [t4 i (by omega) (by omega)] at ha
      exact le_trans (ho i a n hi (Nat.zero_le _) ha (hp' ▸ hk)) (ho k n b hk0 (Nat.zero_le _) hk hb)
  · rw [if_neg hlast]
    have hkk : k = s.heap.length - 1 := by omega
    subst hkk
    obtain ⟨d1, d2⟩ := drop_last h hk
    refine ⟨_, rfl, d1, by simp; omega, by simp, d2, fun ho _ => ?_⟩
    intro i a b hi _ ha hb
    simp only [getElem?_dropLast'] at ha hb
    split at ha
    · split at hb
      · exact ho i a b hi (Nat.zero_le _) ha hb
      · cases hb
    · cases ha

theorem clearAll_ok (ns : List Nat) : ∀ {idx : List (Option Nat)}, (∀ n ∈ ns, n < idx.length) →
    ∃ idx', clearAll ns idx = some idx' ∧ idx'.length = idx.length ∧ ∀ m i : Nat, idx'[m]? = some (some i) ↔ m ∉ ns ∧ idx[m]? = some (some i) := by
  induction ns with
  | nil => intro idx _; exact ⟨idx, rfl, rfl, fun m i => by simp⟩
  | cons n ns ih =>
    intro idx h
    obtain ⟨idx', e, hl, hm⟩ := ih (idx := idx.set n none) (fun m hm => by simpa using h m (by simp [hm]))
    refine ⟨idx', by simp [clearAll, h n (by simp), e], by simpa using hl, fun m i => ?_⟩
    rw [hm, List.getElem?_set]
    by_cases e : n = m
    · subst e; simp
    · simp [e, Ne.symm e]

theorem pushAll_ok (ns : List Nat) : ∀ {s : Heap}, s.Cons → ns.Nodup → (∀ n ∈ ns, n < s.idx.length) → (∀ n ∈ ns, n ∉ s.heap) →
    ∃ s', pushAll ns s = some s' ∧ s'.Cons ∧ s'.heap = s.heap ++ ns ∧ s'.idx.length = s.idx.length := by
  induction ns with
  | nil => intro s h _ _ _; exact ⟨s, rfl, h, by simp, rfl⟩
  | cons n ns ih =>
    intro s h hd hl hno
    have hlt := hl n (by simp)
    have hn := hno n (by simp)
    have hg : (s.heap ++ [n])[s.heap.length]? = some n := by simp
    have hc : Cons ⟨s.heap ++ [n], s.idx.set n (some s.heap.length)⟩ := by
      intro m i
      simp only [List.getElem?_set]
      by_cases e : n = m
      · subst e
        simp only [if_true, hlt, Option.some.injEq]
        constructor
        · rintro rfl; exact hg
        · intro hi
          by_cases hlt : i < s.heap.length
          · rw [List.getElem?_append_left hlt] at hi
            exact absurd (List.mem_iff_getElem?.2 ⟨i, hi⟩) hn
          · have := (List.getElem?_eq_some_iff.1 hi).1; simp at this; omega
      · rw [if_neg e, h m i]
        by_cases hlt : i < s.heap.length
        · rw [List.getElem?_append_left hlt]
        · rw [List.getElem?_eq_none (by omega)]
          by_cases hi : i = s.heap.length
          · subst hi; rw [hg]; simp [e]
          · rw [List.getElem?_eq_none (by simp; omega)]
    obtain ⟨s', e, h', hh, hi⟩ := ih hc (List.nodup_cons.1 hd).2 (fun m hm => by simpa using hl m (by simp [hm])) (fun m hm => by
      simp only [List.mem_append, List.mem_singleton, not_or]
      exact ⟨hno m (by simp [hm]), by rintro rfl; exact (List.nodup_cons.1 hd).1 hm⟩)
    exact ⟨s', by simp [pushAll, hlt, e], h', by simp [hh], by simpa using hi⟩

theorem downAll_ok (act : Nat → α) (i : Nat) : ∀ {s : Heap}, s.Cons → i ≤ s.heap.length → OrderFrom act i s →
    ∃ s', downAll act i s = some s' ∧ s'.Cons ∧ s'.heap.length = s.heap.length ∧ s'.idx.length = s.idx.length ∧ (∀ m, m ∈ s'.heap ↔ m ∈ s.heap) ∧ Order act s' := by
  induction i with
  | zero => intro s h _ ho; exact ⟨s, rfl, h, rfl, rfl, fun _ => Iff.rfl, ho⟩
  | succ i ih =>
    intro s h hi ho
    have hy : s.heap[i]? = some (s.heap[i]'(by omega)) := List.getElem?_eq_getElem (by omega)
    generalize s.heap[i]'(by omega) = y at hy
    obtain ⟨s1, e1, f1, o1⟩ := downLoop_ok act y (s.heap.length + 1) (p := i) (by omega) (h.hole hy)
    have ho1 := o1 i ⟨Nat.le_refl _, by
      intro k a b hk hki hne ha hb
      rw [V_self hy] at ha hb
      exact ho k a b hk (by omega) ha hb, by intro h0 hk; omega⟩
    obtain ⟨s2, e2, h2, l2, il2, m2, o2⟩ := ih f1.cons (by rw [f1.len]; omega) ho1
    exact ⟨s2, by simp only [downAll, down, hy, e1, e2], h2, by rw [l2, f1.len], by rw [il2, f1.ilen], fun m => by rw [m2, f1.mem, mem_self hy], o2⟩

theorem build_ok {act : Nat → α} {ns : List Nat} {s : Heap} (h : s.Cons) (hd : ns.Nodup) (hl : ∀ n ∈ ns, n < s.idx.length) :
    ∃ s', s.build act ns = some s' ∧ s'.Cons ∧ s'.idx.length = s.idx.length ∧ (∀ m, m ∈ s'.heap ↔ m ∈ ns) ∧ Order act s' := by
  obtain ⟨idx', e1, l1, m1⟩ := clearAll_ok s.heap (idx := s.idx) fun n hn => by
    obtain ⟨i, hi⟩ := List.mem_iff_getElem?.1 hn
    exact idx_lt ((h n i).2 hi)
  have hc : Cons ⟨[], idx'⟩ := by
    intro m i
    simp only [m1, List.getElem?_nil]
    refine ⟨fun ⟨h1, h2⟩ => absurd (List.mem_iff_getElem?.2 ⟨i, (h m i).1 h2⟩) h1, fun h => (nomatch h)⟩
  obtain ⟨s2, e2, h2, hh2, il2⟩ := pushAll_ok ns hc hd (fun n hn => by simpa [l1] using hl n hn) (by simp)
  obtain ⟨s3, e3, h3, l3, il3, m3, o3⟩ := downAll_ok act (s2.heap.length / 2) h2 (by omega) (by
    intro i a b hi hk ha _
    have := (List.getElem?_eq_some_iff.1 ha).1
    omega)
  exact ⟨s3, by simp only [build, e1, e2, e3], h3, by rw [il3, il2, l1], fun m => by rw [m3, hh2]; simp, o3⟩

end Heap
end Verif
