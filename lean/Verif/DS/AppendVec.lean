/-
Model of src/collections/append_vec.rs: a transition system over any number of threads, with release/acquire
memory.

Memory model.  The atomic counter `count` has a history of values 0,1,2,…; each value carries the view released by
the thread that wrote it.  An acquiring load may return any value between the newest one the thread has seen
(coherence) and the current one, and joins the view of that value.  A successful compare-exchange reads the newest
value (atomicity of read-modify-write) and continues its release sequence, so the new value carries the old view
joined with the writer's.  A failing compare-exchange is relaxed: it joins nothing.  `reserved.fetch_add` is relaxed
and transfers no view.  The bin pointers and the slots are plain memory: a thread may only read a cell whose write
is in its view, otherwise the step is a data race and leads to `fault`, as do a null pointer, an uninitialised
slot, a second allocation of a bin and a second write of a slot.

Not modelled: `Drop`, `iter`, wrap-around of `usize`, allocation failure, and the bound of 44 bins (an index beyond
2^47 would panic).
-/
namespace Verif
namespace AppendVec

/-- `bin_size`, append_vec.rs:38-40. -/
def binSize (b : Nat) : Nat := 2 ^ 3 * 2 ^ b

/-- First result of `indices`, append_vec.rs:31-37 (`BITS - 1 - leading_zeros` is the binary logarithm). -/
def binOf (i : Nat) : Nat := Nat.log2 (i + 8) - 3

/-- Second result of `indices`, append_vec.rs:35. -/
def offOf (i : Nat) : Nat := i + 8 - binSize (binOf i)

/-- First index of a bin. -/
def start (b : Nat) : Nat := binSize b - 8

theorem binSize_ge (b : Nat) : 8 ≤ binSize b := by
  unfold binSize; have := Nat.one_le_two_pow (n := b); omega

theorem log_ge (i : Nat) : 3 ≤ Nat.log2 (i + 8) := (Nat.le_log2 (by omega)).2 (by omega)

theorem bin_bounds (i : Nat) : binSize (binOf i) ≤ i + 8 ∧ i + 8 < 2 * binSize (binOf i) := by
  have h := log_ge i
  have e : binSize (binOf i) = 2 ^ Nat.log2 (i + 8) := by
    unfold binSize binOf; rw [← Nat.pow_add]; congr 1; omega
  rw [e]
  refine ⟨Nat.log2_self_le (by omega), ?_⟩
  have := Nat.lt_log2_self (n := i + 8)
  rw [Nat.pow_succ] at this; omega

theorem off_lt (i : Nat) : offOf i < binSize (binOf i) := by
  have := bin_bounds i; unfold offOf; omega

theorem index_eq (i : Nat) : i = start (binOf i) + offOf i := by
  have := bin_bounds i; have := binSize_ge (binOf i); unfold start offOf; omega

theorem binOf_unique {b o : Nat} (h : o < binSize b) : binOf (start b + o) = b ∧ offOf (start b + o) = o := by
  have hb := binSize_ge b
  have e : start b + o + 8 = binSize b + o := by unfold start; omega
  have h1 : binOf (start b + o) = b := by
    have hlog : Nat.log2 (binSize b + o) = b + 3 := by
      have h3 : binSize b = 2 ^ (b + 3) := by unfold binSize; rw [← Nat.pow_add]; congr 1; omega
      apply Nat.le_antisymm
      · have : Nat.log2 (binSize b + o) < b + 3 + 1 := by
          rw [Nat.log2_lt (by omega), Nat.pow_succ]; omega
        omega
      · rw [Nat.le_log2 (by omega)]; omega
    unfold binOf; rw [e, hlog]; omega
  refine ⟨h1, ?_⟩
  unfold offOf; rw [h1, e]; omega

theorem bin_off_inj {i j : Nat} (h1 : binOf i = binOf j) (h2 : offOf i = offOf j) : i = j := by
  rw [index_eq i, index_eq j, h1, h2]

/-- `1 + idx - offset`, append_vec.rs:104, 118. -/
theorem need_eq (i : Nat) : 1 + i - offOf i = start (binOf i) + 1 := by
  have := index_eq i; omega

/-- Everything a thread has synchronised with. -/
structure View where
  seen : Nat
  ptr : Nat → Prop
  slot : Nat → Prop

/-- Join with the view of an acquired counter value. -/
def View.acquire (w : View) (c : Nat) (m : View) : View := ⟨c, fun b => w.ptr b ∨ m.ptr b, fun i => w.slot i ∨ m.slot i⟩

/-- Where a thread is. -/
inductive Pc (T : Type)
  | idle
  /-- in `push`, after `fetch_add` (line 102) -/
  | gotIdx (i : Nat) (v : T)
  /-- line 107-115 -/
  | alloc (i : Nat) (v : T)
  /-- line 118 -/
  | spin (i : Nat) (v : T)
  /-- about to read the bin pointer, line 124 or 130 -/
  | readPtr (i : Nat) (v : T)
  /-- about to write the slot through the pointer, line 137 -/
  | write (i : Nat) (v : T) (p : Nat)
  /-- in the compare-exchange loop, line 144 -/
  | publish (i : Nat) (v : T)
  /-- in `index`, after the assertion, line 171-177 -/
  | lookup (i : Nat)
  /-- undefined behaviour -/
  | fault

/-- The index a running `push` has reserved. -/
def Pc.idx {T : Type} : Pc T → Option Nat
  | .gotIdx i _ => some i
  | .alloc i _ => some i
  | .spin i _ => some i
  | .readPtr i _ => some i
  | .write i _ _ => some i
  | .publish i _ => some i
  | _ => none

/-- State of the vector and of all threads.  `pushed`, `returned` and `reads` are history for the specification. -/
structure AV (T : Type) where
  reserved : Nat
  count : Nat
  msg : Nat → View
  ptr : Nat → Option Nat
  mem : Nat → Nat → Option T
  next : Nat
  pc : Nat → Pc T
  view : Nat → View
  pushed : Nat → Option T
  returned : List (Nat × Nat)
  reads : List (Nat × T)

def upd {β : Type} (f : Nat → β) (t : Nat) (x : β) : Nat → β := fun t' => if t' = t then x else f t'

/-- `AppendOnlyVec::new`, append_vec.rs:161-163. -/
def AV.init (T : Type) : AV T where
  reserved := 0
  count := 0
  msg _ := ⟨0, fun _ => False, fun _ => False⟩
  ptr _ := none
  mem _ _ := none
  next := 0
  pc _ := .idle
  view _ := ⟨0, fun _ => False, fun _ => False⟩
  pushed _ := none
  returned := []
  reads := []

/-- Possible results of `self.len()`, append_vec.rs:96-98. -/
def AV.Load {T : Type} (s : AV T) (t c : Nat) : Prop := (s.view t).seen ≤ c ∧ c ≤ s.count

/-- Effect of an acquiring load on the thread. -/
def AV.acq {T : Type} (s : AV T) (t c : Nat) (q : Pc T) : AV T :=
  { s with pc := upd s.pc t q, view := upd s.view t ((s.view t).acquire c (s.msg c)) }

/-- One atomic step of thread `t`. -/
inductive Step {T : Type} (s : AV T) : AV T → Prop
  /-- line 102 -/
  | reserve (t : Nat) (v : T) : s.pc t = .idle →
      Step s { s with reserved := s.reserved + 1, pc := upd s.pc t (.gotIdx s.reserved v), pushed := upd s.pushed s.reserved (some v) }
  /-- line 104-106: too short and offset 0 -/
  | mustAlloc (t i c : Nat) (v : T) : s.pc t = .gotIdx i v → s.Load t c → c < 1 + i - offOf i → offOf i = 0 → Step s (s.acq t c (.alloc i v))
  /-- line 104, 116: too short -/
  | mustSpin (t i c : Nat) (v : T) : s.pc t = .gotIdx i v → s.Load t c → c < 1 + i - offOf i → offOf i ≠ 0 → Step s (s.acq t c (.spin i v))
  /-- line 104, 126: long enough -/
  | longEnough (t i c : Nat) (v : T) : s.pc t = .gotIdx i v → s.Load t c → ¬ c < 1 + i - offOf i → Step s (s.acq t c (.readPtr i v))
  /-- line 118 again -/
  | spinAgain (t i c : Nat) (v : T) : s.pc t = .spin i v → s.Load t c → c < 1 + i - offOf i → Step s (s.acq t c (.spin i v))
  /-- line 118 done -/
  | spinDone (t i c : Nat) (v : T) : s.pc t = .spin i v → s.Load t c → ¬ c < 1 + i - offOf i → Step s (s.acq t c (.readPtr i v))
  /-- line 110-115 -/
  | allocate (t i : Nat) (v : T) : s.pc t = .alloc i v → s.ptr (binOf i) = none →
      Step s { s with
        ptr := upd s.ptr (binOf i) (some s.next), next := s.next + 1, pc := upd s.pc t (.write i v s.next)
        view := upd s.view t { s.view t with ptr := fun b => b = binOf i ∨ (s.view t).ptr b } }
  /-- a bin would be allocated twice -/
  | allocTwice (t i p : Nat) (v : T) : s.pc t = .alloc i v → s.ptr (binOf i) = some p → Step s { s with pc := upd s.pc t .fault }
  /-- line 124, 130 -/
  | readOk (t i p : Nat) (v : T) : s.pc t = .readPtr i v → (s.view t).ptr (binOf i) → s.ptr (binOf i) = some p →
      Step s { s with pc := upd s.pc t (.write i v p) }
  /-- racy read or null pointer -/
  | readBad (t i : Nat) (v : T) : s.pc t = .readPtr i v → (¬ (s.view t).ptr (binOf i) ∨ s.ptr (binOf i) = none) →
      Step s { s with pc := upd s.pc t .fault }
  /-- line 137 -/
  | writeOk (t i p : Nat) (v : T) : s.pc t = .write i v p → s.mem p (offOf i) = none →
      Step s { s with
        mem := upd s.mem p (upd (s.mem p) (offOf i) (some v)), pc := upd s.pc t (.publish i v)
        view := upd s.view t { s.view t with slot := fun j => j = i ∨ (s.view t).slot j } }
  /-- a slot would be overwritten -/
  | writeTwice (t i p : Nat) (v x : T) : s.pc t = .write i v p → s.mem p (offOf i) = some x → Step s { s with pc := upd s.pc t .fault }
  /-- line 144, failure -/
  | casFail (t i c : Nat) (v : T) : s.pc t = .publish i v → s.Load t c → c ≠ i →
      Step s { s with view := upd s.view t { s.view t with seen := c } }
  /-- line 144, success, and return -/
  | casOk (t i : Nat) (v : T) : s.pc t = .publish i v → s.count = i →
      Step s { s with
        count := i + 1, pc := upd s.pc t .idle, returned := (t, i) :: s.returned
        msg := upd s.msg (i + 1) ⟨i + 1, fun b => (s.msg i).ptr b ∨ (s.view t).ptr b, fun j => (s.msg i).slot j ∨ (s.view t).slot j⟩
        view := upd s.view t { s.view t with seen := i + 1 } }
  /-- `len` by itself -/
  | len (t c : Nat) : s.pc t = .idle → s.Load t c → Step s (s.acq t c .idle)
  /-- `index`, line 170; a failing assertion panics and leaves the vector alone -/
  | index (t i c : Nat) : s.pc t = .idle → s.Load t c → i < c → Step s (s.acq t c (.lookup i))
  /-- synchronisation outside the vector (joining a thread, a lock, …) with thread `t'` -/
  | sync (t t' : Nat) : s.pc t = .idle →
      Step s { s with view := upd s.view t ⟨max (s.view t).seen (s.view t').seen, fun b => (s.view t).ptr b ∨ (s.view t').ptr b, fun i => (s.view t).slot i ∨ (s.view t').slot i⟩ }
  /-- line 171-177 -/
  | lookupOk (t i p : Nat) (v : T) : s.pc t = .lookup i → (s.view t).ptr (binOf i) → (s.view t).slot i → s.ptr (binOf i) = some p →
      s.mem p (offOf i) = some v → Step s { s with pc := upd s.pc t .idle, reads := (i, v) :: s.reads }
  /-- racy read, null pointer or uninitialised slot -/
  | lookupBad (t i : Nat) : s.pc t = .lookup i →
      (¬ (s.view t).ptr (binOf i) ∨ ¬ (s.view t).slot i ∨ s.ptr (binOf i) = none ∨ ∃ p, s.ptr (binOf i) = some p ∧ s.mem p (offOf i) = none) →
      Step s { s with pc := upd s.pc t .fault }

/-- All executions. -/
inductive Reach {T : Type} : AV T → Prop
  | init : Reach (AV.init T)
  | step {s s'} : Reach s → Step s s' → Reach s'

/-- Any number of steps. -/
inductive Steps {T : Type} : AV T → AV T → Prop
  | refl (s : AV T) : Steps s s
  | step {s s' s'' : AV T} : Step s s' → Steps s' s'' → Steps s s''

/-! ### Invariant -/

/-- What a thread may rely on. -/
def PcOk {T : Type} (s : AV T) (w : View) : Pc T → Prop
  | .idle => True
  | .gotIdx i v => s.count ≤ i ∧ i < s.reserved ∧ s.pushed i = some v ∧ (offOf i = 0 → s.ptr (binOf i) = none)
  | .alloc i v => s.count ≤ i ∧ i < s.reserved ∧ s.pushed i = some v ∧ offOf i = 0 ∧ s.ptr (binOf i) = none
  | .spin i v => s.count ≤ i ∧ i < s.reserved ∧ s.pushed i = some v ∧ offOf i ≠ 0
  | .readPtr i v => s.count ≤ i ∧ i < s.reserved ∧ s.pushed i = some v ∧ w.ptr (binOf i) ∧ start (binOf i) < s.count
  | .write i v p => s.count ≤ i ∧ i < s.reserved ∧ s.pushed i = some v ∧ w.ptr (binOf i) ∧ s.ptr (binOf i) = some p
  | .publish i v => s.count ≤ i ∧ i < s.reserved ∧ s.pushed i = some v ∧ w.ptr (binOf i) ∧ w.slot i ∧ ∃ p, s.ptr (binOf i) = some p ∧ s.mem p (offOf i) = some v
  | .lookup i => i < s.count ∧ w.ptr (binOf i) ∧ w.slot i
  | .fault => False

structure Inv {T : Type} (s : AV T) : Prop where
  cr : s.count ≤ s.reserved
  pcok : ∀ t, PcOk s (s.view t) (s.pc t)
  uniq : ∀ t t' i, (s.pc t).idx = some i → (s.pc t').idx = some i → t = t'
  cover : ∀ i, s.count ≤ i → i < s.reserved → ∃ t, (s.pc t).idx = some i
  dom : ∀ i v, s.pushed i = some v → i < s.reserved
  ptrPub : ∀ b, start b < s.count → ∃ p, s.ptr b = some p
  ptrRes : ∀ b p, s.ptr b = some p → start b < s.reserved ∧ p < s.next
  ptrInj : ∀ b b' p, s.ptr b = some p → s.ptr b' = some p → b = b'
  fresh : ∀ p o x, s.mem p o = some x → p < s.next
  seen : ∀ t, (s.view t).seen ≤ s.count
  retSeen : ∀ t i, (t, i) ∈ s.returned → i < (s.view t).seen
  msg : ∀ k, k ≤ s.count → (∀ b, start b < k → (s.msg k).ptr b) ∧ ∀ i, i < k → (s.msg k).slot i
  memPub : ∀ i, i < s.count → ∃ p v, s.ptr (binOf i) = some p ∧ s.mem p (offOf i) = some v ∧ s.pushed i = some v
  memOnly : ∀ i p x, s.ptr (binOf i) = some p → s.mem p (offOf i) = some x → i < s.count ∨ ∃ t v, s.pc t = .publish i v
  ret : ∀ i, (∃ t, (t, i) ∈ s.returned) ↔ i < s.count
  retOnce : (s.returned.map (·.2)).Nodup
  reads : ∀ i v, (i, v) ∈ s.reads → s.pushed i = some v

theorem Inv.init (T : Type) : Inv (AV.init T) := by
  constructor <;> simp [AV.init, PcOk, Pc.idx]

section
variable {T : Type} {s : AV T}

theorem upd_self {β : Type} (f : Nat → β) (t : Nat) (x : β) : upd f t x t = x := by simp [upd]
theorem upd_ne {β : Type} (f : Nat → β) {t t' : Nat} (x : β) (h : t' ≠ t) : upd f t x t' = f t' := by simp [upd, h]

/-- A step that only changes the thread itself. -/
theorem Inv.loc (h : Inv s) (t : Nat) (q : Pc T) (w : View) (hw : w.seen ≤ s.count) (hs : (s.view t).seen ≤ w.seen) (hq : PcOk s w q) (hi : q.idx = (s.pc t).idx)
    (hp : ∀ i v, s.pc t = .publish i v → q = .publish i v) : Inv { s with pc := upd s.pc t q, view := upd s.view t w } := by
  refine { h with pcok := ?_, uniq := ?_, cover := ?_, seen := ?_, retSeen := ?_, memOnly := ?_ }
  · intro t'
    simp only [upd]
    split
    · exact hq
    · exact h.pcok t'
  · have key : ∀ t', (upd s.pc t q t').idx = (s.pc t').idx := by
      intro t'; simp only [upd]; split
      · rename_i e; rw [e, hi]
      · rfl
    intro t1 t2 i h1 h2
    simp only [key] at h1 h2
    exact h.uniq t1 t2 i h1 h2
  · intro i h1 h2
    obtain ⟨t', ht⟩ := h.cover i h1 h2
    refine ⟨t', ?_⟩
    simp only [upd]; split
    · rename_i e; rw [hi, ← e, ht]
    · exact ht
  · intro t'
    simp only [upd]
    split
    · exact hw
    · exact h.seen t'
  · intro t' i hi
    have := h.retSeen t' i hi
    simp only [upd]
    split
    · rename_i e; subst e; omega
    · exact this
  · intro i p x h1 h2
    rcases h.memOnly i p x h1 h2 with h3 | ⟨t', v, h3⟩
    · exact .inl h3
    · refine .inr ⟨t', v, ?_⟩
      simp only [upd]; split
      · rename_i e; subst e; exact hp i v h3
      · exact h3

theorem Inv.fault (h : Inv s) {t : Nat} (hbad : False) : Inv { s with pc := upd s.pc t .fault } := hbad.elim

/-- After an acquiring load of `c`, the bins and slots below `c` are visible. -/
theorem Inv.acq_view (h : Inv s) {t c : Nat} (hc : s.Load t c) : (∀ b, start b < c → ((s.view t).acquire c (s.msg c)).ptr b) ∧ ∀ i, i < c → ((s.view t).acquire c (s.msg c)).slot i :=
  ⟨fun b hb => .inr ((h.msg c hc.2).1 b hb), fun i hi => .inr ((h.msg c hc.2).2 i hi)⟩

theorem Inv.step (h : Inv s) {s' : AV T} (st : Step s s') : Inv s' := by
  cases st with
  | reserve t v hpc =>
    have hnone : s.pushed s.reserved = none := by
      cases e : s.pushed s.reserved with
      | none => rfl
      | some x => have := h.dom _ _ e; omega
    have hpush : ∀ i, i < s.reserved → upd s.pushed s.reserved (some v) i = s.pushed i := fun i hi => upd_ne _ _ (by omega)
    refine { h with cr := ?_, pcok := ?_, uniq := ?_, cover := ?_, dom := ?_, ptrRes := ?_, memPub := ?_, memOnly := ?_, reads := ?_ }
    · have := h.cr; simp only; omega
    · intro t'
      simp only [upd]
      split
      · refine ⟨h.cr, Nat.lt_succ_self _, upd_self _ _ _, fun ho => ?_⟩
        cases e : s.ptr (binOf s.reserved) with
        | none => simpa using e
        | some p =>
          have := (h.ptrRes _ p e).1
          have := index_eq s.reserved
          omega
      · have := h.pcok t'
        revert this
        cases s.pc t' <;> simp only [PcOk] <;> intro this
        all_goals first
          | exact this
          | (obtain ⟨a, b, c, d⟩ := this
             exact ⟨a, by omega, (hpush _ b).trans c, d⟩)
    · intro t1 t2 i h1 h2
      simp only [upd] at h1 h2
      have lt : ∀ t', (s.pc t').idx = some i → i < s.reserved := by
        intro t' ht
        have := h.pcok t'
        revert this ht
        cases s.pc t' <;> simp only [PcOk, Pc.idx] <;> intro hh this <;> simp at hh <;> subst hh <;> exact this.2.1
      split at h1
      · split at h2
        · rename_i e1 e2; rw [e1, e2]
        · simp [Pc.idx] at h1; have := lt t2 h2; omega
      · split at h2
        · simp [Pc.idx] at h2; have := lt t1 h1; omega
        · exact h.uniq t1 t2 i h1 h2
    · intro i h1 h2
      by_cases hi : i < s.reserved
      · obtain ⟨t', ht⟩ := h.cover i h1 hi
        refine ⟨t', ?_⟩
        simp only
        rw [upd_ne _ _ (by rintro rfl; rw [hpc] at ht; cases ht)]; exact ht
      · have : i = s.reserved := by simp only at h2; omega
        subst this
        exact ⟨t, by simp only; rw [upd_self]; rfl⟩
    · intro i x hx
      simp only [upd] at hx
      split at hx
      · simp only; omega
      · have := h.dom i x hx; simp only; omega
    · intro b p hb; have := h.ptrRes b p hb; exact ⟨by simp only; omega, this.2⟩
    · intro i hi
      obtain ⟨p, x, h1, h2, h3⟩ := h.memPub i hi
      exact ⟨p, x, h1, h2, by rw [← h3]; exact hpush i (by have := h.cr; simp only at hi; omega)⟩
    · intro i p x h1 h2
      rcases h.memOnly i p x h1 h2 with h3 | ⟨t', v', h3⟩
      · exact .inl h3
      · refine .inr ⟨t', v', ?_⟩
        simp only
        rw [upd_ne _ _ (by rintro rfl; rw [hpc] at h3; cases h3)]; exact h3
    · intro i x hx
      have := h.reads i x hx
      rw [← this]; exact hpush i (h.dom i x this)
  | mustAlloc t i c v hpc hl hc ho =>
    have hk := h.pcok t
    rw [hpc] at hk
    exact h.loc t _ _ hl.2 hl.1 ⟨hk.1, hk.2.1, hk.2.2.1, ho, hk.2.2.2 ho⟩ (by rw [hpc]; rfl) (by rw [hpc]; exact fun _ _ h => (nomatch h))
  | mustSpin t i c v hpc hl hc ho =>
    have hk := h.pcok t
    rw [hpc] at hk
    exact h.loc t _ _ hl.2 hl.1 ⟨hk.1, hk.2.1, hk.2.2.1, ho⟩ (by rw [hpc]; rfl) (by rw [hpc]; exact fun _ _ h => (nomatch h))
  | longEnough t i c v hpc hl hc =>
    have hk := h.pcok t
    rw [hpc] at hk
    rw [need_eq] at hc
    have := hl.2
    exact h.loc t _ _ hl.2 hl.1 ⟨hk.1, hk.2.1, hk.2.2.1, (h.acq_view hl).1 _ (by omega), by omega⟩ (by rw [hpc]; rfl) (by rw [hpc]; exact fun _ _ h => (nomatch h))
  | spinAgain t i c v hpc hl hc =>
    have hk := h.pcok t
    rw [hpc] at hk
    exact h.loc t _ _ hl.2 hl.1 hk (by rw [hpc]) (by rw [hpc]; exact fun _ _ h => (nomatch h))
  | spinDone t i c v hpc hl hc =>
    have hk := h.pcok t
    rw [hpc] at hk
    rw [need_eq] at hc
    have := hl.2
    exact h.loc t _ _ hl.2 hl.1 ⟨hk.1, hk.2.1, hk.2.2.1, (h.acq_view hl).1 _ (by omega), by omega⟩ (by rw [hpc]; rfl) (by rw [hpc]; exact fun _ _ h => (nomatch h))
  | allocate t i v hpc hnone =>
    have hk := h.pcok t
    rw [hpc] at hk
    obtain ⟨k1, k2, k3, k4, k5⟩ := hk
    have hidx := index_eq i
    have hmemn : ∀ o, s.mem s.next o = none := by
      intro o
      cases e : s.mem s.next o with
      | none => rfl
      | some x => have := h.fresh _ _ _ e; omega
    have hptr : ∀ b, b ≠ binOf i → upd s.ptr (binOf i) (some s.next) b = s.ptr b := fun b hb => upd_ne _ _ hb
    refine { h with pcok := ?_, uniq := ?_, cover := ?_, ptrPub := ?_, ptrRes := ?_, ptrInj := ?_, fresh := ?_, seen := ?_, retSeen := ?_, memPub := ?_, memOnly := ?_ }
    · intro t'
      simp only [upd]
      split
      · exact ⟨k1, k2, k3, .inl rfl, upd_self _ _ _⟩
      · rename_i hne
        have := h.pcok t'
        revert this
        cases hp' : s.pc t' with
        | gotIdx j x =>
          simp only [PcOk]
          rintro ⟨a, b, c, d⟩
          refine ⟨a, b, c, fun ho => ?_⟩
          rw [hptr]; exact d ho
          intro e
          have hj := index_eq j
          have : j = i := bin_off_inj e (by rw [ho, k4])
          subst this
          exact hne (h.uniq t' t j (by rw [hp']; rfl) (by rw [hpc]; rfl))
        | alloc j x =>
          simp only [PcOk]
          rintro ⟨a, b, c, ho, d⟩
          refine ⟨a, b, c, ho, ?_⟩
          rw [hptr]; exact d
          intro e
          have : j = i := bin_off_inj e (by rw [ho, k4])
          subst this
          exact hne (h.uniq t' t j (by rw [hp']; rfl) (by rw [hpc]; rfl))
        | write j x p =>
          simp only [PcOk]
          rintro ⟨a, b, c, d, e⟩
          refine ⟨a, b, c, d, ?_⟩
          rw [hptr]; exact e
          intro e'; rw [e', hnone] at e; cases e
        | publish j x =>
          simp only [PcOk]
          rintro ⟨a, b, c, d, e, p, f, g⟩
          refine ⟨a, b, c, d, e, p, ?_, g⟩
          rw [hptr]; exact f
          intro e'; rw [e', hnone] at f; cases f
        | _ => simp only [PcOk]; exact id
    · have key : ∀ t', (upd s.pc t (.write i v s.next) t').idx = (s.pc t').idx := by
        intro t'; simp only [upd]; split
        · rename_i e; rw [e, hpc]; rfl
        · rfl
      intro t1 t2 j h1 h2
      simp only [key] at h1 h2
      exact h.uniq t1 t2 j h1 h2
    · intro j h1 h2
      obtain ⟨t', ht⟩ := h.cover j h1 h2
      refine ⟨t', ?_⟩
      simp only [upd]; split
      · rename_i e; rw [e, hpc] at ht; exact ht
      · exact ht
    · intro b hb
      obtain ⟨p, hp⟩ := h.ptrPub b hb
      refine ⟨p, ?_⟩
      simp only; rw [hptr b (by rintro rfl; rw [hnone] at hp; cases hp)]; exact hp
    · intro b p hb
      simp only [upd] at hb
      split at hb
      · rename_i e
        injection hb with hb
        subst e; subst hb
        exact ⟨by simp only; omega, Nat.lt_succ_self _⟩
      · have := h.ptrRes b p hb; exact ⟨this.1, by simp only; omega⟩
    · intro b b' p h1 h2
      simp only [upd] at h1 h2
      split at h1
      · split at h2
        · rename_i e1 e2; rw [e1, e2]
        · injection h1 with h1; subst h1; have := (h.ptrRes _ _ h2).2; omega
      · split at h2
        · injection h2 with h2; subst h2; have := (h.ptrRes _ _ h1).2; omega
        · exact h.ptrInj b b' p h1 h2
    · intro p o x hx; have := h.fresh p o x hx; simp only; omega
    · intro t'
      simp only [upd]; split
      · exact h.seen t
      · exact h.seen t'
    · intro t' j hj
      have := h.retSeen t' j hj
      simp only [upd]; split
      · rename_i e; subst e; exact this
      · exact this
    · intro j hj
      obtain ⟨p, x, h1, h2, h3⟩ := h.memPub j hj
      refine ⟨p, x, ?_, h2, h3⟩
      simp only; rw [hptr _ (by intro e; rw [e, hnone] at h1; cases h1)]; exact h1
    · intro j p x h1 h2
      simp only [upd] at h1
      split at h1
      · injection h1 with h1; subst h1
        simp only at h2; rw [hmemn] at h2; cases h2
      · rcases h.memOnly j p x h1 h2 with h3 | ⟨t', v', h3⟩
        · exact .inl h3
        · refine .inr ⟨t', v', ?_⟩
          simp only
          rw [upd_ne _ _ (by rintro rfl; rw [hpc] at h3; cases h3)]; exact h3
  | allocTwice t i p v hpc hp =>
    have hk := h.pcok t
    rw [hpc] at hk
    obtain ⟨_, _, _, _, k5⟩ := hk
    rw [hp] at k5; cases k5
  | readOk t i p v hpc hw hp =>
    have hk := h.pcok t
    rw [hpc] at hk
    have := h.loc t (.write i v p) (s.view t) (h.seen t) (Nat.le_refl _) ⟨hk.1, hk.2.1, hk.2.2.1, hw, hp⟩ (by rw [hpc]; rfl) (by rw [hpc]; exact fun _ _ h => (nomatch h))
    have e : upd s.view t (s.view t) = s.view := by funext t'; simp only [upd]; split <;> simp_all
    rw [e] at this; exact this
  | readBad t i v hpc hbad =>
    have hk := h.pcok t
    rw [hpc] at hk
    obtain ⟨_, _, _, k4, k5⟩ := hk
    obtain ⟨p, hp⟩ := h.ptrPub _ k5
    rcases hbad with hb | hb
    · exact absurd k4 hb
    · rw [hp] at hb; cases hb
  | writeOk t i p v hpc hm =>
    have hk := h.pcok t
    rw [hpc] at hk
    obtain ⟨k1, k2, k3, k4, k5⟩ := hk
    have hmem : ∀ j q, s.ptr (binOf j) = some q → j ≠ i → upd s.mem p (upd (s.mem p) (offOf i) (some v)) q (offOf j) = s.mem q (offOf j) := by
      intro j q hq hji
      by_cases e : q = p
      · subst e
        rw [upd_self, upd_ne]
        intro e'
        exact hji (bin_off_inj (h.ptrInj _ _ _ hq k5) e')
      · rw [upd_ne _ _ e]
    have hmemi : upd s.mem p (upd (s.mem p) (offOf i) (some v)) p (offOf i) = some v := by rw [upd_self, upd_self]
    refine { h with pcok := ?_, uniq := ?_, cover := ?_, fresh := ?_, seen := ?_, retSeen := ?_, memPub := ?_, memOnly := ?_ }
    · intro t'
      by_cases hne : t' = t
      · subst hne
        simp only [upd_self]
        exact ⟨k1, k2, k3, k4, .inl rfl, p, k5, hmemi⟩
      · simp only [upd_ne _ _ hne]
        have := h.pcok t'
        revert this
        cases hp' : s.pc t' with
        | publish j x =>
          simp only [PcOk]
          rintro ⟨a, b, c, d, e, q, f, g⟩
          refine ⟨a, b, c, d, e, q, f, ?_⟩
          rw [hmem j q f]; exact g
          rintro rfl
          exact hne (h.uniq t' t j (by rw [hp']; rfl) (by rw [hpc]; rfl))
        | _ => simp only [PcOk]; exact id
    · have key : ∀ t', (upd s.pc t (.publish i v) t').idx = (s.pc t').idx := by
        intro t'; simp only [upd]; split
        · rename_i e; rw [e, hpc]; rfl
        · rfl
      intro t1 t2 j h1 h2
      simp only [key] at h1 h2
      exact h.uniq t1 t2 j h1 h2
    · intro j h1 h2
      obtain ⟨t', ht⟩ := h.cover j h1 h2
      refine ⟨t', ?_⟩
      simp only [upd]; split
      · rename_i e; rw [e, hpc] at ht; exact ht
      · exact ht
    · intro q o x hx
      simp only [upd] at hx
      split at hx
      · rename_i e; subst e; exact (h.ptrRes _ _ k5).2
      · exact h.fresh q o x hx
    · intro t'
      simp only [upd]; split
      · exact h.seen t
      · exact h.seen t'
    · intro t' j hj
      have := h.retSeen t' j hj
      simp only [upd]; split
      · rename_i e; subst e; exact this
      · exact this
    · intro j hj
      obtain ⟨q, x, h1, h2, h3⟩ := h.memPub j hj
      exact ⟨q, x, h1, by simp only at hj ⊢; rw [hmem j q h1 (by omega)]; exact h2, h3⟩
    · intro j q x h1 h2
      by_cases hji : j = i
      · subst hji; exact .inr ⟨t, v, by simp only; rw [upd_self]⟩
      · simp only at h2
        rw [hmem j q h1 hji] at h2
        rcases h.memOnly j q x h1 h2 with h3 | ⟨t', v', h3⟩
        · exact .inl h3
        · refine .inr ⟨t', v', ?_⟩
          simp only
          rw [upd_ne _ _ (by rintro rfl; rw [hpc] at h3; cases h3)]; exact h3
  | writeTwice t i p v x hpc hm =>
    have hk := h.pcok t
    rw [hpc] at hk
    obtain ⟨k1, k2, k3, k4, k5⟩ := hk
    rcases h.memOnly i p x k5 hm with h3 | ⟨t', v', h3⟩
    · omega
    · have := h.uniq t t' i (by rw [hpc]; rfl) (by rw [h3]; rfl)
      subst this
      rw [hpc] at h3; cases h3
  | casFail t i c v hpc hl hc =>
    have hk := h.pcok t
    rw [hpc] at hk
    have := h.loc t (.publish i v) { s.view t with seen := c } hl.2 hl.1 hk (by rw [hpc]) (by rw [hpc]; exact fun _ _ h => h)
    have e : upd s.pc t (.publish i v) = s.pc := by funext t'; simp only [upd]; split <;> simp_all
    rw [e] at this; exact this
  | casOk t i v hpc hc =>
    have hk := h.pcok t
    rw [hpc] at hk
    obtain ⟨k1, k2, k3, k4, k5, p, k6, k7⟩ := hk
    have hne : ∀ t' j, t' ≠ t → (s.pc t').idx = some j → j ≠ i := by
      rintro t' j h1 h2 rfl
      exact h1 (h.uniq t' t j h2 (by rw [hpc]; rfl))
    have hidx := index_eq i
    refine { h with cr := ?_, pcok := ?_, uniq := ?_, cover := ?_, ptrPub := ?_, seen := ?_, msg := ?_, memPub := ?_, memOnly := ?_, ret := ?_, retSeen := ?_, retOnce := ?_ }
    · simp only; omega
    · intro t'
      simp only [upd]
      split
      · trivial
      · rename_i hn
        have := h.pcok t'
        revert this
        cases hp' : s.pc t' with
        | lookup j => simp only [PcOk]; rintro ⟨a, b⟩; exact ⟨by omega, b⟩
        | readPtr j x =>
          simp only [PcOk]; rintro ⟨a, b, c, d, e⟩
          exact ⟨by have := hne t' j hn (by rw [hp']; rfl); omega, b, c, d, by omega⟩
        | gotIdx j x => simp only [PcOk]; rintro ⟨a, b⟩; exact ⟨by have := hne t' j hn (by rw [hp']; rfl); omega, b⟩
        | alloc j x => simp only [PcOk]; rintro ⟨a, b⟩; exact ⟨by have := hne t' j hn (by rw [hp']; rfl); omega, b⟩
        | spin j x => simp only [PcOk]; rintro ⟨a, b⟩; exact ⟨by have := hne t' j hn (by rw [hp']; rfl); omega, b⟩
        | write j x q => simp only [PcOk]; rintro ⟨a, b⟩; exact ⟨by have := hne t' j hn (by rw [hp']; rfl); omega, b⟩
        | publish j x => simp only [PcOk]; rintro ⟨a, b⟩; exact ⟨by have := hne t' j hn (by rw [hp']; rfl); omega, b⟩
        | idle => simp only [PcOk]; exact id
        | fault => simp only [PcOk]; exact id
    · intro t1 t2 j h1 h2
      simp only [upd] at h1 h2
      split at h1
      · cases h1
      · split at h2
        · cases h2
        · exact h.uniq t1 t2 j h1 h2
    · intro j h1 h2
      simp only at h1 h2
      obtain ⟨t', ht⟩ := h.cover j (by omega) h2
      refine ⟨t', ?_⟩
      simp only
      rw [upd_ne _ _ (by rintro rfl; rw [hpc] at ht; simp [Pc.idx] at ht; omega)]; exact ht
    · intro b hb
      simp only at hb
      by_cases e : start b < i
      · exact h.ptrPub b (by omega)
      · have e' : start b = i := by omega
        have hb' : binOf i = b := by
          have := (binOf_unique (b := b) (o := 0) (by have := binSize_ge b; omega)).1
          rw [Nat.add_zero, e'] at this; exact this
        exact ⟨p, hb' ▸ k6⟩
    · intro t'
      simp only [upd]; split
      · exact Nat.le_refl _
      · have := h.seen t'; omega
    · intro t' j hj
      simp only [upd]
      rcases List.mem_cons.1 hj with e | hj
      · injection e with e1 e2; subst e1; subst e2; simp
      · have := h.retSeen t' j hj
        split
        · rename_i e; subst e; have := h.seen t'; simp only; omega
        · exact this
    · intro k hk
      simp only at hk
      by_cases e : k = i + 1
      · subst e
        simp only [upd_self]
        have := h.msg i (by omega)
        refine ⟨fun b hb => ?_, fun j hj => ?_⟩
        · by_cases e : start b < i
          · exact .inl (this.1 b e)
          · have e' : start b = i := by omega
            have hb' : binOf i = b := by
              have := (binOf_unique (b := b) (o := 0) (by have := binSize_ge b; omega)).1
              rw [Nat.add_zero, e'] at this; exact this
            exact .inr (hb' ▸ k4)
        · by_cases e : j < i
          · exact .inl (this.2 j e)
          · have e' : j = i := by omega
            exact .inr (e' ▸ k5)
      · simp only [upd_ne _ _ e]
        exact h.msg k (by omega)
    · intro j hj
      simp only at hj
      by_cases e : j < i
      · exact h.memPub j (by omega)
      · have : j = i := by omega
        subst this
        exact ⟨p, v, k6, k7, k3⟩
    · intro j q x h1 h2
      rcases h.memOnly j q x h1 h2 with h3 | ⟨t', v', h3⟩
      · exact .inl (by simp only; omega)
      · by_cases e : t' = t
        · subst e; rw [hpc] at h3; injection h3 with h3; exact .inl (by simp only; omega)
        · exact .inr ⟨t', v', by simp only; rw [upd_ne _ _ e]; exact h3⟩
    · intro j
      simp only [List.mem_cons]
      constructor
      · rintro ⟨t', h1 | h1⟩
        · injection h1 with _ h1; omega
        · have := (h.ret j).1 ⟨t', h1⟩; omega
      · intro hj
        by_cases e : j < i
        · obtain ⟨t', h1⟩ := (h.ret j).2 (by omega); exact ⟨t', .inr h1⟩
        · have : j = i := by omega
          subst this; exact ⟨t, .inl rfl⟩
    · simp only [List.map_cons, List.nodup_cons]
      refine ⟨fun hc' => ?_, h.retOnce⟩
      obtain ⟨⟨t', j⟩, h1, h2⟩ := List.mem_map.1 hc'
      simp only at h2; subst h2
      have := (h.ret j).1 ⟨t', h1⟩; omega
  | len t c hpc hl => exact h.loc t _ _ hl.2 hl.1 trivial (by rw [hpc]) (by rw [hpc]; exact fun _ _ h => (nomatch h))
  | index t i c hpc hl hi =>
    have := (h.acq_view hl)
    have hidx := index_eq i
    have hle := hl.2
    exact h.loc t _ _ hl.2 hl.1 ⟨by omega, this.1 _ (by omega), this.2 i hi⟩ (by rw [hpc]; rfl) (by rw [hpc]; exact fun _ _ h => (nomatch h))
  | sync t t' hpc =>
    have := h.loc t (s.pc t) ⟨max (s.view t).seen (s.view t').seen, fun b => (s.view t).ptr b ∨ (s.view t').ptr b, fun i => (s.view t).slot i ∨ (s.view t').slot i⟩
      (Nat.max_le.2 ⟨h.seen t, h.seen t'⟩) (Nat.le_max_left _ _) (by rw [hpc]; trivial) rfl (fun _ _ h => h)
    have e : upd s.pc t (s.pc t) = s.pc := by funext t'; simp only [upd]; split <;> simp_all
    rw [e] at this; exact this
  | lookupOk t i p v hpc hw1 hw2 hp hm =>
    have hk := h.pcok t
    rw [hpc] at hk
    have := h.loc t .idle (s.view t) (h.seen t) (Nat.le_refl _) trivial (by rw [hpc]; rfl) (by rw [hpc]; exact fun _ _ h => (nomatch h))
    have e : upd s.view t (s.view t) = s.view := by funext t'; simp only [upd]; split <;> simp_all
    rw [e] at this
    refine { this with reads := ?_ }
    intro j x hx
    rcases List.mem_cons.1 hx with e | hx
    · injection e with e1 e2; subst e1; subst e2
      obtain ⟨q, y, h1, h2, h3⟩ := h.memPub j hk.1
      rw [hp] at h1; injection h1 with h1; subst h1
      rw [hm] at h2; injection h2 with h2; subst h2
      exact h3
    · exact h.reads j x hx
  | lookupBad t i hpc hbad =>
    have hk := h.pcok t
    rw [hpc] at hk
    obtain ⟨k1, k2, k3⟩ := hk
    obtain ⟨q, y, h1, h2, h3⟩ := h.memPub i k1
    rcases hbad with hb | hb | hb | ⟨p, hb, hb'⟩
    · exact absurd k2 hb
    · exact absurd k3 hb
    · rw [h1] at hb; cases hb
    · rw [h1] at hb; injection hb with hb; subst hb; rw [h2] at hb'; cases hb'

/-! ### The oldest running push can always finish -/

theorem prog_publish {t : Nat} {v : T} (hp : s.pc t = .publish s.count v) : ∃ s', Steps s s' ∧ s'.count = s.count + 1 :=
  ⟨_, .step (.casOk t s.count v hp rfl) (.refl _), rfl⟩

theorem prog_write (h : Inv s) {t p : Nat} {v : T} (hp : s.pc t = .write s.count v p) : ∃ s', Steps s s' ∧ s'.count = s.count + 1 := by
  have hk := h.pcok t
  rw [hp] at hk
  cases hm : s.mem p (offOf s.count) with
  | some x =>
    rcases h.memOnly _ p x hk.2.2.2.2 hm with h3 | ⟨t', v', h3⟩
    · omega
    · have := h.uniq t t' s.count (by rw [hp]; rfl) (by rw [h3]; rfl)
      subst this
      rw [hp] at h3; cases h3
  | none =>
    obtain ⟨s1, st, hp1, hc1⟩ : ∃ s1, Step s s1 ∧ s1.pc t = .publish s.count v ∧ s1.count = s.count :=
      ⟨_, .writeOk t s.count p v hp hm, upd_self _ _ _, rfl⟩
    obtain ⟨s', h1, h2⟩ := prog_publish (t := t) (v := v) (s := s1) (by rw [hc1]; exact hp1)
    exact ⟨s', .step st h1, by rw [h2, hc1]⟩

theorem prog_read (h : Inv s) {t : Nat} {v : T} (hp : s.pc t = .readPtr s.count v) : ∃ s', Steps s s' ∧ s'.count = s.count + 1 := by
  have hk := h.pcok t
  rw [hp] at hk
  obtain ⟨p, hpp⟩ := h.ptrPub _ hk.2.2.2.2
  have st := Step.readOk t s.count p v hp hk.2.2.2.1 hpp
  obtain ⟨s', h1, h2⟩ := prog_write (h.step st) (t := t) (p := p) (v := v) (by simp only; rw [upd_self])
  exact ⟨s', .step st h1, h2⟩

theorem prog_alloc (h : Inv s) {t : Nat} {v : T} (hp : s.pc t = .alloc s.count v) : ∃ s', Steps s s' ∧ s'.count = s.count + 1 := by
  have hk := h.pcok t
  rw [hp] at hk
  have st := Step.allocate t s.count v hp hk.2.2.2.2
  obtain ⟨s', h1, h2⟩ := prog_write (h.step st) (t := t) (p := s.next) (v := v) (by simp only; rw [upd_self])
  exact ⟨s', .step st h1, h2⟩

/-- If a push is running then the one with the smallest index can complete by itself. -/
theorem Inv.progress (h : Inv s) (hc : s.count < s.reserved) : ∃ s', Steps s s' ∧ s'.count = s.count + 1 := by
  obtain ⟨t, ht⟩ := h.cover s.count (Nat.le_refl _) hc
  have hl : s.Load t s.count := ⟨h.seen t, Nat.le_refl _⟩
  have hidx := index_eq s.count
  have hneed := need_eq s.count
  cases hp : s.pc t with
  | idle => rw [hp] at ht; cases ht
  | lookup i => rw [hp] at ht; cases ht
  | fault => rw [hp] at ht; cases ht
  | publish i v => rw [hp] at ht; injection ht with ht; subst ht; exact prog_publish hp
  | write i v p => rw [hp] at ht; injection ht with ht; subst ht; exact prog_write h hp
  | readPtr i v => rw [hp] at ht; injection ht with ht; subst ht; exact prog_read h hp
  | alloc i v => rw [hp] at ht; injection ht with ht; subst ht; exact prog_alloc h hp
  | spin i v =>
    rw [hp] at ht; injection ht with ht; subst ht
    have hk := h.pcok t
    rw [hp] at hk
    have ho := hk.2.2.2
    have st := Step.spinDone t s.count s.count v hp hl (by omega)
    obtain ⟨s', h1, h2⟩ := prog_read (h.step st) (t := t) (v := v) (by simp only [AV.acq]; rw [upd_self])
    exact ⟨s', .step st h1, h2⟩
  | gotIdx i v =>
    rw [hp] at ht; injection ht with ht; subst ht
    by_cases ho : offOf s.count = 0
    · have st := Step.mustAlloc t s.count s.count v hp hl (by omega) ho
      obtain ⟨s', h1, h2⟩ := prog_alloc (h.step st) (t := t) (v := v) (by simp only [AV.acq]; rw [upd_self])
      exact ⟨s', .step st h1, h2⟩
    · have st := Step.longEnough t s.count s.count v hp hl (by omega)
      obtain ⟨s', h1, h2⟩ := prog_read (h.step st) (t := t) (v := v) (by simp only [AV.acq]; rw [upd_self])
      exact ⟨s', .step st h1, h2⟩

/-! ### What never changes -/

structure Stable (s s' : AV T) : Prop where
  count : s.count ≤ s'.count
  pushed : ∀ i v, s.pushed i = some v → s'.pushed i = some v
  ptr : ∀ b p, s.ptr b = some p → s'.ptr b = some p
  mem : ∀ p o v, s.mem p o = some v → s'.mem p o = some v
  returned : ∀ x ∈ s.returned, x ∈ s'.returned

theorem Stable.refl (s : AV T) : Stable s s := ⟨Nat.le_refl _, fun _ _ h => h, fun _ _ h => h, fun _ _ _ h => h, fun _ h => h⟩

theorem Stable.trans {a b c : AV T} (h1 : Stable a b) (h2 : Stable b c) : Stable a c :=
  ⟨Nat.le_trans h1.count h2.count, fun i v h => h2.pushed i v (h1.pushed i v h), fun b p h => h2.ptr b p (h1.ptr b p h),
    fun p o v h => h2.mem p o v (h1.mem p o v h), fun x h => h2.returned x (h1.returned x h)⟩

theorem Inv.stable (h : Inv s) {s' : AV T} (st : Step s s') : Stable s s' := by
  cases st with
  | reserve t v hpc =>
    refine { Stable.refl s with pushed := fun i x hx => ?_ }
    have := h.dom i x hx
    simp only; rw [upd_ne _ _ (by omega)]; exact hx
  | allocate t i v hpc hnone =>
    refine { Stable.refl s with ptr := fun b p hb => ?_ }
    simp only; rw [upd_ne _ _ (by rintro rfl; rw [hnone] at hb; cases hb)]; exact hb
  | writeOk t i p v hpc hm =>
    refine { Stable.refl s with mem := fun q o x hx => ?_ }
    simp only [upd]
    split
    · rename_i e
      subst e
      rw [upd_ne _ _ (by rintro rfl; rw [hm] at hx; cases hx)]; exact hx
    · exact hx
  | casOk t i v hpc hc => exact { Stable.refl s with count := by simp only; omega, returned := fun x hx => List.mem_cons_of_mem _ hx }
  | _ => exact { Stable.refl s with }

theorem Steps.inv {s s' : AV T} (st : Steps s s') (h : Inv s) : Inv s' ∧ Stable s s' := by
  induction st with
  | refl s => exact ⟨h, .refl s⟩
  | step st _ ih => have := ih (h.step st); exact ⟨this.1, (h.stable st).trans this.2⟩

theorem Reach.inv (h : Reach s) : Inv s := by
  induction h with
  | init => exact Inv.init T
  | step _ st ih => exact ih.step st

end
end AppendVec
end Verif
