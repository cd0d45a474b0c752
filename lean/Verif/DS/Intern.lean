import Verif.DS.AppendVec
import Verif.F.FactoryLemmas

/-
The hash-consing tables of src/formulas/formula_cache used by several threads: a transition system on top of the one of
the append-only vector.

A table is an `AppendOnlyVec` of entries and a `DashMap` from keys to handles.  A `DashMap` is an array of shards, each
behind a read-write lock; the shard of a key is chosen by its hash.  `get` holds the read lock of the shard while it
looks, `entry(..).or_insert_with(f)` holds the write lock of the shard from before the look-up until after the new
entry is stored, `f` included.  Acquiring a lock joins the view of the last thread that released it after writing.

Modelled: the look-ups and insertions of all tables (which differ in their key and in whether they look before they
lock), interleaved at the level of the atomic steps of the vector.  Simplified: the look at the map under the read lock
is one step (the map does not change while the lock is held), readers do not publish their views, and a handle is its
index.  Not modelled: `shrink_to_fit`, `len` of the table, poisoning (no code under the lock panics), and the parts of a
`FormulaFactory` outside these tables.
-/
namespace Verif
namespace Intern
open AppendVec (AV View upd upd_self upd_ne)

/-- A call of `get_or_insert` or of `lookup`/`get`. -/
inductive Call (T : Type)
  | insert (e : T)
  | find (e : T)

def Call.arg {T : Type} : Call T → T
  | .insert e => e
  | .find e => e

/-- Where a thread is in the functions of the table, simple_cache.rs:29-41. -/
inductive Pos (T : Type)
  /-- outside -/
  | idle
  /-- at line 31 (a table without the first look: at line 37) -/
  | called (c : Call T)
  /-- line 37, after the first look has failed -/
  | missed (e : T)
  /-- line 37, in `entry`, with the write lock of the shard -/
  | locked (e : T)
  /-- line 38, in `push` -/
  | pushing (e : T)
  /-- line 39: the vector is extended, the map is not -/
  | pushed (e : T) (i : Nat)
  /-- result known, locks released -/
  | done (c : Call T) (r : Option Nat)

/-- History: a call starts, takes effect, returns. -/
inductive Ev (T : Type)
  | inv (c : Call T)
  | lin (c : Call T) (r : Option Nat)
  | ret (c : Call T) (r : Option Nat)

/-- The table and all threads. `lock` is the writer of a shard, `lview` what its last writer had seen. -/
structure Tab (T K : Type) where
  av : AV T
  map : K → Option Nat
  lock : Nat → Option Nat
  lview : Nat → View
  pos : Nat → Pos T
  log : List (Nat × Ev T)

/-- `SimpleCache::new`, simple_cache.rs:19-21, and the other tables alike. -/
def Tab.init (T K : Type) : Tab T K where
  av := AV.init T
  map _ := none
  lock _ := none
  lview _ := ⟨0, fun _ => False, fun _ => False⟩
  pos _ := .idle
  log := []

def View.join (w m : View) : View := ⟨max w.seen m.seen, fun b => w.ptr b ∨ m.ptr b, fun i => w.slot i ∨ m.slot i⟩

/-- Thread `t` acquires a lock. -/
def join {T : Type} (a : AV T) (t : Nat) (m : View) : AV T := { a with view := upd a.view t (View.join (a.view t) m) }

/-- The first step of `push`, append_vec.rs:102. -/
def startPush {T : Type} (a : AV T) (t : Nat) (v : T) : AV T :=
  { a with reserved := a.reserved + 1, pc := upd a.pc t (.gotIdx a.reserved v), pushed := upd a.pushed a.reserved (some v) }

/-- The last step of `push`, append_vec.rs:144. -/
def endPush {T : Type} (a : AV T) (t i : Nat) : AV T :=
  { a with
    count := i + 1, pc := upd a.pc t .idle, returned := (t, i) :: a.returned
    msg := upd a.msg (i + 1) ⟨i + 1, fun b => (a.msg i).ptr b ∨ (a.view t).ptr b, fun j => (a.msg i).slot j ∨ (a.view t).slot j⟩
    view := upd a.view t { a.view t with seen := i + 1 } }

theorem startPush_step {T : Type} {a : AV T} {t : Nat} (v : T) (h : a.pc t = .idle) : AppendVec.Step a (startPush a t v) := .reserve t v h
theorem endPush_step {T : Type} {a : AV T} {t i : Nat} {v : T} (h : a.pc t = .publish i v) (hc : a.count = i) : AppendVec.Step a (endPush a t i) :=
  .casOk t i v h hc

/-- A step of the vector by thread `t` that neither starts nor completes a push. -/
structure Mine {T : Type} (t : Nat) (a a' : AV T) : Prop where
  step : AppendVec.Step a a'
  pc : ∀ t', t' ≠ t → a'.pc t' = a.pc t'
  view : ∀ t', t' ≠ t → a'.view t' = a.view t'
  reserved : a'.reserved = a.reserved
  count : a'.count = a.count

section
variable {T K : Type} [DecidableEq K] (key : T → K) (shard : K → Nat)

/-- One step of one thread. -/
inductive Step (s : Tab T K) : Tab T K → Prop
  /-- a call starts -/
  | call (t : Nat) (c : Call T) : s.pos t = .idle → s.av.pc t = .idle →
      Step s { s with pos := upd s.pos t (.called c), log := s.log ++ [(t, .inv c)] }
  /-- `reverse_map.get` finds the key, simple_cache.rs:31-33, not_cache.rs:53-59 -/
  | hit (t : Nat) (c : Call T) (i : Nat) : s.pos t = .called c → s.lock (shard (key c.arg)) = none → s.map (key c.arg) = some i →
      Step s { s with
        av := join s.av t (s.lview (shard (key c.arg))), pos := upd s.pos t (.done c (some i)), log := s.log ++ [(t, .lin c (some i))] }
  /-- the first look of an insertion fails, simple_cache.rs:31 -/
  | miss (t : Nat) (e : T) : s.pos t = .called (.insert e) → s.lock (shard (key e)) = none → s.map (key e) = none →
      Step s { s with av := join s.av t (s.lview (shard (key e))), pos := upd s.pos t (.missed e) }
  /-- a look-up fails, not_cache.rs:53-59 -/
  | missFind (t : Nat) (e : T) : s.pos t = .called (.find e) → s.lock (shard (key e)) = none → s.map (key e) = none →
      Step s { s with
        av := join s.av t (s.lview (shard (key e))), pos := upd s.pos t (.done (.find e) none), log := s.log ++ [(t, .lin (.find e) none)] }
  /-- `entry` gets the write lock, simple_cache.rs:37; tables without a first look start here -/
  | acquire (t : Nat) (e : T) : s.pos t = .missed e ∨ s.pos t = .called (.insert e) → s.lock (shard (key e)) = none →
      Step s { s with
        av := join s.av t (s.lview (shard (key e))), lock := upd s.lock (shard (key e)) (some t), pos := upd s.pos t (.locked e) }
  /-- `entry` finds the key after all: return and release -/
  | present (t : Nat) (e : T) (i : Nat) : s.pos t = .locked e → s.map (key e) = some i →
      Step s { s with
        lock := upd s.lock (shard (key e)) none, lview := upd s.lview (shard (key e)) (s.av.view t)
        pos := upd s.pos t (.done (.insert e) (some i)), log := s.log ++ [(t, .lin (.insert e) (some i))] }
  /-- `or_insert_with` calls the closure, which calls `push`, simple_cache.rs:38 -/
  | push (t : Nat) (e : T) : s.pos t = .locked e → s.map (key e) = none →
      Step s { s with av := startPush s.av t e, pos := upd s.pos t (.pushing e) }
  /-- inside `push` -/
  | inner (t : Nat) (e : T) (a : AV T) : s.pos t = .pushing e → Mine t s.av a → Step s { s with av := a }
  /-- `push` returns; this is where the insertion takes effect -/
  | finish (t : Nat) (e : T) (i : Nat) : s.pos t = .pushing e → s.av.pc t = .publish i e → s.av.count = i →
      Step s { s with av := endPush s.av t i, pos := upd s.pos t (.pushed e i), log := s.log ++ [(t, .lin (.insert e) (some i))] }
  /-- `or_insert_with` stores the handle, and the guard is dropped, simple_cache.rs:39-40 -/
  | store (t : Nat) (e : T) (i : Nat) : s.pos t = .pushed e i →
      Step s { s with
        map := fun k => if k = key e then some i else s.map k
        lock := upd s.lock (shard (key e)) none, lview := upd s.lview (shard (key e)) (s.av.view t)
        pos := upd s.pos t (.done (.insert e) (some i)) }
  /-- the call returns -/
  | ret (t : Nat) (c : Call T) (r : Option Nat) : s.pos t = .done c r →
      Step s { s with pos := upd s.pos t .idle, log := s.log ++ [(t, .ret c r)] }
  /-- a thread outside the table functions reads the vector (`get`, simple_cache.rs:24-27) or synchronises with another
  thread -/
  | other (t : Nat) (a : AV T) : s.pos t = .idle → Mine t s.av a → Step s { s with av := a }

/-- All executions. -/
inductive Reach : Tab T K → Prop
  | init : Reach (Tab.init T K)
  | step {s s'} : Reach s → Step key shard s s' → Reach s'

/-- Any number of steps. -/
inductive Steps : Tab T K → Tab T K → Prop
  | refl (s : Tab T K) : Steps s s
  | step {s s' s'' : Tab T K} : Step key shard s s' → Steps s' s'' → Steps s s''
end

/-! ### Specification: the calls, in the order in which they take effect, one after the other on one table -/

/-- The effects in order. -/
def lins {T : Type} (log : List (Nat × Ev T)) : List (Call T × Option Nat) :=
  log.filterMap fun x => match x.2 with
    | .lin c r => some (c, r)
    | _ => none

/-- The events of one thread. -/
def evs {T : Type} (t : Nat) (log : List (Nat × Ev T)) : List (Ev T) := log.filterMap fun x => if x.1 = t then some x.2 else none

/-- The calls are made one after the other on the sequential table and give these results. -/
inductive Replay {T : Type} (same : T → T → Bool) (ty : FTy) (large : Bool) : Cache T → List (Call T × Option Nat) → Cache T → Prop
  | nil (c : Cache T) : Replay same ty large c [] c
  | insert {c c' : Cache T} {e : T} {i : Nat} {l : List (Call T × Option Nat)} : (c.getOrInsert same ty large e).1 = ⟨ty, i, large⟩ →
      Replay same ty large (c.getOrInsert same ty large e).2 l c' → Replay same ty large c ((.insert e, some i) :: l) c'
  | find {c c' : Cache T} {e : T} {r : Option Nat} {l : List (Call T × Option Nat)} : c.find same e = r.map (fun i => ⟨ty, i, large⟩) →
      Replay same ty large c l c' → Replay same ty large c ((.find e, r) :: l) c'

/-- A finished call. -/
def whole {T : Type} (x : Call T × Option Nat) : List (Ev T) := [.inv x.1, .lin x.1 x.2, .ret x.1 x.2]

/-- The last call of a thread may be unfinished. -/
inductive Pending {T : Type} : List (Ev T) → Prop
  | none : Pending []
  | started (c : Call T) : Pending [.inv c]
  | effective (c : Call T) (r : Option Nat) : Pending [.inv c, .lin c r]

theorem Replay.append {T : Type} {same : T → T → Bool} {ty : FTy} {large : Bool} {a b c : Cache T} {l m : List (Call T × Option Nat)}
    (h1 : Replay same ty large a l b) (h2 : Replay same ty large b m c) : Replay same ty large a (l ++ m) c := by
  induction h1 with
  | nil => exact h2
  | insert h _ ih => exact .insert h (ih h2)
  | find h _ ih => exact .find h (ih h2)

/-! ### Invariant -/

/-- The unfinished call of a thread, as far as it is in the history. -/
def tail {T : Type} : Pos T → List (Ev T)
  | .idle => []
  | .called c => [.inv c]
  | .missed e => [.inv (.insert e)]
  | .locked e => [.inv (.insert e)]
  | .pushing e => [.inv (.insert e)]
  | .pushed e i => [.inv (.insert e), .lin (.insert e) (some i)]
  | .done c r => [.inv c, .lin c r]

/-- A running push with its value. -/
def run {T : Type} : AppendVec.Pc T → Option (Nat × T)
  | .gotIdx i v => some (i, v)
  | .alloc i v => some (i, v)
  | .spin i v => some (i, v)
  | .readPtr i v => some (i, v)
  | .write i v _ => some (i, v)
  | .publish i v => some (i, v)
  | _ => none

theorem run_idx {T : Type} {p : AppendVec.Pc T} {i : Nat} {v : T} (h : run p = some (i, v)) : p.idx = some i := by
  cases p <;> simp [run, AppendVec.Pc.idx] at h ⊢ <;> exact h.1

section
variable {T K : Type} [DecidableEq K] {key : T → K} {shard : K → Nat}

/-- The thread has the lock of the shard of this entry. -/
def Holds : Pos T → T → Prop
  | .locked e, e' => e = e'
  | .pushing e, e' => e = e'
  | .pushed e _, e' => e = e'
  | _, _ => False

/-- Lock, and all the earlier holder had seen. -/
structure Own (key : T → K) (shard : K → Nat) (s : Tab T K) (t : Nat) (e : T) : Prop where
  lock : s.lock (shard (key e)) = some t
  view : (s.lview (shard (key e))).seen ≤ (s.av.view t).seen

def ThOk (key : T → K) (shard : K → Nat) (s : Tab T K) (c : Cache T) (t : Nat) : Pos T → Prop
  | .idle => (s.av.pc t).idx = none
  | .called _ => s.av.pc t = .idle
  | .missed _ => s.av.pc t = .idle
  | .locked e => s.av.pc t = .idle ∧ Own key shard s t e
  | .pushing e => (∃ i, run (s.av.pc t) = some (i, e)) ∧ Own key shard s t e ∧ s.map (key e) = none
  | .pushed e i => s.av.pc t = .idle ∧ Own key shard s t e ∧ s.map (key e) = none ∧ c.vec[i]? = some e ∧ i < (s.av.view t).seen
  | .done _ r => s.av.pc t = .idle ∧ ∀ i, r = some i → i < (s.av.view t).seen

structure LogOk (key : T → K) (same : T → T → Bool) (ty : FTy) (large : Bool) (s : Tab T K) (c : Cache T) : Prop where
  lins : Replay same ty large ⟨[], []⟩ (lins s.log) c
  proj : ∀ t, ∃ l : List (Call T × Option Nat), evs t s.log = l.flatMap whole ++ tail (s.pos t)
  lin : ∀ t cl r, (t, Ev.lin cl r) ∈ s.log → (∀ i, r = some i → ∃ e, c.vec[i]? = some e ∧ key e = key cl.arg) ∧ ∀ e, cl = .insert e → r ≠ none
  ret : ∀ t cl i, (t, Ev.ret cl (some i)) ∈ s.log → i < (s.av.view t).seen ∧ ∃ e, c.vec[i]? = some e ∧ key e = key cl.arg

structure Ok (key : T → K) (shard : K → Nat) (same : T → T → Bool) (ty : FTy) (large : Bool) (s : Tab T K) (c : Cache T) : Prop where
  av : AppendVec.Inv s.av
  cinv : CInv same ty large c
  vec : ∀ i : Nat, c.vec[i]? = if i < s.av.count then s.av.pushed i else none
  snd : ∀ (k : K) (i : Nat), s.map k = some i → ∃ e, c.vec[i]? = some e ∧ key e = k ∧ i < (s.lview (shard k)).seen
  cpl : ∀ (i : Nat) (e : T), c.vec[i]? = some e → s.map (key e) = some i ∨ ∃ t, s.pos t = .pushed e i
  thr : ∀ t, ThOk key shard s c t (s.pos t)
  own : ∀ sh t, s.lock sh = some t → ∃ e, shard (key e) = sh ∧ Holds (s.pos t) e
  lv : ∀ sh, (s.lview sh).seen ≤ s.av.count
  log : LogOk key same ty large s c

variable {same : T → T → Bool} {ty : FTy} {large : Bool} {s s' : Tab T K} {c c' : Cache T}

theorem Ok.init : Ok key shard same ty large (Tab.init T K) ⟨[], []⟩ where
  av := AppendVec.Inv.init T
  cinv := .empty
  vec i := by simp [Tab.init, AV.init]
  snd k i h := by simp [Tab.init] at h
  cpl i e h := by simp at h
  thr t := by simp [Tab.init, ThOk, AV.init, AppendVec.Pc.idx]
  own sh t h := by simp [Tab.init] at h
  lv sh := by simp [Tab.init, AV.init]
  log := {
    lins := .nil _
    proj := fun t => ⟨[], by simp [Tab.init, tail, evs]⟩
    lin := by simp [Tab.init]
    ret := by simp [Tab.init] }

theorem ThOk.holds {t : Nat} {p : Pos T} (h : ThOk key shard s c t p) {e : T} (he : Holds p e) : Own key shard s t e := by
  cases p with
  | locked e' => cases he; exact h.2
  | pushing e' => cases he; exact h.2.1
  | pushed e' i => cases he; exact h.2.1
  | _ => exact he.elim

/-- A thread does not mind the steps of others. -/
theorem ThOk.mono {t : Nat} {p : Pos T} (h : ThOk key shard s c t p) (hpc : s'.av.pc t = s.av.pc t) (hv : (s.av.view t).seen ≤ (s'.av.view t).seen)
    (hl : ∀ sh, s.lock sh = some t → s'.lock sh = some t ∧ s'.lview sh = s.lview sh ∧ ∀ k, shard k = sh → s'.map k = s.map k)
    (hc : ∀ (i : Nat) e, c.vec[i]? = some e → c'.vec[i]? = some e) : ThOk key shard s' c' t p := by
  have ho : ∀ e, Own key shard s t e → Own key shard s' t e ∧ s'.map (key e) = s.map (key e) := by
    intro e h
    obtain ⟨h1, h2, h3⟩ := hl _ h.lock
    exact ⟨⟨h1, by rw [h2]; exact Nat.le_trans h.view hv⟩, h3 _ rfl⟩
  cases p with
  | idle => unfold ThOk; rw [hpc]; exact h
  | called _ => unfold ThOk; rw [hpc]; exact h
  | missed _ => unfold ThOk; rw [hpc]; exact h
  | locked e => unfold ThOk; rw [hpc]; exact ⟨h.1, (ho e h.2).1⟩
  | pushing e => unfold ThOk; rw [hpc]; exact ⟨h.1, (ho e h.2.1).1, by rw [(ho e h.2.1).2]; exact h.2.2⟩
  | pushed e i =>
    unfold ThOk; rw [hpc]
    exact ⟨h.1, (ho e h.2.1).1, by rw [(ho e h.2.1).2]; exact h.2.2.1, hc _ _ h.2.2.2.1, by have := h.2.2.2.2; omega⟩
  | done cl r => unfold ThOk; rw [hpc]; exact ⟨h.1, fun i hi => by have := h.2 i hi; omega⟩

theorem evs_append (t : Nat) (l m : List (Nat × Ev T)) : evs t (l ++ m) = evs t l ++ evs t m := by simp [evs]
theorem evs_self (t : Nat) (x : Ev T) : evs t [(t, x)] = [x] := by simp [evs]
theorem evs_ne {t t' : Nat} (h : t' ≠ t) (x : Ev T) : evs t' [(t, x)] = [] := by simp [evs, Ne.symm h]
theorem lins_append (l m : List (Nat × Ev T)) : lins (l ++ m) = lins l ++ lins m := by simp [lins]

/-- No event, the thread may have moved. -/
theorem LogOk.quiet (h : LogOk key same ty large s c) (t : Nat) (hlog : s'.log = s.log) (hpos : ∀ t', t' ≠ t → s'.pos t' = s.pos t')
    (ht : tail (s'.pos t) = tail (s.pos t)) (hv : ∀ t', (s.av.view t').seen ≤ (s'.av.view t').seen) : LogOk key same ty large s' c where
  lins := by rw [hlog]; exact h.lins
  proj t' := by
    obtain ⟨l, hl⟩ := h.proj t'
    refine ⟨l, ?_⟩
    by_cases e : t' = t
    · subst e; rw [hlog, ht, hl]
    · rw [hlog, hpos t' e, hl]
  lin := by rw [hlog]; exact h.lin
  ret t' cl i hm := by
    rw [hlog] at hm
    obtain ⟨h1, h2⟩ := h.ret t' cl i hm
    have := hv t'
    exact ⟨by omega, h2⟩

/-- An event of the thread. -/
theorem LogOk.event (h : LogOk key same ty large s c) (t : Nat) (x : Ev T) (hlog : s'.log = s.log ++ [(t, x)]) (hpos : ∀ t', t' ≠ t → s'.pos t' = s.pos t')
    (hv : ∀ t', (s.av.view t').seen ≤ (s'.av.view t').seen) (hc : ∀ (i : Nat) e, c.vec[i]? = some e → c'.vec[i]? = some e)
    (hx : (tail (s'.pos t) = tail (s.pos t) ++ [x] ∧ ∀ cl i, x ≠ .ret cl i) ∨
      ∃ y : Call T × Option Nat, whole y = tail (s.pos t) ++ [x] ∧ tail (s'.pos t) = [] ∧ ∀ i, y.2 = some i → i < (s'.av.view t).seen)
    (hl : Replay same ty large c (Intern.lins [(t, x)]) c')
    (hr : ∀ cl r, x = .lin cl r → (∀ i, r = some i → ∃ e, c'.vec[i]? = some e ∧ key e = key cl.arg) ∧ ∀ e, cl = .insert e → r ≠ none) :
    LogOk key same ty large s' c' where
  lins := by rw [hlog, lins_append]; exact h.lins.append hl
  proj t' := by
    obtain ⟨l, hp⟩ := h.proj t'
    by_cases e : t' = t
    · subst e
      rcases hx with ⟨hx, _⟩ | ⟨y, hy, hy', _⟩
      · exact ⟨l, by rw [hlog, evs_append, evs_self, hp, hx, List.append_assoc]⟩
      · refine ⟨l ++ [y], ?_⟩
        rw [hlog, evs_append, evs_self, hp, hy', List.append_assoc, ← hy]
        simp
    · exact ⟨l, by rw [hlog, evs_append, evs_ne e, hpos t' e, hp, List.append_nil]⟩
  lin t' cl r hm := by
    rw [hlog, List.mem_append] at hm
    rcases hm with hm | hm
    · obtain ⟨h1, h2⟩ := h.lin t' cl r hm
      refine ⟨fun i hi => ?_, h2⟩
      obtain ⟨e, he, he'⟩ := h1 i hi
      exact ⟨e, hc i e he, he'⟩
    · rw [List.mem_singleton, Prod.mk.injEq] at hm
      exact hr cl r hm.2.symm
  ret t' cl i hm := by
    rw [hlog, List.mem_append] at hm
    rcases hm with hm | hm
    · obtain ⟨h1, e, he, he'⟩ := h.ret t' cl i hm
      have := hv t'
      exact ⟨by omega, e, hc i e he, he'⟩
    · rw [List.mem_singleton, Prod.mk.injEq] at hm
      obtain ⟨rfl, rfl⟩ := hm
      rcases hx with ⟨_, hx⟩ | ⟨y, hy, hy', hy''⟩
      · exact absurd rfl (hx cl (some i))
      · -- the event before it is the effect of the same call
        have hlast : (whole y).getLast? = some (.ret cl (some i)) := by rw [hy]; simp
        simp only [whole, List.getLast?_cons_cons, List.getLast?_singleton, Option.some.injEq, Ev.ret.injEq] at hlast
        refine ⟨hy'' i hlast.2, ?_⟩
        have hmem : Ev.lin y.1 y.2 ∈ tail (s.pos t') := by
          have : Ev.lin y.1 y.2 ∈ tail (s.pos t') ++ [Ev.ret cl (some i)] := by rw [← hy]; simp [whole]
          rcases List.mem_append.1 this with h | h
          · exact h
          · simp at h
        obtain ⟨l, hl'⟩ := h.proj t'
        have : Ev.lin y.1 y.2 ∈ evs t' s.log := by rw [hl']; exact List.mem_append_right _ hmem
        obtain ⟨⟨t2, ev⟩, h1, h2⟩ := List.mem_filterMap.1 this
        by_cases e2 : t2 = t'
        · subst e2
          simp only [if_true] at h2
          injection h2 with h2
          subst h2
          obtain ⟨e, he, he'⟩ := (h.lin t2 y.1 y.2 h1).1 i hlast.2
          exact ⟨e, hc i e he, by rw [he', hlast.1]⟩
        · simp [e2] at h2

/-- Steps that change neither the map nor the published part of the vector. -/
theorem Ok.frame (h : Ok key shard same ty large s c) (t : Nat) (av : AppendVec.Inv s'.av) (hcnt : s'.av.count = s.av.count)
    (hpsh : ∀ i, i < s.av.count → s'.av.pushed i = s.av.pushed i)
    (hoth : ∀ t', t' ≠ t → s'.av.pc t' = s.av.pc t' ∧ s'.pos t' = s.pos t') (hview : ∀ t', (s.av.view t').seen ≤ (s'.av.view t').seen)
    (hmap : s'.map = s.map) (hlock : ∀ sh t', t' ≠ t → (s.lock sh = some t' ↔ s'.lock sh = some t'))
    (hlv : ∀ sh, (s.lview sh).seen ≤ (s'.lview sh).seen ∧ (s'.lview sh).seen ≤ s.av.count ∧ ∀ t', t' ≠ t → s.lock sh = some t' → s'.lview sh = s.lview sh)
    (hown : ∀ sh, s'.lock sh = some t → ∃ e, shard (key e) = sh ∧ Holds (s'.pos t) e) (hth : ThOk key shard s' c t (s'.pos t))
    (hnp : ∀ e i, s.pos t ≠ .pushed e i) (hlog : LogOk key same ty large s' c) : Ok key shard same ty large s' c where
  av := av
  cinv := h.cinv
  vec i := by
    rw [h.vec i, hcnt]
    by_cases e : i < s.av.count
    · rw [if_pos e, if_pos e, hpsh i e]
    · rw [if_neg e, if_neg e]
  snd k i hk := by
    rw [hmap] at hk
    obtain ⟨e, h1, h2, h3⟩ := h.snd k i hk
    have := (hlv (shard k)).1
    exact ⟨e, h1, h2, by omega⟩
  cpl i e hi := by
    rw [hmap]
    rcases h.cpl i e hi with h1 | ⟨t', h1⟩
    · exact .inl h1
    · have : t' ≠ t := by rintro rfl; exact hnp e i h1
      exact .inr ⟨t', by rw [(hoth t' this).2, h1]⟩
  thr t' := by
    by_cases e : t' = t
    · subst e; exact hth
    · rw [(hoth t' e).2]
      refine (h.thr t').mono (hoth t' e).1 (hview t') (fun sh hs => ?_) (fun _ _ h => h)
      exact ⟨(hlock sh t' e).1 hs, (hlv sh).2.2 t' e hs, fun k _ => by rw [hmap]⟩
  own sh t' hs := by
    by_cases e : t' = t
    · subst e; exact hown sh hs
    · rw [(hoth t' e).2]; exact h.own sh t' ((hlock sh t' e).2 hs)
  lv sh := by rw [hcnt]; exact (hlv sh).2.1
  log := hlog

theorem join_inv {a : AV T} (h : AppendVec.Inv a) {t : Nat} (hp : a.pc t = .idle) {m : View} (hm : m.seen ≤ a.count) : AppendVec.Inv (join a t m) := by
  have := h.loc t (a.pc t) (View.join (a.view t) m) (Nat.max_le.2 ⟨h.seen t, hm⟩) (Nat.le_max_left _ _) (by rw [hp]; trivial) rfl (fun _ _ h => h)
  have e : upd a.pc t (a.pc t) = a.pc := by funext t'; simp only [upd]; split <;> simp_all
  rw [e] at this; exact this

theorem join_seen {a : AV T} {t : Nat} {m : View} (t' : Nat) : (a.view t').seen ≤ ((join a t m).view t').seen := by
  simp only [join, upd]
  split
  · rename_i e; subst e; exact Nat.le_max_left _ _
  · exact Nat.le_refl _

theorem join_self {a : AV T} {t : Nat} {m : View} : m.seen ≤ ((join a t m).view t).seen := by
  simp only [join, upd_self]; exact Nat.le_max_right _ _

/-- Views only grow. -/
theorem view_mono {a a' : AV T} (h : AppendVec.Inv a) (st : AppendVec.Step a a') (t' : Nat) : (a.view t').seen ≤ (a'.view t').seen := by
  cases st <;> simp only [AV.acq, upd, View.acquire, Nat.le_refl] <;> (try (split <;> rename_i e <;> (try subst e) <;> simp only [Nat.le_refl]))
  all_goals first
    | (rename_i hl _ ; exact hl.1)
    | (rename_i hl _ _ ; exact hl.1)
    | (rename_i hl ; exact hl.1)
    | exact Nat.le_max_left _ _
    | (have := h.seen t'; omega)

/-- A running push keeps its index and value until it completes. -/
theorem run_step {a a' : AV T} (h : AppendVec.Inv a) (st : AppendVec.Step a a') (hc : a'.count = a.count) {t i : Nat} {v : T} (hr : run (a.pc t) = some (i, v)) :
    run (a'.pc t) = some (i, v) := by
  have h' := h.step st
  have hp := h'.pcok t
  revert hp
  cases st <;> simp only [AV.acq, upd] <;> (try (split <;> rename_i e <;> (try subst e))) <;> intro hp <;> (try exact hr) <;>
    (try (exact hp.elim)) <;> simp_all [run]

theorem pushed_step {a a' : AV T} (h : AppendVec.Inv a) (st : AppendVec.Step a a') (i : Nat) (hi : i < a.count) : a'.pushed i = a.pushed i := by
  obtain ⟨p, v, _, _, e⟩ := h.memPub i hi
  rw [e]; exact (h.stable st).pushed i v e

theorem idx_step {a a' : AV T} {t : Nat} (h : AppendVec.Inv a) (m : Mine t a a') (hi : (a.pc t).idx = none) : (a'.pc t).idx = none := by
  cases hx : (a'.pc t).idx with
  | none => rfl
  | some j =>
    have h' := h.step m.step
    have hb : a'.count ≤ j ∧ j < a'.reserved := by
      have hp := h'.pcok t
      cases hq : a'.pc t <;> rw [hq] at hx hp <;> simp only [AppendVec.Pc.idx, Option.some.injEq, reduceCtorEq] at hx <;> subst hx <;> exact ⟨hp.1, hp.2.1⟩
    obtain ⟨t', ht'⟩ := h.cover j (by have := m.count; omega) (by have := m.reserved; omega)
    have hne : t' ≠ t := by rintro rfl; rw [hi] at ht'; cases ht'
    have := h'.uniq t t' j hx (by rw [m.pc t' hne]; exact ht')
    exact absurd this.symm hne

theorem eqv (hk : ∀ a b, same a b = true ↔ key a = key b) : IsEqv same :=
  ⟨fun a => (hk a a).2 rfl, fun a b h => (hk b a).2 ((hk a b).1 h).symm, fun a b d h h' => (hk a d).2 (((hk a b).1 h).trans ((hk b d).1 h'))⟩

theorem Ok.idle_pc (h : Ok key shard same ty large s c) {t : Nat} {cl : Call T} (hp : s.pos t = .called cl) : s.av.pc t = .idle := by
  have := h.thr t; rw [hp] at this; exact this

/-- What the map says is what the sequential table says. -/
theorem Ok.find_some (h : Ok key shard same ty large s c) (hk : ∀ a b, same a b = true ↔ key a = key b) {e : T} {i : Nat}
    (hm : s.map (key e) = some i) : c.find same e = some ⟨ty, i, large⟩ := by
  obtain ⟨e0, h1, h2, _⟩ := h.snd _ i hm
  exact h.cinv.find_some (eqv hk) h1 ((hk e0 e).2 h2)

/-- A key that is not in the map is not in the vector either, unless a thread is about to store it. -/
theorem Ok.find_none (h : Ok key shard same ty large s c) (hk : ∀ a b, same a b = true ↔ key a = key b) {e : T}
    (hm : s.map (key e) = none) (hl : ∀ t, s.lock (shard (key e)) = some t → ∀ e' i, s.pos t ≠ .pushed e' i) : c.find same e = none := by
  cases hf : c.find same e with
  | none => rfl
  | some x =>
    obtain ⟨i, a, h1, h2, _⟩ := (h.cinv.find_iff (eqv hk) e x).1 hf
    have h2 := (hk a e).1 h2
    rcases h.cpl i a h1 with h3 | ⟨t, h3⟩
    · rw [h2, hm] at h3; cases h3
    · have := h.thr t
      rw [h3] at this
      have hlk := this.2.1.lock
      rw [h2] at hlk
      exact absurd h3 (hl t hlk a i)

theorem insert_hit {e : T} {x : H} (hf : c.find same e = some x) : c.getOrInsert same ty large e = (x, c) := by
  unfold Cache.getOrInsert; rw [hf]

theorem insert_miss {e : T} (hf : c.find same e = none) :
    c.getOrInsert same ty large e = (⟨ty, c.vec.length, large⟩, ⟨c.vec ++ [e], c.map ++ [(e, ⟨ty, c.vec.length, large⟩)]⟩) := by
  unfold Cache.getOrInsert; rw [hf]

theorem Ok.length (h : Ok key shard same ty large s c) : c.vec.length = s.av.count := by
  rcases Nat.lt_trichotomy c.vec.length s.av.count with hlt | e | hlt
  · have := h.vec c.vec.length
    obtain ⟨p, v, _, _, e⟩ := h.av.memPub _ hlt
    rw [if_pos hlt, e] at this
    simp at this
  · exact e
  · have := h.vec s.av.count
    rw [if_neg (Nat.lt_irrefl _), List.getElem?_eq_none_iff] at this
    omega

theorem Ok.step (h : Ok key shard same ty large s c) (hk : ∀ a b, same a b = true ↔ key a = key b) (st : Step key shard s s') :
    ∃ c', Ok key shard same ty large s' c' ∧ c.vec <+: c'.vec := by
  have hupd : ∀ {β : Type} (f : Nat → β) (t : Nat) (x : β) (t' : Nat), t' ≠ t → upd f t x t' = f t' := fun f t x t' hn => upd_ne f x hn
  cases st with
  | call t cl hp hpc =>
    refine ⟨c, h.frame t h.av rfl (fun _ _ => rfl) (fun t' hn => ⟨rfl, hupd _ _ _ _ hn⟩) (fun _ => Nat.le_refl _) rfl (fun _ _ _ => Iff.rfl)
      (fun sh => ⟨Nat.le_refl _, h.lv sh, fun _ _ _ => rfl⟩) ?_ ?_ (by rw [hp]; exact fun _ _ h => nomatch h) ?_, List.prefix_rfl⟩
    · intro sh hs
      obtain ⟨e, _, he⟩ := h.own sh t hs
      rw [hp] at he; exact he.elim
    · simp only [upd_self]; exact hpc
    · refine h.log.event t (.inv cl) rfl (fun t' hn => hupd _ _ _ _ hn) (fun _ => Nat.le_refl _) (fun _ _ h => h) ?_ ?_ (fun _ _ h => nomatch h)
      · simp only [upd_self, hp, tail]; exact .inl ⟨rfl, fun _ _ h => nomatch h⟩
      · exact .nil _
  | hit t cl i hp hl hm =>
    have hpc := h.idle_pc hp
    obtain ⟨e0, he1, he2, he3⟩ := h.snd _ i hm
    have hj := join_inv h.av hpc (h.lv (shard (key cl.arg)))
    have hs := join_self (a := s.av) (t := t) (m := s.lview (shard (key cl.arg)))
    refine ⟨c, h.frame t hj rfl (fun _ _ => rfl) (fun t' hn => ⟨rfl, hupd _ _ _ _ hn⟩) join_seen rfl (fun _ _ _ => Iff.rfl)
      (fun sh => ⟨Nat.le_refl _, h.lv sh, fun _ _ _ => rfl⟩) ?_ ?_ (by rw [hp]; exact fun _ _ h => nomatch h) ?_, List.prefix_rfl⟩
    · intro sh hs
      obtain ⟨e, _, he⟩ := h.own sh t hs
      rw [hp] at he; exact he.elim
    · simp only [upd_self, ThOk]
      refine ⟨hpc, fun j hj => ?_⟩
      injection hj with hj; subst hj
      exact Nat.lt_of_lt_of_le he3 hs
    · refine h.log.event t (.lin cl (some i)) rfl (fun t' hn => hupd _ _ _ _ hn) join_seen (fun _ _ h => h) ?_ ?_ ?_
      · simp only [upd_self, hp, tail]; exact .inl ⟨rfl, fun _ _ h => nomatch h⟩
      · have hf := h.find_some hk (e := cl.arg) hm
        cases cl with
        | insert e =>
          have hf : c.find same e = some ⟨ty, i, large⟩ := hf
          refine .insert (c := c) ?_ ?_
          · rw [insert_hit hf]
          · rw [insert_hit hf]; exact .nil _
        | find e => exact .find (c := c) hf (.nil _)
      · intro cl' r e
        injection e with e1 e2; subst e1; subst e2
        refine ⟨fun j hj => ?_, fun _ _ h => nomatch h⟩
        injection hj with hj; subst hj
        exact ⟨e0, he1, he2⟩
  | miss t e hp hl hm =>
    have hpc := h.idle_pc hp
    have hj := join_inv h.av hpc (h.lv (shard (key e)))
    refine ⟨c, h.frame t hj rfl (fun _ _ => rfl) (fun t' hn => ⟨rfl, hupd _ _ _ _ hn⟩) join_seen rfl (fun _ _ _ => Iff.rfl)
      (fun sh => ⟨Nat.le_refl _, h.lv sh, fun _ _ _ => rfl⟩) ?_ ?_ (by rw [hp]; exact fun _ _ h => nomatch h) ?_, List.prefix_rfl⟩
    · intro sh hs
      obtain ⟨e, _, he⟩ := h.own sh t hs
      rw [hp] at he; exact he.elim
    · simp only [upd_self, ThOk]; exact hpc
    · refine h.log.quiet t rfl (fun t' hn => hupd _ _ _ _ hn) ?_ join_seen
      simp only [upd_self, hp, tail]
  | missFind t e hp hl hm =>
    have hpc := h.idle_pc hp
    have hj := join_inv h.av hpc (h.lv (shard (key e)))
    refine ⟨c, h.frame t hj rfl (fun _ _ => rfl) (fun t' hn => ⟨rfl, hupd _ _ _ _ hn⟩) join_seen rfl (fun _ _ _ => Iff.rfl)
      (fun sh => ⟨Nat.le_refl _, h.lv sh, fun _ _ _ => rfl⟩) ?_ ?_ (by rw [hp]; exact fun _ _ h => nomatch h) ?_, List.prefix_rfl⟩
    · intro sh hs
      obtain ⟨e, _, he⟩ := h.own sh t hs
      rw [hp] at he; exact he.elim
    · simp only [upd_self, ThOk]; exact ⟨hpc, fun _ h => nomatch h⟩
    · refine h.log.event t (.lin (.find e) none) rfl (fun t' hn => hupd _ _ _ _ hn) join_seen (fun _ _ h => h) ?_ ?_ ?_
      · simp only [upd_self, hp, tail]; exact .inl ⟨rfl, fun _ _ h => nomatch h⟩
      · exact .find (c := c) (h.find_none hk hm (by rw [hl]; exact fun _ h => nomatch h)) (.nil _)
      · intro cl' r e
        injection e with e1 e2; subst e1; subst e2
        exact ⟨fun _ h => (nomatch h), fun _ h => (nomatch h)⟩
  | acquire t e hp hl =>
    have hpc : s.av.pc t = .idle := by
      have := h.thr t
      rcases hp with hp | hp <;> rw [hp] at this <;> exact this
    have hnh : ∀ e', ¬ Holds (s.pos t) e' := by rcases hp with hp | hp <;> rw [hp] <;> exact fun _ h => h
    have hj := join_inv h.av hpc (h.lv (shard (key e)))
    have hs := join_self (a := s.av) (t := t) (m := s.lview (shard (key e)))
    refine ⟨c, h.frame t hj rfl (fun _ _ => rfl) (fun t' hn => ⟨rfl, hupd _ _ _ _ hn⟩) join_seen rfl ?_
      (fun sh => ⟨Nat.le_refl _, h.lv sh, fun _ _ _ => rfl⟩) ?_ ?_ (by rcases hp with hp | hp <;> rw [hp] <;> exact fun _ _ h => nomatch h) ?_, List.prefix_rfl⟩
    · intro sh t' hn
      by_cases e1 : sh = shard (key e)
      · subst e1; simp only [upd_self, hl, Option.some.injEq]
        exact ⟨fun h => (nomatch h), fun h => absurd h.symm hn⟩
      · simp only [upd_ne _ _ e1]
    · intro sh hs
      by_cases e1 : sh = shard (key e)
      · subst e1; simp only [upd_self]; exact ⟨e, rfl, rfl⟩
      · simp only [upd_ne _ _ e1] at hs
        obtain ⟨e', _, he⟩ := h.own sh t hs
        exact absurd he (hnh e')
    · simp only [upd_self, ThOk]
      exact ⟨hpc, ⟨upd_self _ _ _, hs⟩⟩
    · refine h.log.quiet t rfl (fun t' hn => hupd _ _ _ _ hn) ?_ join_seen
      rcases hp with hp | hp <;> simp only [upd_self, hp, tail]
  | present t e i hp hm =>
    have hth := h.thr t
    rw [hp] at hth
    obtain ⟨hpc, ho⟩ := hth
    obtain ⟨e0, he1, he2, he3⟩ := h.snd _ i hm
    refine ⟨c, h.frame t h.av rfl (fun _ _ => rfl) (fun t' hn => ⟨rfl, hupd _ _ _ _ hn⟩) (fun _ => Nat.le_refl _) rfl ?_
      ?_ ?_ ?_ (by rw [hp]; exact fun _ _ h => nomatch h) ?_, List.prefix_rfl⟩
    · intro sh t' hn
      by_cases e1 : sh = shard (key e)
      · subst e1; simp only [upd_self, ho.lock, Option.some.injEq]
        exact ⟨fun h => absurd h.symm hn, fun h => (nomatch h)⟩
      · simp only [upd_ne _ _ e1]
    · intro sh
      by_cases e1 : sh = shard (key e)
      · subst e1; simp only [upd_self]
        refine ⟨ho.view, h.av.seen t, fun t' hn hs => ?_⟩
        rw [ho.lock] at hs; injection hs with hs; exact absurd hs.symm hn
      · simp only [upd_ne _ _ e1]; exact ⟨Nat.le_refl _, h.lv sh, fun _ _ _ => trivial⟩
    · intro sh hs
      by_cases e1 : sh = shard (key e)
      · subst e1; simp only [upd_self] at hs; cases hs
      · simp only [upd_ne _ _ e1] at hs
        obtain ⟨e', h1, he⟩ := h.own sh t hs
        rw [hp] at he; cases he
        exact absurd h1.symm e1
    · simp only [upd_self, ThOk]
      refine ⟨hpc, fun j hj => ?_⟩
      injection hj with hj; subst hj
      have := ho.view
      omega
    · refine h.log.event t (.lin (.insert e) (some i)) rfl (fun t' hn => hupd _ _ _ _ hn) (fun _ => Nat.le_refl _) (fun _ _ h => h) ?_ ?_ ?_
      · simp only [upd_self, hp, tail]; exact .inl ⟨rfl, fun _ _ h => nomatch h⟩
      · have hf := h.find_some hk (e := e) hm
        refine .insert (c := c) ?_ ?_
        · rw [insert_hit hf]
        · rw [insert_hit hf]; exact .nil _
      · intro cl' r e
        injection e with e1 e2; subst e1; subst e2
        refine ⟨fun j hj => ?_, fun _ _ h => nomatch h⟩
        injection hj with hj; subst hj
        exact ⟨e0, he1, he2⟩
  | push t e hp hm =>
    have hth := h.thr t
    rw [hp] at hth
    obtain ⟨hpc, ho⟩ := hth
    have st := startPush_step e hpc
    refine ⟨c, h.frame t (h.av.step st) rfl (pushed_step h.av st) (fun t' hn => ⟨hupd _ _ _ _ hn, hupd _ _ _ _ hn⟩) (fun _ => Nat.le_refl _) rfl (fun _ _ _ => Iff.rfl)
      (fun sh => ⟨Nat.le_refl _, h.lv sh, fun _ _ _ => rfl⟩) ?_ ?_ (by rw [hp]; exact fun _ _ h => nomatch h) ?_, List.prefix_rfl⟩
    · intro sh hs
      obtain ⟨e', h1, he⟩ := h.own sh t hs
      rw [hp] at he; cases he
      exact ⟨e, h1, by simp only [upd_self]; rfl⟩
    · simp only [upd_self, ThOk, startPush]
      exact ⟨⟨_, rfl⟩, ⟨ho.lock, ho.view⟩, hm⟩
    · refine h.log.quiet t rfl (fun t' hn => hupd _ _ _ _ hn) ?_ (fun _ => Nat.le_refl _)
      simp only [upd_self, hp, tail]
  | inner t e a hp m =>
    have hth := h.thr t
    rw [hp] at hth
    obtain ⟨⟨i, hr⟩, ho, hm⟩ := hth
    have hv := view_mono h.av m.step
    refine ⟨c, h.frame t (h.av.step m.step) m.count (pushed_step h.av m.step) (fun t' hn => ⟨m.pc t' hn, rfl⟩) hv rfl (fun _ _ _ => Iff.rfl)
      (fun sh => ⟨Nat.le_refl _, h.lv sh, fun _ _ _ => rfl⟩) (fun sh hs => h.own sh t hs) ?_ (by rw [hp]; exact fun _ _ h => nomatch h) ?_, List.prefix_rfl⟩
    · simp only [hp, ThOk]
      exact ⟨⟨i, run_step h.av m.step m.count hr⟩, ⟨ho.lock, Nat.le_trans ho.view (hv t)⟩, hm⟩
    · exact h.log.quiet t rfl (fun t' hn => rfl) rfl hv
  | finish t e i hp hpc hcnt =>
    have hth := h.thr t
    rw [hp] at hth
    obtain ⟨_, ho, hm⟩ := hth
    have st := endPush_step hpc hcnt
    have hpk := h.av.pcok t
    rw [hpc] at hpk
    have hv := view_mono h.av st
    have hlen := h.length
    have hf := h.find_none hk hm (fun t' hl e' i' => by
      rw [ho.lock] at hl; injection hl with hl; subst hl; rw [hp]; exact fun h => nomatch h)
    obtain ⟨_, _, _, _, _, hci, _⟩ := h.cinv.getOrInsert (eqv hk) e
    rw [insert_miss hf] at hci
    have hpre : ∀ (j : Nat) x, c.vec[j]? = some x → (c.vec ++ [e])[j]? = some x := by
      intro j x hx
      have := (List.getElem?_eq_some_iff.1 hx).1
      rw [List.getElem?_append_left this]; exact hx
    have hat : (c.vec ++ [e])[i]? = some e := by
      rw [List.getElem?_append_right (by omega), show i - c.vec.length = 0 by omega]; rfl
    refine ⟨_, ⟨h.av.step st, hci, ?_, ?_, ?_, ?_, ?_, ?_, ?_⟩, List.prefix_append _ _⟩
    · intro j
      show (c.vec ++ [e])[j]? = if j < i + 1 then s.av.pushed j else none
      rcases Nat.lt_trichotomy j i with hlt | rfl | hlt
      · rw [List.getElem?_append_left (by omega), h.vec j, if_pos (by omega), if_pos (by omega)]
      · rw [hat, if_pos (by omega), hpk.2.2.1]
      · rw [if_neg (by omega), List.getElem?_eq_none_iff]; simp; omega
    · intro k j hj
      obtain ⟨e0, h1, h2, h3⟩ := h.snd k j hj
      exact ⟨e0, hpre _ _ h1, h2, h3⟩
    · intro j x hx
      by_cases hj : j < c.vec.length
      · rw [List.getElem?_append_left hj] at hx
        rcases h.cpl j x hx with h1 | ⟨t', h1⟩
        · exact .inl h1
        · refine .inr ⟨t', ?_⟩
          have : t' ≠ t := by rintro rfl; rw [hp] at h1; cases h1
          simp only [upd_ne _ _ this]; exact h1
      · have hj' : j < (c.vec ++ [e]).length := (List.getElem?_eq_some_iff.1 hx).1
        have : j = i := by simp at hj'; omega
        subst this
        rw [hat] at hx; injection hx with hx; subst hx
        exact .inr ⟨t, upd_self _ _ _⟩
    · intro t'
      by_cases hn : t' = t
      · subst hn
        simp only [upd_self, ThOk, endPush]
        refine ⟨trivial, ⟨ho.lock, Nat.le_trans ho.view (hv t')⟩, hm, hat, ?_⟩
        omega
      · simp only [upd_ne _ _ hn]
        refine (h.thr t').mono (upd_ne _ _ hn) (hv t') (fun sh hs => ⟨hs, rfl, fun _ _ => rfl⟩) hpre
    · intro sh t' hs
      by_cases hn : t' = t
      · subst hn
        obtain ⟨e', h1, he⟩ := h.own sh t' hs
        rw [hp] at he; cases he
        exact ⟨e, h1, by simp only [upd_self]; rfl⟩
      · simp only [upd_ne _ _ hn]; exact h.own sh t' hs
    · intro sh
      have := h.lv sh
      simp only [endPush]; omega
    · refine h.log.event t (.lin (.insert e) (some i)) rfl (fun t' hn => hupd _ _ _ _ hn) hv hpre ?_ ?_ ?_
      · simp only [upd_self, hp, tail]; exact .inl ⟨rfl, fun _ _ h => nomatch h⟩
      · refine .insert (c := c) ?_ ?_
        · rw [insert_miss hf, hlen, hcnt]
        · rw [insert_miss hf]; exact .nil _
      · intro cl' r e
        injection e with e1 e2; subst e1; subst e2
        refine ⟨fun j hj => ?_, fun _ _ h => nomatch h⟩
        injection hj with hj; subst hj
        exact ⟨_, hat, rfl⟩
  | store t e i hp =>
    have hth := h.thr t
    rw [hp] at hth
    obtain ⟨hpc, ho, hm, hi, hseen⟩ := hth
    have hno : ∀ sh t', t' ≠ t → s.lock sh = some t' → sh ≠ shard (key e) := by
      rintro sh t' hn hs rfl
      rw [ho.lock] at hs; injection hs with hs; exact hn hs.symm
    refine ⟨c, ⟨h.av, h.cinv, h.vec, ?_, ?_, ?_, ?_, ?_, ?_⟩, List.prefix_rfl⟩
    · intro k j hj
      by_cases hke : k = key e
      · subst hke
        simp only [if_true] at hj
        injection hj with hj; subst hj
        exact ⟨e, hi, rfl, by simp only [upd_self]; exact hseen⟩
      · simp only [hke, if_false] at hj
        obtain ⟨e0, h1, h2, h3⟩ := h.snd k j hj
        refine ⟨e0, h1, h2, ?_⟩
        by_cases e1 : shard k = shard (key e)
        · rw [e1] at h3 ⊢
          simp only [upd_self]
          have := ho.view; omega
        · simp only [upd_ne _ _ e1]; exact h3
    · intro j x hx
      by_cases hke : key x = key e
      · left
        simp only [hke, if_true]
        rw [h.cinv.uniq' (eqv hk) hx hi ((hk x e).2 hke)]
      · rcases h.cpl j x hx with h1 | ⟨t', h1⟩
        · left; simp only [hke, if_false]; exact h1
        · right
          refine ⟨t', ?_⟩
          have : t' ≠ t := by
            rintro rfl; rw [hp] at h1; injection h1 with h1 h2; subst h1; exact hke rfl
          simp only [upd_ne _ _ this]; exact h1
    · intro t'
      by_cases hn : t' = t
      · subst hn
        simp only [upd_self, ThOk]
        refine ⟨hpc, fun j hj => ?_⟩
        injection hj with hj; subst hj; exact hseen
      · simp only [upd_ne _ _ hn]
        refine (h.thr t').mono rfl (Nat.le_refl _) (fun sh hs => ?_) (fun _ _ h => h)
        have h1 := hno sh t' hn hs
        refine ⟨by simp only [upd_ne _ _ h1]; exact hs, by simp only [upd_ne _ _ h1], fun k hsk => ?_⟩
        have : k ≠ key e := by rintro rfl; exact h1 hsk.symm
        simp only [this, if_false]
    · intro sh t' hs
      by_cases e1 : sh = shard (key e)
      · subst e1; simp only [upd_self] at hs; cases hs
      · simp only [upd_ne _ _ e1] at hs
        obtain ⟨e', h1, he⟩ := h.own sh t' hs
        have : t' ≠ t := by
          rintro rfl; rw [hp] at he; cases he; exact e1 h1.symm
        simp only [upd_ne _ _ this]
        exact ⟨e', h1, he⟩
    · intro sh
      by_cases e1 : sh = shard (key e)
      · subst e1; simp only [upd_self]; exact h.av.seen t
      · simp only [upd_ne _ _ e1]; exact h.lv sh
    · refine h.log.quiet t rfl (fun t' hn => hupd _ _ _ _ hn) ?_ (fun _ => Nat.le_refl _)
      simp only [upd_self, hp, tail]
  | ret t cl r hp =>
    have hth := h.thr t
    rw [hp] at hth
    obtain ⟨hpc, hr⟩ := hth
    refine ⟨c, h.frame t h.av rfl (fun _ _ => rfl) (fun t' hn => ⟨rfl, hupd _ _ _ _ hn⟩) (fun _ => Nat.le_refl _) rfl (fun _ _ _ => Iff.rfl)
      (fun sh => ⟨Nat.le_refl _, h.lv sh, fun _ _ _ => rfl⟩) ?_ ?_ (by rw [hp]; exact fun _ _ h => nomatch h) ?_, List.prefix_rfl⟩
    · intro sh hs
      obtain ⟨e, _, he⟩ := h.own sh t hs
      rw [hp] at he; exact he.elim
    · simp only [upd_self, ThOk, hpc]; rfl
    · refine h.log.event t (.ret cl r) rfl (fun t' hn => hupd _ _ _ _ hn) (fun _ => Nat.le_refl _) (fun _ _ h => h) ?_ ?_ (fun _ _ h => nomatch h)
      · refine .inr ⟨(cl, r), ?_, ?_, hr⟩
        · rw [hp]; rfl
        · simp only [upd_self, tail]
      · exact .nil _
  | other t a hp m =>
    have hth := h.thr t
    rw [hp] at hth
    have hv := view_mono h.av m.step
    refine ⟨c, h.frame t (h.av.step m.step) m.count (pushed_step h.av m.step) (fun t' hn => ⟨m.pc t' hn, rfl⟩) hv rfl (fun _ _ _ => Iff.rfl)
      (fun sh => ⟨Nat.le_refl _, h.lv sh, fun _ _ _ => rfl⟩) (fun sh hs => h.own sh t hs) ?_ (by rw [hp]; exact fun _ _ h => nomatch h) ?_, List.prefix_rfl⟩
    · simp only [hp, ThOk]; exact idx_step h.av m hth
    · exact h.log.quiet t rfl (fun t' hn => rfl) rfl hv

theorem Reach.ok (h : Reach key shard s) (hk : ∀ a b, same a b = true ↔ key a = key b) (ty : FTy) (large : Bool) : ∃ c, Ok key shard same ty large s c := by
  induction h with
  | init => exact ⟨_, .init⟩
  | step _ st ih =>
    obtain ⟨c, hc⟩ := ih
    obtain ⟨c', hc', _⟩ := hc.step hk st
    exact ⟨c', hc'⟩

/-! ### No deadlock -/

theorem Steps.trans {a b d : Tab T K} (h1 : Steps key shard a b) (h2 : Steps key shard b d) : Steps key shard a d := by
  induction h1 with
  | refl => exact h2
  | step st _ ih => exact .step st (ih h2)

theorem Steps.ok (st : Steps key shard s s') (hk : ∀ a b, same a b = true ↔ key a = key b) (h : Ok key shard same ty large s c) :
    ∃ c', Ok key shard same ty large s' c' ∧ c.vec <+: c'.vec := by
  induction st generalizing c with
  | refl => exact ⟨c, h, List.prefix_rfl⟩
  | step st _ ih =>
    obtain ⟨c1, h1, p1⟩ := h.step hk st
    obtain ⟨c2, h2, p2⟩ := ih h1
    exact ⟨c2, h2, p1.trans p2⟩

/-- How far a push is from its end. -/
def rank : AppendVec.Pc T → Nat
  | .gotIdx _ _ => 4
  | .alloc _ _ => 3
  | .spin _ _ => 4
  | .readPtr _ _ => 3
  | .write _ _ _ => 2
  | .publish _ _ => 1
  | _ => 0

/-- The oldest push gets one step further. -/
theorem push_adv {a : AV T} (h : AppendVec.Inv a) {t : Nat} {v : T} (hr : run (a.pc t) = some (a.count, v)) :
    a.pc t = .publish a.count v ∨ ∃ a', Mine t a a' ∧ run (a'.pc t) = some (a.count, v) ∧ rank (a'.pc t) < rank (a.pc t) := by
  have hl : a.Load t a.count := ⟨h.seen t, Nat.le_refl _⟩
  have hidx := AppendVec.index_eq a.count
  have hneed := AppendVec.need_eq a.count
  have hk := h.pcok t
  have hn : ∀ {β : Type} (f : Nat → β) (x : β) (t' : Nat), t' ≠ t → upd f t x t' = f t' := fun f x t' hn => upd_ne f x hn
  cases hp : a.pc t with
  | idle => rw [hp] at hr; cases hr
  | lookup i => rw [hp] at hr; cases hr
  | fault => rw [hp] at hr; cases hr
  | publish i x => rw [hp] at hr; cases hr; exact .inl rfl
  | write i x p =>
    rw [hp] at hr hk; cases hr
    right
    cases hm : a.mem p (AppendVec.offOf a.count) with
    | some x =>
      rcases h.memOnly _ p x hk.2.2.2.2 hm with h3 | ⟨t', v', h3⟩
      · omega
      · have := h.uniq t t' a.count (by rw [hp]; rfl) (by rw [h3]; rfl)
        subst this
        rw [hp] at h3; cases h3
    | none =>
      exact ⟨_, ⟨.writeOk t a.count p v hp hm, fun t' h' => hn _ _ _ h', fun t' h' => hn _ _ _ h', rfl, rfl⟩, by simp [upd_self, run], by simp [upd_self, rank]⟩
  | readPtr i x =>
    rw [hp] at hr hk; cases hr
    right
    obtain ⟨p, hpp⟩ := h.ptrPub _ hk.2.2.2.2
    exact ⟨_, ⟨.readOk t a.count p v hp hk.2.2.2.1 hpp, fun t' h' => hn _ _ _ h', fun t' h' => rfl, rfl, rfl⟩, by simp [upd_self, run], by simp [upd_self, rank]⟩
  | alloc i x =>
    rw [hp] at hr hk; cases hr
    right
    exact ⟨_, ⟨.allocate t a.count v hp hk.2.2.2.2, fun t' h' => hn _ _ _ h', fun t' h' => hn _ _ _ h', rfl, rfl⟩, by simp [upd_self, run], by simp [upd_self, rank]⟩
  | spin i x =>
    rw [hp] at hr hk; cases hr
    right
    have ho := hk.2.2.2
    exact ⟨_, ⟨.spinDone t a.count a.count v hp hl (by omega), fun t' h' => hn _ _ _ h', fun t' h' => hn _ _ _ h', rfl, rfl⟩, by simp [AV.acq, upd_self, run],
      by simp [AV.acq, upd_self, rank]⟩
  | gotIdx i x =>
    rw [hp] at hr hk; cases hr
    right
    by_cases ho : AppendVec.offOf a.count = 0
    · exact ⟨_, ⟨.mustAlloc t a.count a.count v hp hl (by omega) ho, fun t' h' => hn _ _ _ h', fun t' h' => hn _ _ _ h', rfl, rfl⟩, by simp [AV.acq, upd_self, run],
        by simp [AV.acq, upd_self, rank]⟩
    · exact ⟨_, ⟨.longEnough t a.count a.count v hp hl (by omega), fun t' h' => hn _ _ _ h', fun t' h' => hn _ _ _ h', rfl, rfl⟩, by simp [AV.acq, upd_self, run],
        by simp [AV.acq, upd_self, rank]⟩

/-- Some call returns. -/
def Returns (key : T → K) (shard : K → Nat) (s : Tab T K) : Prop :=
  ∃ s' t cl r, Steps key shard s s' ∧ s'.log.getLast? = some (t, Ev.ret cl r) ∧ s.log.length < s'.log.length

theorem Returns.back {s s' : Tab T K} (h : Returns key shard s') (st : Steps key shard s s') (hl : s.log.length ≤ s'.log.length) : Returns key shard s := by
  obtain ⟨s2, t, cl, r, h1, h2, h3⟩ := h
  exact ⟨s2, t, cl, r, st.trans h1, h2, by omega⟩

theorem ret_done {t : Nat} {cl : Call T} {r : Option Nat} (hp : s.pos t = .done cl r) : Returns key shard s :=
  ⟨_, t, cl, r, .step (.ret t cl r hp) (.refl _), by simp, by simp⟩

theorem ret_pushed {t : Nat} {e : T} {i : Nat} (hp : s.pos t = .pushed e i) : Returns key shard s :=
  (ret_done (t := t) (upd_self _ _ _)).back (.step (.store t e i hp) (.refl _)) (Nat.le_refl _)

theorem ret_push (hk : ∀ a b, same a b = true ↔ key a = key b) (n : Nat) : ∀ {s : Tab T K} {c : Cache T}, Ok key shard same ty large s c → ∀ {t : Nat} {e : T}, s.pos t = .pushing e →
    run (s.av.pc t) = some (s.av.count, e) → rank (s.av.pc t) ≤ n → Returns key shard s := by
  induction n with
  | zero =>
    intro s c h t e hp hr hn
    cases hq : s.av.pc t <;> rw [hq] at hr hn <;> simp [run, rank] at hr hn
  | succ n ih =>
    intro s c h t e hp hr hn
    rcases push_adv h.av hr with hq | ⟨a, m, h1, h2⟩
    · exact (ret_pushed (t := t) (upd_self _ _ _)).back (.step (.finish t e _ hp hq rfl) (.refl _)) (by simp)
    · obtain ⟨c', h', _⟩ := h.step hk (.inner t e a hp m)
      exact (ih h' (t := t) (e := e) hp (by simp only; rw [m.count]; exact h1) (by simp only; omega)).back (.step (.inner t e a hp m) (.refl _)) (Nat.le_refl _)

theorem ret_pushing (hk : ∀ a b, same a b = true ↔ key a = key b) (h : Ok key shard same ty large s c) {t : Nat} {e : T} (hp : s.pos t = .pushing e) :
    Returns key shard s := by
  have hth := h.thr t
  rw [hp] at hth
  obtain ⟨⟨i, hr⟩, _, _⟩ := hth
  have hi := run_idx hr
  have hb : s.av.count ≤ i ∧ i < s.av.reserved := by
    have hq := h.av.pcok t
    cases hx : s.av.pc t <;> rw [hx] at hi hq <;> simp only [AppendVec.Pc.idx, Option.some.injEq, reduceCtorEq] at hi <;> subst hi <;> exact ⟨hq.1, hq.2.1⟩
  obtain ⟨t0, h0⟩ := h.av.cover s.av.count (Nat.le_refl _) (by omega)
  have hth0 := h.thr t0
  cases hp0 : s.pos t0 with
  | pushing e0 =>
    rw [hp0] at hth0
    obtain ⟨⟨j, hj⟩, _⟩ := hth0
    have := run_idx hj
    rw [h0] at this; injection this with this; subst this
    exact ret_push hk _ h hp0 hj (Nat.le_refl _)
  | idle => rw [hp0] at hth0; simp only [ThOk] at hth0; rw [hth0] at h0; cases h0
  | called _ => rw [hp0] at hth0; simp only [ThOk] at hth0; rw [hth0] at h0; cases h0
  | missed _ => rw [hp0] at hth0; simp only [ThOk] at hth0; rw [hth0] at h0; cases h0
  | locked _ => rw [hp0] at hth0; rw [hth0.1] at h0; cases h0
  | pushed _ _ => rw [hp0] at hth0; rw [hth0.1] at h0; cases h0
  | done _ _ => rw [hp0] at hth0; rw [hth0.1] at h0; cases h0

theorem ret_locked (hk : ∀ a b, same a b = true ↔ key a = key b) (h : Ok key shard same ty large s c) {t : Nat} {e : T} (hp : s.pos t = .locked e) :
    Returns key shard s := by
  cases hm : s.map (key e) with
  | some i => exact (ret_done (t := t) (upd_self _ _ _)).back (.step (.present t e i hp hm) (.refl _)) (by simp)
  | none =>
    have st := Step.push (shard := shard) t e hp hm
    obtain ⟨c', h', _⟩ := h.step hk st
    exact (ret_pushing hk h' (t := t) (e := e) (upd_self _ _ _)).back (.step st (.refl _)) (Nat.le_refl _)

theorem ret_holds (hk : ∀ a b, same a b = true ↔ key a = key b) (h : Ok key shard same ty large s c) {t : Nat} {e : T} (hp : Holds (s.pos t) e) :
    Returns key shard s := by
  cases hq : s.pos t with
  | locked e' => exact ret_locked hk h hq
  | pushing e' => exact ret_pushing hk h hq
  | pushed e' i => exact ret_pushed hq
  | _ => rw [hq] at hp; exact hp.elim

theorem ret_wait (hk : ∀ a b, same a b = true ↔ key a = key b) (h : Ok key shard same ty large s c) {t : Nat} {e : T}
    (hp : s.pos t = .missed e ∨ s.pos t = .called (.insert e)) : Returns key shard s := by
  cases hl : s.lock (shard (key e)) with
  | some t' =>
    obtain ⟨e', _, he⟩ := h.own _ t' hl
    exact ret_holds hk h he
  | none =>
    have st := Step.acquire t e hp hl
    obtain ⟨c', h', _⟩ := h.step hk st
    exact (ret_locked hk h' (t := t) (e := e) (upd_self _ _ _)).back (.step st (.refl _)) (Nat.le_refl _)

theorem Ok.progress (hk : ∀ a b, same a b = true ↔ key a = key b) (h : Ok key shard same ty large s c) {t : Nat} (hp : s.pos t ≠ .idle) :
    Returns key shard s := by
  cases hq : s.pos t with
  | idle => exact absurd hq hp
  | done cl r => exact ret_done hq
  | missed e => exact ret_wait hk h (.inl hq)
  | locked e => exact ret_locked hk h hq
  | pushing e => exact ret_pushing hk h hq
  | pushed e i => exact ret_pushed hq
  | called cl =>
    cases cl with
    | insert e => exact ret_wait hk h (.inr hq)
    | find e =>
      cases hl : s.lock (shard (key e)) with
      | some t' =>
        obtain ⟨e', _, he⟩ := h.own _ t' hl
        exact ret_holds hk h he
      | none =>
        cases hm : s.map (key e) with
        | some i => exact (ret_done (t := t) (upd_self _ _ _)).back (.step (.hit t (.find e) i hq hl hm) (.refl _)) (by simp)
        | none => exact (ret_done (t := t) (upd_self _ _ _)).back (.step (.missFind t e hq hl hm) (.refl _)) (by simp)

end
end Intern
end Verif
