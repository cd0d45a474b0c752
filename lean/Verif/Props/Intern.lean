import Mathlib.Data.Finset.Dedup
import Verif.DS.Intern

/-
C72: the hash-consing tables used by several threads.  Every execution of any number of threads looks as if the calls
had been made one after the other on the sequential table of the factory model (Verif/F/Factory.lean).
-/
namespace Verif
open Intern
open AppendVec (AV upd)

section
variable {T K : Type} [DecidableEq K] {key : T → K} {shard : K → Nat} {same : T → T → Bool}

/-- C72, linearizability: the calls can be ordered by a point inside each of them such that their results are those of the
sequential `get_or_insert` and `lookup` called in this order, starting with the empty table; the entries of the sequential
table are the published part of the vector.  Each thread's history is a list of finished calls (start, effect, return, with
the result of the effect) and at most one unfinished call. -/
theorem C72_linearizable (hk : ∀ a b, same a b = true ↔ key a = key b) (ty : FTy) (large : Bool) {s : Tab T K} (h : Reach key shard s) :
    ∃ c : Cache T, Replay same ty large ⟨[], []⟩ (lins s.log) c ∧
      (∀ i : Nat, c.vec[i]? = if i < s.av.count then s.av.pushed i else none) ∧
      ∀ t, ∃ (l : List (Call T × Option Nat)) (p : List (Ev T)), evs t s.log = l.flatMap whole ++ p ∧ Pending p := by
  obtain ⟨c, hc⟩ := h.ok hk ty large
  refine ⟨c, hc.log.lins, hc.vec, fun t => ?_⟩
  obtain ⟨l, hl⟩ := hc.log.proj t
  refine ⟨l, _, hl, ?_⟩
  cases s.pos t with
  | idle => exact .none
  | pushed e i => exact .effective _ _
  | done cl r => exact .effective _ _
  | _ => exact .started _

omit [DecidableEq K] in
/-- A returned result is the one of the effect. -/
theorem ret_lin {s : Tab T K} {c : Cache T} {ty : FTy} {large : Bool} (h : LogOk key same ty large s c) {t : Nat} {cl : Call T} {r : Option Nat}
    (hm : (t, Ev.ret cl r) ∈ s.log) : (t, Ev.lin cl r) ∈ s.log := by
  obtain ⟨l, hl⟩ := h.proj t
  have h1 : Ev.ret cl r ∈ evs t s.log := List.mem_filterMap.2 ⟨_, hm, by simp⟩
  have h2 : Ev.ret cl r ∉ tail (s.pos t) := by cases s.pos t <;> simp [tail]
  have h3 : Ev.lin cl r ∈ evs t s.log := by
    rw [hl] at h1 ⊢
    rcases List.mem_append.1 h1 with h1 | h1
    · obtain ⟨y, hy, h1⟩ := List.mem_flatMap.1 h1
      refine List.mem_append_left _ (List.mem_flatMap.2 ⟨y, hy, ?_⟩)
      simp only [whole, List.mem_cons, reduceCtorEq, Ev.ret.injEq, List.not_mem_nil, or_false, false_or] at h1
      obtain ⟨rfl, rfl⟩ := h1
      simp [whole]
    · exact absurd h1 h2
  obtain ⟨⟨t', ev⟩, h4, h5⟩ := List.mem_filterMap.1 h3
  by_cases e : t' = t
  · subst e; simp only [if_true] at h5; injection h5 with h5; subst h5; exact h4
  · simp [e] at h5

/-- C72: whichever threads make them and whenever they run, two calls give the same handle exactly if their keys are equal; an
insertion always gives a handle. -/
theorem C72_unique (hk : ∀ a b, same a b = true ↔ key a = key b) {s : Tab T K} (h : Reach key shard s) :
    (∀ t t' cl cl' i j, (t, Ev.ret cl (some i)) ∈ s.log → (t', Ev.ret cl' (some j)) ∈ s.log → (i = j ↔ key cl.arg = key cl'.arg)) ∧
      ∀ t e r, (t, Ev.ret (.insert e) r) ∈ s.log → r ≠ none := by
  obtain ⟨c, hc⟩ := h.ok hk (.lit true .ff) true
  refine ⟨fun t t' cl cl' i j h1 h2 => ?_, fun t e r h1 => ?_⟩
  · obtain ⟨_, a, ha, ka⟩ := hc.log.ret t cl i h1
    obtain ⟨_, b, hb, kb⟩ := hc.log.ret t' cl' j h2
    constructor
    · rintro rfl
      rw [ha] at hb; injection hb with hb
      rw [← ka, ← kb, hb]
    · intro e
      exact hc.cinv.uniq' (eqv hk) ha hb ((hk a b).2 (by rw [ka, kb, e]))
  · exact (hc.log.lin t _ r (ret_lin hc.log h1)).2 e rfl

/-- C72: a thread that has got the handle `i`, from its own insertion or from one of another thread, can use it: every `len` it
loads is above `i`, so `get` does not panic; the entry stored there has the key of the call; every read of it, by any thread
at any later time, gives this entry; and no thread ever runs into a data race, a null pointer or an uninitialised slot. -/
theorem C72_usable (hk : ∀ a b, same a b = true ↔ key a = key b) {s s' : Tab T K} (h : Reach key shard s) (st : Steps key shard s s')
    {t i : Nat} {cl : Call T} (hr : (t, Ev.ret cl (some i)) ∈ s.log) :
    (∀ n, s.av.Load t n → i < n) ∧
      ∃ e, key e = key cl.arg ∧ s.av.pushed i = some e ∧ s'.av.pushed i = some e ∧ (∀ v, (i, v) ∈ s'.av.reads → v = e) ∧ ∀ t', s'.av.pc t' ≠ .fault := by
  obtain ⟨c, hc⟩ := h.ok hk (.lit true .ff) true
  obtain ⟨c', hc', hp⟩ := st.ok hk hc
  obtain ⟨h1, e, h2, h3⟩ := hc.log.ret t cl i hr
  have key1 : ∀ {s : Tab T K} {c : Cache T}, Ok key shard same (.lit true .ff) true s c → c.vec[i]? = some e → s.av.pushed i = some e := by
    intro s c hc h
    rw [hc.vec i] at h
    by_cases hi : i < s.av.count
    · rw [if_pos hi] at h; exact h
    · rw [if_neg hi] at h; cases h
  have h4 := key1 hc' (prefix_getElem? hp h2)
  refine ⟨fun n hn => Nat.lt_of_lt_of_le h1 hn.1, e, h3, key1 hc h2, h4, fun v hv => ?_, fun t' hf => ?_⟩
  · have := hc'.av.reads i v hv
    rw [h4] at this; injection this with this; exact this.symm
  · have := hc'.av.pcok t'
    rw [hf] at this; exact this

theorem log_prefix {s s' : Tab T K} (st : Intern.Step key shard s s') : s.log <+: s'.log := by
  cases st <;> first | exact List.prefix_rfl | exact List.prefix_append _ _

/-- C72, no deadlock: whenever a call is running, some continuation completes a call. -/
theorem C72_progress (hk : ∀ a b, same a b = true ↔ key a = key b) {s : Tab T K} (h : Reach key shard s) {t : Nat} (ht : s.pos t ≠ .idle) :
    ∃ s' t' cl r l, Steps key shard s s' ∧ s'.log = s.log ++ l ++ [(t', Ev.ret cl r)] := by
  obtain ⟨c, hc⟩ := h.ok hk (.lit true .ff) true
  obtain ⟨s', t', cl, r, st, hl, hlen⟩ := hc.progress hk ht
  have hpre : s.log <+: s'.log := by
    clear hl hlen hc ht h
    induction st with
    | refl => exact List.prefix_rfl
    | step st _ ih => exact (log_prefix st).trans ih
  obtain ⟨m, hm⟩ := hpre
  refine ⟨s', t', cl, r, m.dropLast, st, ?_⟩
  have hne : m ≠ [] := by rintro rfl; rw [← hm] at hlen; simp at hlen
  rw [← hm, List.getLast?_append_of_ne_nil _ hne] at hl
  rw [← hm, List.append_assoc]
  congr 1
  exact (List.dropLast_append_getLast? _ hl).symm

end

/-- C72: the tables of the factory are instances: variables, constraints, negations, implications compare the entries
themselves, equivalences compare the ordered pair, conjunctions and disjunctions compare the set of operands. -/
theorem C72_tables : (∀ a b : String, (a == b) = true ↔ id a = id b) ∧ (∀ a b : H, (a == b) = true ↔ id a = id b) ∧
    (∀ a b : H × H, (a == b) = true ↔ id a = id b) ∧ (∀ a b, sameEquiv a b = true ↔ equivKey a = equivKey b) ∧
    ∀ a b, setEq a b = true ↔ a.toFinset = b.toFinset := by
  refine ⟨by simp, by simp, by simp, by simp [sameEquiv], fun a b => ?_⟩
  rw [setEq_iff, Finset.ext_iff]
  simp

/-- Thread 0 inserts 7 while thread 1 inserts 17, which has the same key (the last digit); both look first and find nothing;
thread 0 gets the lock and pushes; both get handle 0. -/
theorem exIntern : ∃ s : Tab Nat Nat, Reach (fun n => n % 10) (fun _ => 0) s ∧ lins s.log = [(.insert 7, some 0), (.insert 17, some 0)] ∧
    evs 0 s.log = whole (.insert 7, some 0) ∧ evs 1 s.log = whole (.insert 17, some 0) ∧ s.av.pushed 0 = some 7 := by
  have r0 : Reach (fun n => n % 10) (fun _ => 0) (Tab.init Nat Nat) := .init
  have r1 := r0.step (.call 0 (.insert 7) rfl rfl)
  have r2 := r1.step (.call 1 (.insert 17) rfl rfl)
  have r3 := r2.step (.miss 0 7 rfl rfl rfl)
  have r4 := r3.step (.miss 1 17 rfl rfl rfl)
  have r5 := r4.step (.acquire 0 7 (.inl rfl) rfl)
  have r6 := r5.step (.push 0 7 rfl rfl)
  have r7 := r6.step (.inner 0 7 _ rfl ⟨.mustAlloc 0 0 0 7 rfl ⟨by decide, by decide⟩ (by decide) (by decide),
    fun t' h => AppendVec.upd_ne _ _ h, fun t' h => AppendVec.upd_ne _ _ h, rfl, rfl⟩)
  have r8 := r7.step (.inner 0 7 _ rfl ⟨.allocate 0 0 7 rfl rfl, fun t' h => AppendVec.upd_ne _ _ h, fun t' h => AppendVec.upd_ne _ _ h, rfl, rfl⟩)
  have r9 := r8.step (.inner 0 7 _ rfl ⟨.writeOk 0 0 0 7 rfl rfl, fun t' h => AppendVec.upd_ne _ _ h, fun t' h => AppendVec.upd_ne _ _ h, rfl, rfl⟩)
  have r10 := r9.step (.finish 0 7 0 rfl rfl rfl)
  have r11 := r10.step (.store 0 7 0 rfl)
  have r12 := r11.step (.acquire 1 17 (.inl rfl) rfl)
  have r13 := r12.step (.present 1 17 0 rfl rfl)
  have r14 := r13.step (.ret 0 (.insert 7) (some 0) rfl)
  have r15 := r14.step (.ret 1 (.insert 17) (some 0) rfl)
  exact ⟨_, r15, rfl, rfl, rfl, rfl⟩

/-- The theorems apply to it: the handles are equal, and thread 1 may use the one it got from thread 0. -/
example : ∃ s : Tab Nat Nat, Reach (fun n => n % 10) (fun _ => 0) s ∧ (1, Ev.ret (.insert 17) (some 0)) ∈ s.log ∧ ∀ n, s.av.Load 1 n → 0 < n := by
  obtain ⟨s, h, _, _, h1, _⟩ := exIntern
  have hm : (1, Ev.ret (.insert 17) (some 0)) ∈ s.log := by
    have : Ev.ret (.insert 17) (some 0) ∈ evs 1 s.log := by rw [h1]; simp [whole]
    obtain ⟨⟨t', ev⟩, h4, h5⟩ := List.mem_filterMap.1 this
    by_cases e : t' = 1
    · subst e; simp only [if_true] at h5; injection h5 with h5; subst h5; exact h4
    · simp [e] at h5
  exact ⟨s, h, hm, (C72_usable (same := fun a b => a % 10 == b % 10) (by simp) h (.refl s) hm).1⟩

/-- A thread waiting for the lock: `C72_progress` applies. -/
example : ∃ s : Tab Nat Nat, Reach (fun n => n % 10) (fun _ => 0) s ∧ s.lock 0 = some 0 ∧ s.pos 1 ≠ .idle :=
  ⟨_, .step (.step (.step .init (.call 0 (.insert 7) rfl rfl)) (.call 1 (.insert 17) rfl rfl)) (.acquire 0 7 (.inr rfl) rfl), rfl, fun h => nomatch h⟩

end Verif
