import Verif.Drup.Passes
import Mathlib.Data.List.Nodup
/-
The second pass of the DRUP trimmer, and the whole of it.
-/
namespace Verif.Drup

variable {c0 : Nat → List Int} {b n : Nat} {A : Int → Prop} {S S' : T} {rm rm' : List Nat} {r r' : Nat → Option Nat} {T0 : List Int} {done : List Step}

/-! ### The literals of a lemma are taken back or assumed -/

theorem trim_ok {e : Int} {R : List Int} (hnd : (T0 ++ -e :: R).Nodup) : ∀ {p : Nat} {S S' : T}, T0.length < p → p ≤ (T0 ++ -e :: R).length → S.stack = T0 ++ -e :: R →
    (∀ y, S.fals y ≠ 0 ↔ y ∈ S.stack.take p) → trim e p S = some S' →
    S' = { S with fals := S'.fals, stack := T0, forced := T0.length, processed := T0.length } ∧ ∀ y, S'.fals y ≠ 0 ↔ y ∈ T0 := by
  intro p
  induction p with
  | zero => intro S S' h; omega
  | succ p ih =>
    intro S S' h1 h2 h3 h4 ht
    unfold trim at ht
    have hpl : p < (T0 ++ -e :: R).length := by omega
    rw [h3, List.getElem?_eq_getElem hpl] at ht
    simp only at ht
    have hstep : ∀ y, put S.fals (T0 ++ -e :: R)[p] 0 y ≠ 0 ↔ y ∈ (T0 ++ -e :: R).take p := by
      intro y
      have htk : (T0 ++ -e :: R).take (p + 1) = (T0 ++ -e :: R).take p ++ [(T0 ++ -e :: R)[p]] := by rw [List.take_add_one, List.getElem?_eq_getElem hpl]; rfl
      have hnd' : ((T0 ++ -e :: R).take (p + 1)).Nodup := hnd.sublist (List.take_sublist _ _)
      rw [htk, List.nodup_append] at hnd'
      by_cases hy : y = (T0 ++ -e :: R)[p]
      · rw [hy, put_same]
        constructor
        · intro h; exact absurd rfl h
        · intro h; exact absurd rfl (hnd'.2.2 _ h _ (by simp))
      · rw [put_ne _ _ hy, h4 y, h3, htk]
        rw [List.mem_append, List.mem_singleton]
        exact or_iff_left hy
    by_cases hp : p = T0.length
    · subst hp
      have hx : (T0 ++ -e :: R)[T0.length] = -e := by simp
      rw [hx] at ht hstep
      rw [if_pos rfl] at ht
      injection ht with ht
      have htake : (T0 ++ -e :: R).take T0.length = T0 := by simp
      rw [htake] at ht hstep
      subst ht
      exact ⟨rfl, hstep⟩
    · have hxe : (T0 ++ -e :: R)[p] ≠ -e := by
        intro hx
        have h5 : (T0 ++ -e :: R)[T0.length]'(by simp) = -e := by simp
        exact hp ((List.Nodup.getElem_inj_iff hnd).1 (hx.trans h5.symm))
      rw [if_neg hxe] at ht
      obtain ⟨i1, i2⟩ := ih (S := { S with fals := put S.fals (T0 ++ -e :: R)[p] 0 }) (by omega) (by omega) h3 (by rw [h3]; exact hstep) (by rw [h3]; exact ht)
      exact ⟨by rw [i1], i2⟩

theorem assume_ok (buf : List Int) : ∀ S : T, ∃ f rs, buf.foldl assume S = { S with fals := f, stack := S.stack ++ buf, reason := rs } ∧
    (∀ x, f x ≠ 0 ↔ S.fals x ≠ 0 ∨ x ∈ buf) ∧ (∀ x : Int, x.natAbs ∈ buf.map Int.natAbs → rs x.natAbs = none) ∧ (∀ v, v ∉ buf.map Int.natAbs → rs v = S.reason v) := by
  induction buf with
  | nil => intro S; exact ⟨S.fals, S.reason, by simp, by simp, by simp, by simp⟩
  | cons x buf ih =>
    intro S
    obtain ⟨f, rs, h1, h2, h3, h4⟩ := ih (assume S x)
    refine ⟨f, rs, ?_, ?_, ?_, ?_⟩
    · rw [List.foldl_cons, h1]; simp [assume, assign]
    · intro y
      rw [h2]
      by_cases hy : y = x
      · simp [assume, assign, hy]
      · simp [assume, assign, put_ne _ _ hy, hy]
    · intro y hy
      by_cases hb : y.natAbs ∈ buf.map Int.natAbs
      · exact h3 y hb
      · rw [h4 _ hb]
        have : y.natAbs = x.natAbs := by
          rw [List.map_cons] at hy
          rcases List.mem_cons.1 hy with h | h
          · exact h
          · exact absurd h hb
        show put S.reason x.natAbs none y.natAbs = none
        rw [this, put_same]
    · intro v hv
      simp only [List.map_cons, List.mem_cons, not_or] at hv
      rw [h4 v hv.2]
      exact put_ne _ _ hv.1

/-! ### One lemma of the second pass -/

/-- The state after the watches of the lemma were removed and its literal was taken back. -/
structure Mid (c0 : Nat → List Int) (n k : Nat) (ds : List Nat) (done : List Step) (rm rm' : List Nat) (S : T) : Prop where
  inv : Inv c0 k rm' (fun _ => False) S
  fc : S.forced = S.stack.length
  proc : S.processed = S.stack.length
  hist : Hist c0 n S.reason k done S.stack rm
  dels : Dels c0 S.reason S.stack k ds rm rm'
  nosat : NoSat done S.mark

theorem Mid.undo {k : Nat} {ds : List Nat} (h : Mid c0 n k ds done rm rm' S) (hu : Uns c0 k S.mark) : Back c0 n k done rm (undoAll ds S) := by
  have hI := undoAll_ok h.dels h.inv rfl (fun _ _ => rfl)
  refine ⟨hI, ?_, ?_, ?_, ?_, ?_⟩
  · rw [undoAll_fields]; exact h.fc
  · rw [undoAll_fields]; exact h.proc
  · rw [undoAll_fields]; exact h.hist
  · rw [undoAll_fields]; exact h.nosat
  · rw [undoAll_fields]; exact hu

theorem uns_less {k : Nat} {mark mark' : Nat → Bool} (hu : Uns c0 (k + 1) mark) (hm : ∀ j, mark j = true → mark' j = true)
    (h : mark k = true → ∀ σ, (∀ j < k, mark' j = true → satC σ (c0 j)) → satC σ (c0 k)) : Uns c0 k mark' := by
  intro σ
  by_contra hn
  have hall : ∀ j < k, mark' j = true → satC σ (c0 j) := by
    intro j hj hmj
    by_contra hs
    exact hn ⟨j, hj, hmj, hs⟩
  obtain ⟨i, hi, hmi, hs⟩ := hu σ
  rcases Nat.lt_or_eq_of_le (Nat.le_of_lt_succ hi) with hi | rfl
  · exact hs (hall i hi (hm i hmi))
  · exact hs (h hmi σ hall)

/-- The lemma is checked. -/
theorem Mid.check (hz : ∀ i, ∀ x ∈ c0 i, x ≠ 0) {k : Nat} {ds : List Nat} (h : Mid c0 n k ds done rm rm' S) (hu : Uns c0 (k + 1) S.mark) {buf : List Int}
    (hb : ∀ x ∈ buf, x ∈ c0 k ∧ x ∉ S.stack ∧ -x ∉ S.stack) {fuel : Nat} (e : propagate fuel (buf.foldl assume S) = some (S', false)) : Mid c0 n k ds done rm rm' S' ∧ Uns c0 k S'.mark := by
  obtain ⟨f, rs, h1, h2, h3, h4⟩ := assume_ok buf S
  have hnb : ∀ x ∈ S.stack, x.natAbs ∉ buf.map Int.natAbs := by
    intro x hx hm
    obtain ⟨y, hy, e1⟩ := List.mem_map.1 hm
    rcases natAbs_cases e1 with rfl | rfl
    · exact (hb _ hy).2.1 hx
    · exact (hb _ hy).2.2 (by simpa using hx)
  have hI : Inv c0 k rm' (· ∈ buf) (buf.foldl assume S) := by
    rw [h1]
    refine ⟨⟨h.inv.wf.perm, h.inv.wf.cnt⟩, ⟨fun x => ?_, fun x hx hr => ?_, fun p x i hp hr => ?_⟩, fun v c hv => ?_⟩
    · show f x ≠ 0 ↔ x ∈ S.stack ++ buf
      rw [h2, h.inv.inv.fs]; simp
    · rcases List.mem_append.1 hx with hx | hx
      · have hr : rs x.natAbs = none := hr
        rw [h4 _ (hnb x hx)] at hr
        exact absurd (h.inv.inv.asm x hx hr) id
      · exact hx
    · have hr : rs x.natAbs = some i := hr
      have hp : (S.stack ++ buf)[p]? = some x := hp
      have hlt : p < S.stack.length := by
        by_contra hge
        rw [List.getElem?_append_right (by omega)] at hp
        rw [h3 x (List.mem_map.2 ⟨x, List.mem_of_getElem? hp, rfl⟩)] at hr
        cases hr
      rw [List.getElem?_append_left hlt] at hp
      rw [h4 _ (hnb x (List.mem_of_getElem? hp))] at hr
      obtain ⟨hi, tl, ec, ht⟩ := h.inv.inv.why p x i hp hr
      exact ⟨hi, tl, ec, fun y hy => mem_take_of_mem (ht y hy)⟩
    · have hv : rs v = some c := hv
      by_cases hm : v ∈ buf.map Int.natAbs
      · obtain ⟨y, hy, rfl⟩ := List.mem_map.1 hm
        rw [h3 y hm] at hv
        cases hv
      · rw [h4 v hm] at hv
        exact h.inv.ri v c hv
  have est : (buf.foldl assume S).stack = S.stack ++ buf := by rw [h1]
  have efc : (buf.foldl assume S).forced = S.stack.length := by rw [h1]; exact h.fc
  have emk : (buf.foldl assume S).mark = S.mark := by rw [h1]
  have ers : ∀ x ∈ S.stack, (buf.foldl assume S).reason x.natAbs = S.reason x.natAbs := by
    intro x hx
    rw [h1]
    exact h4 _ (hnb x hx)
  have rf := prop_refuted hz hI (by rw [efc, est]; simp) e
  have e4st : S'.stack = S.stack := by rw [rf.stack, efc, est]; simp
  have hrs4 : ∀ x ∈ S.stack, S'.reason x.natAbs = S.reason x.natAbs := fun x hx => (rf.rs x (by rw [est]; simp [hx])).trans (ers x hx)
  have hh4 : Hist c0 n S'.reason k done S.stack rm := h.hist.mono hrs4
  refine ⟨⟨⟨rf.wf, ⟨rf.fs, fun x hx hr => ?_, rf.why⟩, rf.ri⟩, by rw [rf.forced, efc, e4st], by rw [rf.processed, efc, e4st], by rw [e4st]; exact hh4, by rw [e4st]; exact h.dels.mono hrs4, ?_⟩, ?_⟩
  · rw [e4st] at hx
    obtain ⟨i, _, hi⟩ := hh4.reasons x hx
    rw [hr] at hi
    cases hi
  · refine noSat_of (S := buf.foldl assume S) (T0 := S.stack) (h.hist.mono ers) (fun x hx => by rw [est]; simp [hx]) (fun l hl => ?_) (by rw [emk]; exact h.nosat) rf.new
    rw [est]
    intro hm
    rcases List.mem_append.1 hm with hm | hm
    · exact h.hist.cons l hm hl
    · exact (hb l hm).2.2 hl
  · refine uns_less hu (fun j hj => rf.mono j (by rw [emk]; exact hj)) fun _ σ hall => ?_
    by_contra hs
    refine rf.unsat σ hall fun x hx => ?_
    cases hv : litT σ x with
    | false => rfl
    | true => exact absurd ⟨x, (hb x hx).1, hv⟩ hs

/-- After the watches of a lemma are removed there are none of it. -/
theorem Inv.leave {k : Nat} (h : Inv c0 (k + 1) rm (fun _ => False) S) (e : removeWatches k S = some S') : Wf c0 k rm S' := by
  have hr := h.wf.remove e
  have hf := removeWatches_fields e
  have ecl : S'.cl = S.cl := by rw [hf]
  refine ⟨by rw [ecl]; exact h.wf.perm, fun i x => ?_⟩
  refine Nat.le_trans (hr i x) ?_
  rw [ecl]
  by_cases hh : i < k + 1 ∧ i ∉ rm ∧ i ≠ k ∧ 2 ≤ (S.cl i).length
  · rw [if_pos hh, if_pos ⟨by omega, hh.2.1, hh.2.2.2⟩]; exact Nat.le_refl _
  · rw [if_neg hh]; exact Nat.zero_le _

/-- The stack is that before the lemma. -/
theorem mid_of {k : Nat} {ds : List Nat} (hI : Inv c0 (k + 1) rm' (fun _ => False) S) (e : removeWatches k S = some S') (hfc : S.forced = S.stack.length) (hpr : S.processed = S.stack.length)
    (hh : Hist c0 n S.reason k done S.stack rm) (hd : Dels c0 S.reason S.stack k ds rm rm') (hn : NoSat done S.mark) : Mid c0 n k ds done rm rm' S' := by
  have hwf := hI.leave e
  have hf := removeWatches_fields e
  refine ⟨⟨hwf, ?_, by rw [hf]; exact hI.ri⟩, by rw [hf]; exact hfc, by rw [hf]; exact hpr, by rw [hf]; exact hh, by rw [hf]; exact hd, by rw [hf]; exact hn⟩
  rw [hf]
  refine ⟨hI.inv.fs, hI.inv.asm, fun p x i hp hr => ?_⟩
  obtain ⟨_, h2⟩ := hI.inv.why p x i hp hr
  obtain ⟨j, hj, hr'⟩ := hh.reasons x (List.mem_of_getElem? hp)
  have hr : S.reason x.natAbs = some i := hr
  rw [hr'] at hr
  injection hr with hr
  exact ⟨by omega, h2⟩

/-- The check without taking back. -/
theorem check_tail (hz : ∀ i, ∀ x ∈ c0 i, x ≠ 0) {k : Nat} {ds : List Nat} {buf : List Int} (h : Mid c0 n k ds done rm rm' S) (hu : Uns c0 (k + 1) S.mark)
    (hb : ∀ x ∈ buf, x ∈ c0 k ∧ x ∉ S.stack ∧ -x ∉ S.stack) {fuel : Nat} {flag flag' : Bool}
    (e : (if S.mark k = true then (match propagate fuel (buf.foldl assume S) with | some (S, false) => some (flag, S) | _ => none) else some (flag, S)) = some (flag', S')) :
    Mid c0 n k ds done rm rm' S' ∧ Uns c0 k S'.mark := by
  split at e
  · split at e
    · rename_i S1 e1
      injection e with e
      injection e with _ e
      subst e
      exact h.check hz hu hb e1
    · cases e
  · rename_i hm
    injection e with e
    injection e with _ e
    subst e
    exact ⟨h, uns_less hu (fun _ h => h) fun h => absurd h hm⟩

theorem buf_nomem (h : TInv b A S) {k : Nat} (hp : (S.cl k).Perm (c0 k)) {x : Int} (hx : x ∈ (S.cl k).filter fun x => S.fals x == 0) : x ∈ c0 k ∧ x ∉ S.stack := by
  rw [filter_fals h] at hx
  simp only [List.mem_filter, decide_eq_true_eq] at hx
  exact ⟨hp.mem_iff.1 hx.1, hx.2⟩

/-- The unit literal of the lemma and what followed from it is taken back. -/
theorem Mid.trim {k : Nat} {ds : List Nat} {e : Int} {R : List Int} {T0 : List Int} (hwf : Wf c0 k rm' S) (hI : TInv (k + 1) (fun _ => False) S) (hri : ∀ v c, S.reason v = some c → c ∉ rm')
    (hst : S.stack = T0 ++ -e :: R) (hfc : S.forced = S.stack.length) (hnd : (T0 ++ -e :: R).Nodup) (hh : Hist c0 n S.reason k done T0 rm) (hd : Dels c0 S.reason T0 k ds rm rm')
    (hn : NoSat done S.mark) (ht : trim e S.forced S = some S') : Mid c0 n k ds done rm rm' S' ∧ S'.stack = T0 ∧ S'.mark = S.mark := by
  obtain ⟨h1, h2⟩ := trim_ok hnd (p := S.forced) (S := S) (by rw [hfc, hst]; simp) (by rw [hfc, hst]; exact Nat.le_refl _) hst (by rw [hfc, List.take_length]; exact hI.fs) ht
  have est : S'.stack = T0 := by rw [h1]
  have emk : S'.mark = S.mark := by rw [h1]
  have ers : S'.reason = S.reason := by rw [h1]
  have ecl : S'.cl = S.cl := by rw [h1]
  have ewl : S'.wl = S.wl := by rw [h1]
  refine ⟨⟨⟨hwf.congr ecl (by rw [ewl]; exact fun _ _ => rfl), ⟨by rw [est]; exact h2, fun x hx hr => ?_, fun p x i hp hr => ?_⟩, by rw [ers]; exact hri⟩, ?_, ?_, ?_, ?_, by rw [emk]; exact hn⟩, est, emk⟩
  · rw [est] at hx
    rw [ers] at hr
    obtain ⟨i, _, hi⟩ := hh.reasons x hx
    rw [hr] at hi
    cases hi
  · rw [est] at hp
    rw [ers] at hr
    have hlt := (List.getElem?_eq_some_iff.1 hp).1
    obtain ⟨_, tl, ec, htl⟩ := hI.why p x i (by rw [hst, List.getElem?_append_left hlt]; exact hp) hr
    obtain ⟨j, hj, hr'⟩ := hh.reasons x (List.mem_of_getElem? hp)
    rw [hr] at hr'
    injection hr' with hr'
    refine ⟨by omega, tl, by rw [ecl]; exact ec, fun y hy => ?_⟩
    have := htl y hy
    rw [hst, List.take_append_of_le_length (by omega)] at this
    rw [est]
    exact this
  · rw [est, h1]
  · rw [est, h1]
  · rw [est, ers]; exact hh
  · rw [est, ers]; exact hd

/-- The state before a lemma is looked at in the second pass. -/
def Before (c0 : Nat → List Int) (n k : Nat) (ds : List Nat) (sat : Bool) (done : List Step) (flag : Bool) (S : T) : Prop :=
  (∃ rm, Back c0 n (k + 1) (⟨ds, k, sat⟩ :: done) rm S) ∨ (sat = false ∧ flag = false ∧ Start c0 n k ds done S)

theorem step_ok (hz : ∀ i, ∀ x ∈ c0 i, x ≠ 0) {fuel : Nat} {ds : List Nat} {k : Nat} {sat flag flag' : Bool} {S S1 S2 : T} (h : Before c0 n k ds sat done flag S) (e1 : removeWatches k S = some S1)
    (e2 : (if sat then some (flag, S1) else check fuel k flag S1) = some (flag', S2)) : ∃ rm rm', Mid c0 n k ds done rm rm' S2 ∧ Uns c0 k S2.mark := by
  have hf := removeWatches_fields e1
  have emk : S1.mark = S.mark := by rw [hf]
  have ecl : S1.cl = S.cl := by rw [hf]
  have est : S1.stack = S.stack := by rw [hf]
  have hti : ∀ {b A}, TInv b A S → TInv b A S1 := fun h => by rw [hf]; exact h.setWl _
  rcases h with ⟨rm', h⟩ | ⟨hsat, hflag, h⟩
  · have hI := h.inv
    have hpm := hI.wf.perm k
    have hT := hti hI.inv
    have hh := h.hist
    generalize hT0 : S.stack = T0 at hh
    cases hh with
    | sat h1 h2 h3 =>
      rename_i rm
      simp only [if_true] at e2
      injection e2 with e2
      injection e2 with _ e2
      subst e2
      rw [← hT0] at h1 h2
      refine ⟨rm, rm', mid_of hI e1 h.fc h.proc h1 h2 fun s hs => h.nosat s (List.mem_cons_of_mem _ hs), ?_⟩
      rw [emk]
      refine uns_less h.uns (fun _ h => h) fun hm => ?_
      have := h.nosat _ List.mem_cons_self rfl
      simp only at this
      rw [this] at hm
      cases hm
    | opn h1 h2 h3 h4 =>
      rename_i rm
      simp only [Bool.false_eq_true, if_false] at e2
      rw [← hT0] at h1 h2 h3 h4
      have hm := mid_of hI e1 h.fc h.proc h1 h2 fun s hs => h.nosat s (List.mem_cons_of_mem _ hs)
      have hlen : ((S1.cl k).filter fun x => S1.fals x == 0).length ≠ 1 := by
        rw [filter_fals hT, ecl, est, (hpm.filter _).length_eq]
        omega
      unfold check at e2
      simp only [hlen, and_false, if_false] at e2
      refine ⟨rm, rm', check_tail hz hm (by rw [emk]; exact h.uns) (fun x hx => ?_) e2⟩
      have hx' := buf_nomem (c0 := c0) hT (by rw [ecl]; exact hpm) hx
      exact ⟨hx'.1, hx'.2, by rw [est]; exact h3 x hx'.1⟩
    | unit h1 h2 h3 h4 h5 h6 h7 =>
      rename_i T1 rm lit R
      simp only [Bool.false_eq_true, if_false] at e2
      have hlm : lit ∈ c0 k ∧ lit ∉ T1 := by
        have : lit ∈ (c0 k).filter (fun x => decide (x ∉ T1)) := by rw [h4]; simp
        simpa using this
      have hlt : lit ∉ T1 ++ -lit :: R := by
        have := h6 (-lit) (by simp)
        rwa [Int.neg_neg] at this
      have hfil : (c0 k).filter (fun x => decide (x ∉ T1 ++ -lit :: R)) = [lit] := by
        have h8 : (c0 k).filter (fun x => decide (x ∉ T1 ++ -lit :: R)) = ((c0 k).filter (fun x => decide (x ∉ T1))).filter (fun x => decide (x ∉ -lit :: R)) := by
          rw [List.filter_filter]
          apply List.filter_congr
          intro x _
          simp only [List.mem_append, not_or, Bool.decide_and, Bool.and_comm]
        rw [h8, h4]
        have : lit ∉ -lit :: R := fun hm => hlt (List.mem_append_right _ hm)
        rw [List.filter_cons_of_pos (by simpa using this)]
        rfl
      have hbuf : ((S1.cl k).filter fun x => S1.fals x == 0) = [lit] := by
        rw [filter_fals hT, ecl, est, hT0]
        have := hpm.filter (fun x => decide (x ∉ T1 ++ -lit :: R))
        rw [hfil] at this
        exact List.perm_singleton.1 this
      have hfl : ((S1.cl k).any fun x => S1.fals (-x) != 0) = true := by
        rw [any_fals hT, ecl, est, hT0]
        exact ⟨lit, hpm.mem_iff.2 hlm.1, by simp⟩
      unfold check at e2
      simp only [hbuf, hfl, Bool.or_true, List.length_singleton, and_self, if_true, List.headD_cons] at e2
      split at e2
      · cases e2
      · rename_i S3 e3
        have e3 : trim lit S1.forced S1 = some S3 := e3
        have ers : S1.reason = S.reason := by rw [hf]
        have hm := Mid.trim (S := S1) (T0 := T1) (rm := rm) (rm' := rm') (ds := ds) (done := done) (n := n) (hI.leave e1) hT (by rw [ers]; exact hI.ri) (by rw [est, hT0])
          (by rw [est, hf]; exact h.fc) h5 (by rw [ers]; exact h1) (by rw [ers]; exact h2) (by rw [emk]; exact fun s hs => h.nosat s (List.mem_cons_of_mem _ hs)) e3
        obtain ⟨hm, hst3, hmk3⟩ := hm
        refine ⟨rm, rm', check_tail hz (buf := [lit]) hm (by rw [hmk3, emk]; exact h.uns) (fun x hx => ?_) e2⟩
        rw [List.mem_singleton.1 hx, hst3]
        exact ⟨hlm.1, hlm.2, h3 lit hlm.1⟩
  · subst hsat hflag
    simp only [Bool.false_eq_true, if_false] at e2
    obtain ⟨rm, rm', h1, h2, hI⟩ := h.ex
    have hpm := hI.wf.perm k
    have hT := hti hI.inv
    have hm := mid_of hI e1 h.fc h.proc h1 h2 h.nosat
    have hfl : ((S1.cl k).any fun x => S1.fals (-x) != 0) = false := by
      rw [Bool.eq_false_iff]
      intro ha
      rw [any_fals hT, ecl, est] at ha
      obtain ⟨x, hx, hn⟩ := ha
      exact h.ntr x (hpm.mem_iff.1 hx) hn
    unfold check at e2
    simp only [hfl, Bool.or_false, Bool.false_eq_true, false_and, if_false] at e2
    refine ⟨rm, rm', check_tail hz hm (by rw [emk]; exact h.uns) (fun x hx => ?_) e2⟩
    have hx' := buf_nomem (c0 := c0) hT (by rw [ecl]; exact hpm) hx
    exact ⟨hx'.1, hx'.2, by rw [est]; exact h.ntr x hx'.1⟩

theorem Hist.step {s : Step} (h : Hist c0 n r b (s :: done) T0 rm) : b = s.k + 1 := by
  cases h <;> rfl

theorem backward_ok (hz : ∀ i, ∀ x ∈ c0 i, x ≠ 0) {fuel : Nat} : ∀ {done : List Step} {ds : List Nat} {k : Nat} {sat flag : Bool} {S S' : T},
    Before c0 n k ds sat done flag S → backward fuel (⟨ds, k, sat⟩ :: done) flag S = some S' → Uns c0 n S'.mark ∧ ∀ i, (S'.cl i).Perm (c0 i) := by
  intro done
  induction done with
  | nil =>
    intro ds k sat flag S S' h e
    unfold backward at e
    split at e
    · cases e
    · rename_i S1 e1
      split at e
      · cases e
      · rename_i flag' S2 e2
        obtain ⟨rm, rm', hm, hu⟩ := step_ok hz h e1 e2
        simp only [List.isEmpty_nil, if_true, Option.some.injEq] at e
        subst e
        have hh := hm.hist
        refine ⟨?_, hm.inv.wf.perm⟩
        cases hh
        exact hu
  | cons d done ih =>
    intro ds k sat flag S S' h e
    unfold backward at e
    split at e
    · cases e
    · rename_i S1 e1
      split at e
      · cases e
      · rename_i flag' S2 e2
        obtain ⟨rm, rm', hm, hu⟩ := step_ok hz h e1 e2
        simp only [List.isEmpty_cons, Bool.false_eq_true, if_false] at e
        obtain ⟨ds', k', sat'⟩ := d
        have hb := hm.undo hu
        have := hb.hist.step
        simp only at this
        subst this
        exact ih (.inl ⟨rm, hb⟩) e

/-! ### `verify` -/

theorem verify_ok (hz : ∀ i, ∀ x ∈ c0 i, x ≠ 0) {fuel : Nat} {ls : Option (List (List Nat × Nat))} (hn : ∀ l, ls = some l → Numbered n l) (hI : Inv c0 n [] (fun _ => False) S) (hf : Fw S)
    (hp : S.processed = 0) (hfc : S.forced = 0) (hm : ∀ j, S.mark j = false) (e : verify fuel ls S = some S') : Uns c0 n S'.mark ∧ (ls = none → ∀ j, S'.mark j = true → j < n) ∧ ∀ i, (S'.cl i).Perm (c0 i) := by
  unfold verify at e
  split at e
  · cases e
  · rename_i S1 e1
    injection e with e
    subst e
    split at e1
    · have rf := prop_refuted hz hI (by omega) e1
      refine ⟨uns_of fun σ hs => rf.unsat σ hs fun _ h => h.elim, fun _ j hj => ?_, rf.wf.perm⟩
      rcases rf.new j hj with h | h
      · rw [hm j] at h; cases h
      · exact h.1
    · cases e1
  · rename_i S1 e1
    split at e
    · cases e
    · rename_i l
      have key : Inv c0 n [] (fun _ => False) S1 ∧ Fw S1 ∧ S1.processed = S1.stack.length ∧ ∀ j, S1.mark j = false := by
        split at e1
        · obtain ⟨h1, g, h2⟩ := prop_done hI e1
          exact ⟨h1, g.fw hf, h2, by rw [g.mark]; exact hm⟩
        · injection e1 with e1
          injection e1 with e1 _
          subst e1
          exact ⟨hI, hf, by omega, hm⟩
      obtain ⟨k1, k2, k3, k4⟩ := key
      split at e
      · cases e
      · rename_i done S2 e2
        have hF : Front c0 n n [] [] { S1 with forced := S1.processed } := by
          refine ⟨⟨⟨k1.wf.perm, k1.wf.cnt⟩, ⟨k1.inv.fs, k1.inv.asm, k1.inv.why⟩, k1.ri⟩, ⟨k2.nd, k2.rs⟩, k3, k4, .nil (fun x hx => ?_) ?_⟩
          · have hx : x ∈ S1.stack := hx
            cases hr : S1.reason x.natAbs with
            | none => exact absurd (k1.inv.asm x hx hr) id
            | some i =>
              obtain ⟨p, hp⟩ := List.getElem?_of_mem hx
              exact ⟨i, (k1.inv.why p x i hp hr).1, rfl⟩
          · exact TInv.cons (S := S1) hz k1.wf.perm k1.inv
        obtain ⟨k, ds, done', e3, hs⟩ := forward_ok hz (hn l rfl) hF e2
        simp only at e3
        subst e3
        have hb := backward_ok hz (.inr ⟨rfl, rfl, hs⟩) e
        exact ⟨hb.1, nofun, hb.2⟩

end Verif.Drup
