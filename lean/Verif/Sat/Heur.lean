import Verif.Sat.Solver
import Verif.Sat.Propagate
/-
The heuristic part of the solver state: the variable heap always holds all unassigned variables, and no heap operation
panics.  Propagation and backtracking on the whole state.
-/
namespace Verif.Sat

/-- The heap holds known variables, among them all unassigned ones; all variables are decision variables. -/
structure HInv {F : Type} (s : St F) : Prop where
  cons : s.heap.Cons
  rng : ∀ v ∈ s.heap.heap, v < s.nvars
  dec : ∀ v < s.nvars, s.decision v = true
  mem : ∀ v < s.nvars, s.asg v = none → v ∈ s.heap.heap
  len : s.nvars ≤ s.heap.idx.length

/-- The fields that the steps of the search leave alone. -/
structure Keep {F : Type} (s s' : St F) : Prop where
  decision : s'.decision = s.decision
  assumptions : s'.assumptions = s.assumptions
  conflict : s'.conflict = s.conflict
  sel : s'.sel = s.sel
  bb : s'.bb = s.bb
  model : s'.model = s.model
  orig : s'.pgOrig = s.pgOrig

namespace Keep
variable {F : Type} {s s' s'' : St F}

theorem refl (s : St F) : Keep s s := ⟨rfl, rfl, rfl, rfl, rfl, rfl, rfl⟩

theorem trans (h : Keep s s') (h' : Keep s' s'') : Keep s s'' :=
  ⟨h'.1.trans h.1, h'.2.trans h.2, h'.3.trans h.3, h'.4.trans h.4, h'.5.trans h.5, h'.6.trans h.6, h'.7.trans h.7⟩

end Keep

/-- Only heuristic fields changed. -/
structure Heur {F : Type} (s s' : St F) : Prop where
  core : s'.toCore = s.toCore
  keep : Keep s s'
  heap : HInv s → HInv s'

namespace Heur
variable {F : Type} {s s' s'' : St F}

theorem refl (s : St F) : Heur s s := ⟨rfl, .refl s, id⟩

theorem trans (h : Heur s s') (h' : Heur s' s'') : Heur s s'' :=
  ⟨h'.core.trans h.core, h.keep.trans h'.keep, fun i => h'.heap (h.heap i)⟩

end Heur

theorem HInv.congr {F : Type} {s s' : St F} (h : HInv s) (hn : s'.nvars = s.nvars) (hh : s'.heap = s.heap) (hd : s'.decision = s.decision)
    (ha : ∀ v < s.nvars, s'.asg v = none → s.asg v = none) : HInv s' where
  cons := by rw [hh]; exact h.cons
  rng := by rw [hh, hn]; exact h.rng
  dec := by rw [hn, hd]; exact h.dec
  mem v hv hv' := by rw [hh]; exact h.mem v (hn ▸ hv) (ha v (hn ▸ hv) hv')
  len := by rw [hh, hn]; exact h.len

section
variable {F : Type} [LinearOrder F] [Flt F] {s : St F}
open St

theorem decrease_cons {act : Nat → F} {n : Nat} {h : Heap} (hc : h.Cons) (hn : n ∈ h.heap) :
    ∃ h', h.decrease act n = some h' ∧ h'.Cons ∧ h'.idx.length = h.idx.length ∧ ∀ m, m ∈ h'.heap ↔ m ∈ h.heap := by
  obtain ⟨h', e, h1, _, h3, h4, _⟩ := Heap.decrease_ok (act := act) (act' := act) hc hn (fun _ _ => rfl) (le_refl _)
  exact ⟨h', e, h1, h3, h4⟩

theorem bumpVar_ok (h : HInv s) (v : Nat) : ∃ s', bumpVar v s = some s' ∧ Heur s s' ∧ s'.seen = s.seen := by
  unfold bumpVar
  simp only
  have key : ∀ s1 : St F, s1.toCore = s.toCore → Keep s s1 → s1.heap = s.heap → s1.seen = s.seen →
      ∃ s', (if s1.heap.inHeap v then (s1.heap.decrease s1.act v).map fun h => { s1 with heap := h } else some s1) = some s' ∧
        Heur s s' ∧ s'.seen = s.seen := by
    intro s1 hc hk hh hs
    by_cases hv : s1.heap.inHeap v = true
    · rw [if_pos hv]
      rw [hh, Heap.inHeap_iff h.cons] at hv
      rw [hh]
      obtain ⟨h', e, h1, h3, h4⟩ := decrease_cons (act := s1.act) h.cons hv
      rw [e]
      refine ⟨_, rfl, ⟨hc, ⟨hk.1, hk.2, hk.3, hk.4, hk.5, hk.6, hk.7⟩, fun hi => ?_⟩, hs⟩
      exact { cons := h1
              rng := fun m hm => by show m < s1.nvars; rw [hc]; exact hi.rng m ((h4 m).1 hm)
              dec := fun m hm => by
                show s1.decision m = true
                rw [hk.decision]; exact hi.dec m (by rw [← hc]; exact hm)
              mem := fun m hm ha => (h4 m).2 (hi.mem m (by rw [← hc]; exact hm) (by rw [← hc]; exact ha))
              len := by show s1.nvars ≤ h'.idx.length; rw [h3, hc]; exact hi.len }
    · rw [if_neg hv]
      exact ⟨s1, rfl, ⟨hc, hk, fun hi => hi.congr (by rw [hc]) hh hk.decision (by rw [hc]; exact fun _ _ h => h)⟩, hs⟩
  split
  · exact key _ rfl ⟨rfl, rfl, rfl, rfl, rfl, rfl, rfl⟩ rfl rfl
  · exact key _ rfl ⟨rfl, rfl, rfl, rfl, rfl, rfl, rfl⟩ rfl rfl

theorem bumpClause_ok (C : Cfg F) (id : Nat) (s : St F) : Heur s (bumpClause C id s) ∧ (bumpClause C id s).seen = s.seen := by
  unfold bumpClause
  split
  · simp only
    split
    · exact ⟨⟨rfl, ⟨rfl, rfl, rfl, rfl, rfl, rfl, rfl⟩, fun h => h.congr rfl rfl rfl fun _ _ h => h⟩, rfl⟩
    · exact ⟨⟨rfl, ⟨rfl, rfl, rfl, rfl, rfl, rfl, rfl⟩, fun h => h.congr rfl rfl rfl fun _ _ h => h⟩, rfl⟩
  · exact ⟨.refl s, rfl⟩

theorem decay_ok (C : Cfg F) (s : St F) : Heur s (decay C s) ∧ (decay C s).seen = s.seen := by
  unfold decay
  simp only
  split
  · exact ⟨⟨rfl, ⟨rfl, rfl, rfl, rfl, rfl, rfl, rfl⟩, fun h => h.congr rfl rfl rfl fun _ _ h => h⟩, rfl⟩
  · exact ⟨⟨rfl, ⟨rfl, rfl, rfl, rfl, rfl, rfl, rfl⟩, fun h => h.congr rfl rfl rfl fun _ _ h => h⟩, rfl⟩

/-- A state that satisfies the heap invariant except that the variable `v` may be missing. -/
structure HInvX (s : St F) (v : Nat) : Prop where
  cons : s.heap.Cons
  rng : ∀ v ∈ s.heap.heap, v < s.nvars
  dec : ∀ v < s.nvars, s.decision v = true
  mem : ∀ w < s.nvars, w ≠ v → s.asg w = none → w ∈ s.heap.heap
  len : ∀ w < s.nvars, w ≠ v → w < s.heap.idx.length

theorem insertVarOrder_ok {v : Nat} (h : HInvX s v) (hv : v < s.nvars) :
    ∃ s', insertVarOrder v s = some s' ∧ s'.toCore = s.toCore ∧ Keep s s' ∧ s'.seen = s.seen ∧ s'.polarity = s.polarity ∧ HInv s' := by
  unfold insertVarOrder
  rw [h.dec v hv]
  by_cases hm : v ∈ s.heap.heap
  · rw [(Heap.inHeap_iff h.cons v).2 hm]
    refine ⟨s, by simp, rfl, .refl s, rfl, rfl, h.cons, h.rng, h.dec, fun w hw ha => ?_, ?_⟩
    · by_cases e : w = v
      · subst e; exact hm
      · exact h.mem w hw e ha
    · obtain ⟨i, hi⟩ := List.mem_iff_getElem?.1 hm
      have h1 : v < s.heap.idx.length := Heap.idx_lt ((h.cons v i).2 hi)
      by_contra hc
      have h2 := h.len (s.heap.idx.length) (by omega)
      by_cases e : s.heap.idx.length = v
      · omega
      · have := h2 e; omega
  · have : s.heap.inHeap v = false := by
      rw [Bool.eq_false_iff]; intro hc; exact hm ((Heap.inHeap_iff h.cons v).1 hc)
    rw [this]
    obtain ⟨h', e, h1, _, h3, h4, _⟩ := Heap.insert_ok (act := s.act) h.cons hm
    refine ⟨{ s with heap := h' }, by simp [e], rfl, ⟨rfl, rfl, rfl, rfl, rfl, rfl, rfl⟩, rfl, rfl, h1, ?_, h.dec, ?_, ?_⟩
    · intro w hw
      rcases (h4 w).1 hw with rfl | hw
      · exact hv
      · exact h.rng w hw
    · intro w hw ha
      rw [h4]
      by_cases e : w = v
      · exact .inl e
      · exact .inr (h.mem w hw e ha)
    · show s.nvars ≤ h'.idx.length
      rw [h3]
      by_contra hc
      have h2 := h.len (max s.heap.idx.length (v + 1)) (by omega) (by omega)
      omega

/-- A variable is unassigned exactly when neither of its literals is on the trail. -/
theorem Inv.asg_none {Φ inc U q} {s : Core} (h : Inv Φ inc U q s) (l : Nat) : s.asg (vr l) = none ↔ l ∉ s.trail ∧ neg l ∉ s.trail := by
  rw [← h.val_none]
  unfold Core.value
  cases s.asg (vr l) <;> simp

/-- The state after propagation. -/
structure PropSt (Φ : List (List Nat)) (inc : Bool) (U : List Nat) (s : St F) (x : St F × Option Nat) : Prop where
  keep : Keep s x.1
  seen : x.1.seen = s.seen
  frame : Frame s.toCore x.1.toCore
  heap : HInv x.1
  cact : x.1.cact = s.cact
  pol : x.1.pgProof = s.pgProof
  inv : x.2 = none → x.1.qhead = x.1.trail.length ∧ Inv Φ inc U x.1.qhead x.1.toCore
  confl : ∀ id, x.2 = some id → Conflict x.1.toCore id ∧ ∃ q, Inv Φ inc U q x.1.toCore

theorem prop_ok {Φ inc U} (h : Inv Φ inc U s.qhead s.toCore) (hh : HInv s) : ∃ x, prop s = some x ∧ PropSt Φ inc U s x := by
  obtain ⟨⟨c, o, n⟩, e, hx⟩ := propagate_ok h
  refine ⟨({ s with toCore := c, simpProps := s.simpProps - n }, o), by unfold prop; rw [e], ⟨rfl, rfl, rfl, rfl, rfl, rfl, rfl⟩, rfl, hx.frame, ?_, rfl, rfl, hx.inv, hx.confl⟩
  have hinv : ∃ q, Inv Φ inc U q c := by
    cases o with
    | none => exact ⟨_, (hx.inv rfl).2⟩
    | some id => exact (hx.confl id rfl).2
  obtain ⟨q, hq⟩ := hinv
  refine hh.congr hx.frame.nvars rfl rfl fun v _ ha => ?_
  have ha' : c.asg (vr (mkLit v false)) = none := by rw [vr_mkLit]; exact ha
  rw [hq.asg_none] at ha'
  have : s.asg (vr (mkLit v false)) = none := by
    rw [h.asg_none]
    exact ⟨fun h1 => ha'.1 (hx.frame.mem h1), fun h1 => ha'.2 (hx.frame.mem h1)⟩
  rwa [vr_mkLit] at this

/-- What popping `n` literals does. -/
structure Popped (n : Nat) (s s' : St F) : Prop where
  core : ∃ a, s'.toCore = { s.toCore with asg := a, trail := s.trail.drop n } ∧
    ∀ v, a v = if v ∈ (s.trail.take n).map vr then none else s.asg v
  keep : Keep s s'
  seen : s'.seen = s.seen
  heap : HInv s'
  bt : s'.bt = s.bt
  selIdx : s'.selIdx = s.selIdx
  cact : s'.cact = s.cact
  proof : s'.pgProof = s.pgProof

theorem insertVarOrder_more {v : Nat} {s s' : St F} (e : insertVarOrder v s = some s') :
    s'.bt = s.bt ∧ s'.selIdx = s.selIdx ∧ s'.cact = s.cact ∧ s'.pgProof = s.pgProof := by
  unfold insertVarOrder at e
  split at e
  · cases hh : s.heap.insert s.act v with
    | none => rw [hh] at e; cases e
    | some x => rw [hh] at e; cases e; exact ⟨rfl, rfl, rfl, rfl⟩
  · cases e; exact ⟨rfl, rfl, rfl, rfl⟩

theorem cancelPop_ok (n : Nat) : ∀ {s : St F}, HInv s → (∀ l ∈ s.trail, l < 2 * s.nvars) → n ≤ s.trail.length →
    ∃ s', cancelPop n s = some s' ∧ Popped n s s' := by
  induction n with
  | zero =>
    intro s h _ _
    exact ⟨s, rfl, ⟨s.asg, rfl, fun v => by simp⟩, .refl s, rfl, h, rfl, rfl, rfl, rfl⟩
  | succ n ih =>
    intro s h hr hn
    unfold cancelPop
    cases ht : s.trail with
    | nil => rw [ht] at hn; simp at hn
    | cons l t =>
      simp only
      obtain ⟨s1, e1, c1, k1, se1, p1, i1⟩ := insertVarOrder_ok (v := vr l)
        (s := { s with asg := upd s.asg (vr l) none, polarity := upd s.polarity (vr l) (!s.bb && sgn l), trail := t })
        ⟨h.cons, h.rng, h.dec, fun w hw hne ha => h.mem w hw (by rw [← ha]; exact (upd_ne _ _ hne).symm), fun w hw _ => Nat.lt_of_lt_of_le hw h.len⟩
        (vr_lt.2 (hr l (by rw [ht]; simp)))
      obtain ⟨m1, m2, m3, m4⟩ := insertVarOrder_more e1
      rw [e1]
      have ht1 : s1.trail = t := by rw [c1]
      obtain ⟨s2, e2, hp⟩ := ih i1 (by rw [c1]; exact fun x hx => hr x (by rw [ht]; exact List.mem_cons_of_mem _ hx)) (by
        rw [ht1]; rw [ht] at hn; simp at hn; omega)
      refine ⟨s2, e2, ?_, (⟨k1.1, k1.2, k1.3, k1.4, k1.5, k1.6, k1.7⟩ : Keep s s1).trans hp.keep, hp.seen.trans se1, hp.heap, hp.bt.trans m1, hp.selIdx.trans m2, hp.cact.trans m3, hp.proof.trans m4⟩
      obtain ⟨a, ea, ha⟩ := hp.core
      refine ⟨a, ?_, fun v => ?_⟩
      · rw [ea, ht1, c1, ht]; rfl
      · rw [ha, ht1, ht, c1]
        simp only [List.take_succ_cons, List.map_cons, List.mem_cons]
        by_cases hv : v ∈ (t.take n).map vr
        · rw [if_pos hv, if_pos (.inr hv)]
        · rw [if_neg hv]
          by_cases e : v = vr l
          · rw [if_pos (.inl e), e]; exact upd_self ..
          · rw [if_neg (by rintro (h | h); exacts [e h, hv h])]
            exact upd_ne _ _ e

end

/-- Removing all levels above `L`. -/
theorem Inv.cut {Φ inc U q} {s : Core} (h : Inv Φ inc U q s) {L : Nat} (hL : L < s.lim.length) {a : Nat → Option Bool} {qh : Nat}
    (ha : ∀ v, a v = if v ∈ (s.trail.take (s.trail.length - s.limAt L)).map vr then none else s.asg v) :
    Inv Φ inc U (s.limAt L) { s with asg := a, trail := s.trail.drop (s.trail.length - s.limAt L), lim := s.lim.drop (s.lim.length - L), qhead := qh } := by
  obtain ⟨hc1, hc2, hc3, hc4, hc5⟩ := h.twf.cut hL
  have hc6 := h.twf.cut_mem hL
  have hc1 : s.limAt L ≤ s.trail.length := hc1
  have hc3 : ∀ l ∈ s.trail.take (s.trail.length - s.limAt L), L < s.lv l := hc3
  have hc4 : ∀ l ∈ s.trail.drop (s.trail.length - s.limAt L), s.lv l ≤ L := hc4
  have hc6 : ∀ n ∈ s.lim, n < s.limAt L → n ∈ s.lim.drop (s.lim.length - L) := hc6
  have hlen : (s.trail.drop (s.trail.length - s.limAt L)).length = s.limAt L := by rw [List.length_drop]; omega
  have hsub : ∀ l ∈ s.trail.drop (s.trail.length - s.limAt L), l ∈ s.trail := fun l hl => List.mem_of_mem_drop hl
  have hkeep : ∀ l ∈ s.trail, s.lv l ≤ L → l ∈ s.trail.drop (s.trail.length - s.limAt L) := by
    intro l hl hlv
    rw [← List.take_append_drop (s.trail.length - s.limAt L) s.trail] at hl
    rcases List.mem_append.1 hl with hl | hl
    · have := hc3 l hl; omega
    · exact hl
  have hsplit : ∀ {t1 x t2}, s.trail.drop (s.trail.length - s.limAt L) = t1 ++ x :: t2 →
      s.trail = (s.trail.take (s.trail.length - s.limAt L) ++ t1) ++ x :: t2 := by
    intro t1 x t2 e
    rw [List.append_assoc, ← e, List.take_append_drop]
  have hlimq : s.limAt L ≤ q := by
    apply h.limq
    unfold Core.limAt
    rw [List.getD_eq_getElem?_getD, List.getElem?_eq_getElem (by omega)]
    exact List.getElem_mem _
  exact
  { twf := hc2
    val := by
      intro l
      rw [show (Core.value { s with asg := a, trail := s.trail.drop (s.trail.length - s.limAt L), lim := s.lim.drop (s.lim.length - L), qhead := qh } l)
        = (a (vr l)).map (· != sgn l) from rfl, ha]
      constructor
      · intro h'
        split at h'
        · cases h'
        · next hn =>
          have h2 : l ∈ s.trail := (h.val l).1 h'
          rw [← List.take_append_drop (s.trail.length - s.limAt L) s.trail] at h2
          rcases List.mem_append.1 h2 with h2 | h2
          · exact absurd (List.mem_map.2 ⟨l, h2, rfl⟩) hn
          · exact h2
      · intro hm
        have hl := hsub l hm
        rw [if_neg]
        · exact (h.val l).2 hl
        · intro hc
          obtain ⟨y, hy, he⟩ := List.mem_map.1 hc
          have := h.trail_inj (List.mem_of_mem_take hy) hl he
          subst this
          have h1 := hc3 y hy
          have h2 := hc4 y hm
          omega
    nodup := h.nodup.sublist (List.drop_sublist _ _)
    rng := fun l hl => h.rng l (hsub l hl)
    rsn := fun t1 x t2 id ht hid => h.rsn _ x t2 id (hsplit ht) hid
    dec := by
      intro t1 x t2 ht hid
      rcases h.dec _ x t2 (hsplit ht) hid with h' | h'
      · exact .inl h'
      · refine .inr (hc6 _ h' ?_)
        have e1 : s.trail.drop (s.trail.length - s.limAt L) = t1 ++ x :: t2 := ht
        rw [← hlen, e1, List.length_append, List.length_cons]
        omega
    limq := hc5
    qle := by show s.limAt L ≤ (s.trail.drop _).length; rw [hlen]; exact Nat.le_refl _
    good := by
      intro id hid
      refine h.good id ?_
      rcases hid with h' | h' | h' | ⟨x, hx, h'⟩
      · exact .inl h'
      · exact .inr (.inl h')
      · exact .inr (.inr (.inl h'))
      · exact .inr (.inr (.inr ⟨x, hsub x hx, h'⟩))
    w1 := h.w1
    w2 := h.w2
    blk := by
      intro y w hw
      rcases h.blk y w hw with h' | ⟨hi, h', h''⟩
      · exact .inl h'
      · exact .inr ⟨hi, hkeep _ h' (by rw [Inv.lv_neg, h'']; omega), h''⟩
    mutual_ := h.mutual_
    valid := by
      intro y hy w hw
      have hy' : y ∈ s.trail.drop (s.trail.length - s.limAt L) := List.mem_of_mem_drop hy
      have hyd : y ∈ s.done q := by
        unfold Core.done
        have e : s.trail.drop (s.trail.length - s.limAt L) = (s.trail.drop (s.trail.length - q)).drop (q - s.limAt L) := by
          rw [List.drop_drop]
          congr 1
          have := h.qle
          omega
        rw [e] at hy'
        exact List.mem_of_mem_drop hy'
      obtain ⟨t, ht, htt, hle⟩ := h.valid y hyd w hw
      exact ⟨t, ht, hkeep t htt (Nat.le_trans hle.1 (hc4 y hy')), hle⟩
    cov := by
      intro id hid
      rcases h.cov id hid with ⟨hi, t, ht, htt, h'⟩ | h'
      · exact .inl ⟨hi, t, ht, hkeep t htt (by omega), h'⟩
      · exact .inr h'
    zero := fun x hx h0 => h.zero x (hsub x hx) h0
    incw := h.incw
    incr := fun hi x hx => h.incr hi x (hsub x hx)
    incu := fun hi x hx => h.incu hi x (hsub x hx) }

section
variable {F : Type} [LinearOrder F] [Flt F] {s : St F}
open St

/-- The state after backtracking to level `L`. -/
structure CancelOk (Φ : List (List Nat)) (inc : Bool) (U : List Nat) (L : Nat) (s s' : St F) : Prop where
  inv : Inv Φ inc U s'.qhead s'.toCore
  qh : s'.qhead = s'.trail.length
  keep : Keep s s'
  seen : s'.seen = s.seen
  heap : HInv s'
  bt : s'.bt = s.bt
  selIdx : s'.selIdx = s.selIdx
  cact : s'.cact = s.cact
  proof : s'.pgProof = s.pgProof
  lim : s'.lim = s.lim.drop (s.lim.length - L)
  ok : s'.ok = s.ok
  nvars : s'.nvars = s.nvars
  data : s'.data = s.data
  learnt : s'.learnt = s.learnt
  next : s'.next = s.next
  clauses : s'.clauses = s.clauses
  learnts : s'.learnts = s.learnts
  units : s'.units = s.units
  watches : s'.watches = s.watches
  level : s'.level = s.level
  reason : s'.reason = s.reason
  sub : ∀ l ∈ s'.trail, l ∈ s.trail ∧ s.lv l ≤ L
  mem : ∀ l ∈ s.trail, s.lv l ≤ L → l ∈ s'.trail

theorem cancelUntil_ok {Φ inc U q} (h : Inv Φ inc U q s.toCore) (hh : HInv s) {L : Nat} (hL : L < s.lim.length) :
    ∃ s', cancelUntil L s = some s' ∧ CancelOk Φ inc U L s s' := by
  unfold cancelUntil
  rw [if_pos hL]
  obtain ⟨hc1, _, hc3, hc4, _⟩ := h.twf.cut hL
  have hc1 : s.limAt L ≤ s.trail.length := hc1
  have hc3 : ∀ l ∈ s.trail.take (s.trail.length - s.limAt L), L < s.lv l := hc3
  have hc4 : ∀ l ∈ s.trail.drop (s.trail.length - s.limAt L), s.lv l ≤ L := hc4
  obtain ⟨s1, e1, hp⟩ := cancelPop_ok (s.trail.length - s.limAt L) hh h.rng (Nat.sub_le _ _)
  rw [e1]
  obtain ⟨a, ea, ha⟩ := hp.core
  have hi := h.cut hL (qh := s.limAt L) ha
  have etc : ({ s1 with qhead := s.limAt L, lim := s.lim.drop (s.lim.length - L) } : St F).toCore =
      { s.toCore with asg := a, trail := s.trail.drop (s.trail.length - s.limAt L), lim := s.lim.drop (s.lim.length - L), qhead := s.limAt L } := by
    show ({ s1.toCore with qhead := s.limAt L, lim := s.lim.drop (s.lim.length - L) } : Core) = _
    rw [ea]
  refine ⟨{ s1 with qhead := s.limAt L, lim := s.lim.drop (s.lim.length - L) }, rfl, ?_⟩
  have et : s1.trail = s.trail.drop (s.trail.length - s.limAt L) := by rw [ea]
  exact
  { inv := by rw [etc]; exact hi
    qh := by show s.limAt L = s1.trail.length; rw [et, List.length_drop]; omega
    keep := ⟨hp.keep.1, hp.keep.2, hp.keep.3, hp.keep.4, hp.keep.5, hp.keep.6, hp.keep.7⟩
    seen := hp.seen
    heap := hp.heap.congr rfl rfl rfl fun _ _ h => h
    bt := hp.bt
    selIdx := hp.selIdx
    cact := hp.cact
    proof := hp.proof
    lim := rfl
    ok := by show s1.ok = _; rw [ea]
    nvars := by show s1.nvars = _; rw [ea]
    data := by show s1.data = _; rw [ea]
    learnt := by show s1.learnt = _; rw [ea]
    next := by show s1.next = _; rw [ea]
    clauses := by show s1.clauses = _; rw [ea]
    learnts := by show s1.learnts = _; rw [ea]
    units := by show s1.units = _; rw [ea]
    watches := by show s1.watches = _; rw [ea]
    level := by show s1.level = _; rw [ea]
    reason := by show s1.reason = _; rw [ea]
    sub := fun l hl => by
      have hl : l ∈ s1.trail := hl
      rw [et] at hl
      exact ⟨List.mem_of_mem_drop hl, hc4 l hl⟩
    mem := fun l hl hlv => by
      show l ∈ s1.trail
      rw [et]
      rw [← List.take_append_drop (s.trail.length - s.limAt L) s.trail] at hl
      rcases List.mem_append.1 hl with hl | hl
      · have := hc3 l hl; omega
      · exact hl }

end
end Verif.Sat
