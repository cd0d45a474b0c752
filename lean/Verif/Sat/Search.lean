import Verif.Sat.Reduce
import Verif.DS.Luby
/-
The search loop: decisions, assumptions, the final conflict, and the answers.
-/
namespace Verif.Sat
open Core

section
variable {Φ : List (List Nat)} {inc : Bool} {U : List Nat} {q : Nat} {s : Core}

/-- Opening a decision level when everything is propagated. -/
theorem Inv.newLevel (h : Inv Φ inc U q s) (hq : q = s.trail.length) : Inv Φ inc U q { s with lim := s.trail.length :: s.lim } :=
  { h with
    twf := .new h.twf
    dec := fun t1 x t2 ht hr => (h.dec t1 x t2 ht hr).imp (fun h => h) (List.mem_cons_of_mem _)
    limq := fun n hn => by
      rcases List.mem_cons.1 hn with rfl | hn
      · exact Nat.le_of_eq hq.symm
      · exact h.limq n hn }

/-- A conflict on level 0 means that the clauses have no model. -/
theorem Inv.unsat (h : Inv Φ inc U q s) (hz : s.lim = []) {id : Nat} (hc : Conflict s id) (ρ : Nat → Bool) : ¬ Models ρ Φ := by
  intro hρ
  obtain ⟨l, w, hw, e⟩ := hc.live
  obtain ⟨k, hk, hkt⟩ := (h.good id (.inr (.inr (.inl ⟨l, w, hw, e⟩)))).1.ent ρ hρ
  have hn := hc.fls k hk
  have h0 : s.lv (neg k) = 0 := by have := h.lv_le hn; rw [hz] at this; simpa using this
  exact litT_neg.1 ((h.zero _ hn h0).lit hρ) hkt

/-- The assignment as a valuation. -/
def valuation (s : Core) : Nat → Bool := fun v => s.asg v == some true

theorem Inv.valuation (h : Inv Φ inc U q s) {l : Nat} (hl : l ∈ s.trail) : litT (valuation s) l := by
  have hv := (h.val l).2 hl
  rw [litT_iff]
  unfold Core.value at hv
  unfold Sat.valuation
  cases ha : s.asg (vr l) with
  | none => rw [ha] at hv; cases hv
  | some b =>
    rw [ha] at hv
    cases b <;> cases hs : sgn l <;> rw [hs] at hv <;> first | rfl | (simp at hv)

/-- A complete assignment without conflict makes all kept clauses true. -/
theorem Inv.complete (h : Inv Φ inc U q s) (hq : q = s.trail.length) (ha : ∀ v < s.nvars, s.asg v ≠ none) :
    ∀ id ∈ s.db inc, clT (Sat.valuation s) (s.data id) := by
  intro id hid
  rcases h.cov id hid with ⟨_, t, ht, htt, _⟩ | ⟨c0, c1, r, e, m0, m1⟩
  · exact ⟨t, ht, h.valuation htt⟩
  · have hlive : s.Live id := by
      rcases List.mem_append.1 hid with h' | h'
      · exact .inl h'
      · cases inc with
        | false => simp at h'
        | true => exact .inr (.inl h')
    have hr : c0 < 2 * s.nvars := (h.good id hlive).1.rng c0 (by rw [e]; simp)
    by_cases h0 : c0 ∈ s.trail
    · exact ⟨c0, by rw [e]; simp, h.valuation h0⟩
    · have h1 : neg c0 ∈ s.trail := by
        by_contra hc
        have := (h.val_none c0).2 ⟨h0, hc⟩
        unfold Core.value at this
        exact ha (vr c0) (vr_lt.2 hr) (Option.map_eq_none_iff.1 this)
      obtain ⟨w, hw, ew⟩ := List.mem_map.1 m0
      obtain ⟨t, ht, htt, _⟩ := h.valid (neg c0) (by unfold Core.done; rw [hq]; simpa using h1) w hw
      rw [ew] at ht
      exact ⟨t, ht, h.valuation htt⟩

end

section
variable {F : Type} [LinearOrder F] [Flt F] {Φ : List (List Nat)} {inc : Bool} {q : Nat} {s : St F}
open St

/-! ### Decisions -/

/-- The heap may miss one unassigned variable. -/
structure PHeap (s : St F) (v : Nat) : Prop where
  cons : s.heap.Cons
  rng : ∀ v ∈ s.heap.heap, v < s.nvars
  dec : ∀ v < s.nvars, s.decision v = true
  mem : ∀ w < s.nvars, w ≠ v → s.asg w = none → w ∈ s.heap.heap
  len : s.nvars ≤ s.heap.idx.length

theorem HInv.pheap (h : HInv s) (v : Nat) : PHeap s v := ⟨h.cons, h.rng, h.dec, fun w hw _ => h.mem w hw, h.len⟩

/-- Deciding an unassigned literal. -/
theorem SInv.decide (h : SInv Φ inc s.qhead s) (hq : s.qhead = s.trail.length) {s' : St F} (hc : s'.toCore = s.toCore) (hk : Keep s s') (hsn : s'.seen = s.seen)
    {l : Nat} (hh : PHeap s' (vr l)) (hv : s.value l = none) (hl : l < 2 * s.nvars) (ha : ∀ p, s.assumptions[s.lim.length]? = some p → p = l) :
    SInv Φ inc (decide_ l s').qhead (decide_ l s') ∧ Grow inc s (decide_ l s') := by
  obtain ⟨hn1, hn2⟩ := (h.inv.val_none l).1 hv
  have h1 := h.inv.newLevel hq
  have hi : Inv Φ inc s.units s.qhead (({ s.toCore with lim := s.trail.length :: s.lim } : Core).enqueue l none) :=
    h1.enqueue hn1 hn2 hl (fun id e => by cases e) (fun _ => .inr ⟨by simp, by simp⟩) (fun e => by cases e)
  have hlv : ∀ y ∈ s.trail, (({ s.toCore with lim := s.trail.length :: s.lim } : Core).enqueue l none).lv y = s.lv y := fun y hy =>
    h1.enqueue_lv hn1 hn2 (.inl hy)
  have hlvl : (({ s.toCore with lim := s.trail.length :: s.lim } : Core).enqueue l none).lv l = s.lim.length + 1 := Inv.enqueue_lv_self _ _ _
  have hcd : (decide_ l s').toCore = ({ s.toCore with lim := s.trail.length :: s.lim } : Core).enqueue l none := by
    unfold decide_; simp only; rw [hc]
  have hkd : Keep s (decide_ l s') := ⟨hk.1, hk.2, hk.3, hk.4, hk.5, hk.6, hk.7⟩
  constructor
  · exact
    { inv := by rw [hcd]; exact hi
      heap :=
        { cons := hh.cons
          rng := hh.rng
          dec := hh.dec
          mem := fun v hv' ha' => by
            have ha' : upd s'.asg (vr l) (some (!sgn l)) v = none := ha'
            by_cases e : v = vr l
            · subst e; rw [upd_self] at ha'; cases ha'
            · rw [upd_ne _ _ e] at ha'
              exact hh.mem v hv' e ha'
          len := hh.len }
      seen := by show ∀ v, s'.seen v = false; rw [hsn]; exact h.seen
      eqv := by
        rw [hcd]
        exact fun ho ρ hc ht => h.eqv ho ρ hc fun x hx h0 => ht x (List.mem_cons_of_mem _ hx) (by rw [hlv x hx]; exact h0)
      uent := by rw [hcd]; exact h.uent
      cnod := by rw [hcd]; exact h.cnod
      flag := by rw [hcd]; exact h.flag
      sel := by rw [hkd.sel, hcd]; exact h.sel
      arng := by rw [hkd.assumptions, hcd]; exact h.arng
      apos := by
        rw [hkd.assumptions, hcd]
        intro i p hi hp
        have hi : i < s.lim.length + 1 := hi
        by_cases hlt : i < s.lim.length
        · obtain ⟨a, b⟩ := h.apos i p hlt hp
          exact ⟨List.mem_cons_of_mem _ a, by rw [hlv p a]; exact b⟩
        · have : i = s.lim.length := by omega
          subst this
          obtain rfl := ha p hp
          exact ⟨List.mem_cons_self .., by rw [hlvl]; exact Nat.le_refl _⟩
      adec := by
        rw [hkd.assumptions, hcd]
        intro x hx hr h0 hle
        rcases List.mem_cons.1 hx with rfl | hx
        · rw [hlvl] at hle
          have hlt : s.lim.length < s.assumptions.length := by omega
          have hp := List.getElem?_eq_getElem hlt
          have := ha _ hp
          rw [← this]
          exact List.getElem_mem _
        · rw [hlv x hx] at h0 hle
          have hr : upd s.reason (vr l) none (vr x) = none := hr
          rw [upd_ne _ _ (h.inv.vr_ne hn1 hn2 hx)] at hr
          exact h.adec x hx hr h0 hle }
  · exact .step hkd (by rw [hcd]; rfl) (by rw [hcd]; rfl) (by rw [hcd]; rfl) (by rw [hcd]; rfl) (by rw [hcd]; rfl) (by rw [hcd]; rfl) (fun i => by rw [hcd]; exact .refl _)
      (by rw [hcd]; rfl) fun x hx h0 => by rw [hcd]; exact ⟨List.mem_cons_of_mem _ hx, by rw [hlv x hx]; exact h0⟩

theorem SInv.level (h : SInv Φ inc s.qhead s) (hq : s.qhead = s.trail.length) {p : Nat} (hp : s.assumptions[s.lim.length]? = some p) (hv : p ∈ s.trail) :
    SInv Φ inc s.qhead { s with lim := s.trail.length :: s.lim } ∧ Grow inc s { s with lim := s.trail.length :: s.lim } := by
  constructor
  · exact
    { h with
      inv := h.inv.newLevel hq
      heap := { h.heap with }
      apos := by
        intro i p' hi hp'
        have hi : i < s.lim.length + 1 := hi
        by_cases hlt : i < s.lim.length
        · exact h.apos i p' hlt hp'
        · have : i = s.lim.length := by omega
          subst this
          rw [show s.assumptions[s.lim.length]? = some p' from hp'] at hp
          cases hp
          exact ⟨hv, Nat.le_succ_of_le (h.inv.lv_le hv)⟩ }
  · exact ⟨⟨rfl, rfl, rfl, rfl, rfl, rfl, rfl⟩, rfl, rfl, Nat.le_refl _, fun _ => rfl, fun _ => ⟨[], by simp, by simp⟩, ⟨[], by simp⟩, fun _ _ _ => .refl _, fun _ _ _ => rfl,
      fun _ _ h => { h with }⟩

/-- The outcome of the loop over the assumptions. -/
def AssumeOk (Φ : List (List Nat)) (inc : Bool) (s : St F) : Assume F → Prop
  | .done s' => SInv Φ inc s'.qhead s' ∧ Grow inc s s' ∧ s'.qhead = s'.trail.length ∧ s'.assumptions.length ≤ s'.lim.length
  | .next p s' => SInv Φ inc s'.qhead s' ∧ Grow inc s s' ∧ s'.qhead = s'.trail.length ∧ s'.assumptions[s'.lim.length]? = some p ∧ s'.value p = none
  | .fail p s' => SInv Φ inc s'.qhead s' ∧ Grow inc s s' ∧ s'.qhead = s'.trail.length ∧ s'.assumptions[s'.lim.length]? = some p ∧ neg p ∈ s'.trail

theorem assumeLoop_ok (n : Nat) : ∀ {s : St F}, SInv Φ inc s.qhead s → s.qhead = s.trail.length → n = s.assumptions.length - s.lim.length →
    AssumeOk Φ inc s (assumeLoop n s) := by
  induction n with
  | zero => intro s h hq hn; exact ⟨h, .refl s, hq, by omega⟩
  | succ n ih =>
    intro s h hq hn
    have hlt : s.lim.length < s.assumptions.length := by omega
    have hp : s.assumptions[s.lim.length]? = some s.assumptions[s.lim.length] := List.getElem?_eq_getElem hlt
    unfold assumeLoop
    have hg : s.assumptions.getD s.lim.length 0 = s.assumptions[s.lim.length] := by simp [List.getD, hlt]
    simp only [hg]
    generalize s.assumptions[s.lim.length] = p at hp
    cases hv : s.value p with
    | none => exact ⟨h, .refl s, hq, hp, hv⟩
    | some b =>
      cases b with
      | false => exact ⟨h, .refl s, hq, hp, (h.inv.val_false p).1 hv⟩
      | true =>
        simp only
        obtain ⟨h1, g1⟩ := h.level hq hp ((h.inv.val p).1 hv)
        have := ih (s := { s with lim := s.trail.length :: s.lim }) h1 hq (by show n = s.assumptions.length - (s.lim.length + 1); omega)
        revert this
        generalize assumeLoop n { s with lim := s.trail.length :: s.lim } = r
        intro this
        cases r with
        | done s' => exact ⟨this.1, g1.trans this.2.1, this.2.2⟩
        | next p s' => exact ⟨this.1, g1.trans this.2.1, this.2.2⟩
        | fail p s' => exact ⟨this.1, g1.trans this.2.1, this.2.2⟩

theorem pickSel_ok (c : Core) (ls : List Nat) : ∀ (i : Nat) (l : Nat), (pickSel c ls i).1 = some l → l ∈ ls ∧ c.asg (vr l) = none := by
  induction ls with
  | nil => intro i l e; cases e
  | cons a ls ih =>
    intro i l e
    unfold pickSel at e
    split at e
    · next ha => cases e; exact ⟨List.mem_cons_self .., ha⟩
    · obtain ⟨a, b⟩ := ih (i + 1) l e
      exact ⟨List.mem_cons_of_mem _ a, b⟩

theorem pickHeap_ok (fuel : Nat) : ∀ {s : St F}, HInv s → s.heap.heap.length < fuel →
    ∃ s' r, pickHeap fuel s = some (s', r) ∧ s'.toCore = s.toCore ∧ Keep s s' ∧ s'.seen = s.seen ∧ s'.polarity = s.polarity ∧
      (r = none → HInv s' ∧ ∀ v < s.nvars, s.asg v ≠ none) ∧ ∀ v, r = some v → PHeap s' v ∧ v < s.nvars ∧ s.asg v = none := by
  induction fuel with
  | zero => intro s _ hf; omega
  | succ fuel ih =>
    intro s h hf
    unfold pickHeap
    by_cases he : s.heap.heap.isEmpty = true
    · rw [if_pos he]
      refine ⟨s, none, rfl, rfl, .refl s, rfl, rfl, fun _ => ⟨h, fun v hv ha => ?_⟩, fun v e => by cases e⟩
      have := h.mem v hv ha
      rw [List.isEmpty_iff.1 he] at this
      cases this
    · rw [if_neg he]
      obtain ⟨x, hp, e, hx, hc, hl, hi, hm, _⟩ := Heap.removeMin_ok (act := s.act) h.cons (fun e => he (by rw [e]; rfl))
      rw [e]
      simp only
      have hxv := h.rng x hx
      split
      · next hcond =>
        refine ⟨_, some x, rfl, rfl, ⟨rfl, rfl, rfl, rfl, rfl, rfl, rfl⟩, rfl, rfl, fun e => (by cases e), ?_⟩
        intro v ev
        cases ev
        refine ⟨⟨hc, fun v hv => h.rng v ((hm v).1 hv).1, h.dec, fun w hw hne ha => (hm w).2 ⟨h.mem w hw ha, hne⟩, ?_⟩, hxv, hcond.1⟩
        show s.nvars ≤ hp.idx.length
        rw [hi]; exact h.len
      · next hcond =>
        have hax : s.asg x ≠ none := fun ha => hcond ⟨ha, h.dec x hxv⟩
        obtain ⟨s', r, e', h1, h2, h3, h3', h4, h5⟩ := ih (s := { s with heap := hp })
          { cons := hc
            rng := fun v hv => h.rng v ((hm v).1 hv).1
            dec := h.dec
            mem := fun w hw ha => (hm w).2 ⟨h.mem w hw ha, fun e => hax (e ▸ ha)⟩
            len := by show s.nvars ≤ hp.idx.length; rw [hi]; exact h.len } (by show hp.heap.length < fuel; omega)
        exact ⟨s', r, e', h1, ⟨h2.1, h2.2, h2.3, h2.4, h2.5, h2.6, h2.7⟩, h3, h3', h4, h5⟩

theorem pickBranch_ok (h : SInv Φ inc q s) :
    ∃ s' r, pickBranch s = some (s', r) ∧ s'.toCore = s.toCore ∧ Keep s s' ∧ s'.seen = s.seen ∧
      (r = none → HInv s' ∧ ∀ v < s.nvars, s.asg v ≠ none) ∧ ∀ l, r = some l → PHeap s' (vr l) ∧ l < 2 * s.nvars ∧ s.value l = none := by
  unfold pickBranch
  simp only
  cases hp : (pickSel s.toCore (s.sel.drop s.selIdx) s.selIdx).1 with
  | some l =>
    obtain ⟨hm, ha⟩ := pickSel_ok _ _ _ _ hp
    refine ⟨_, some l, rfl, rfl, ⟨rfl, rfl, rfl, rfl, rfl, rfl, rfl⟩, rfl, fun e => (by cases e), ?_⟩
    intro l' e
    cases e
    refine ⟨⟨h.heap.cons, h.heap.rng, h.heap.dec, fun w hw _ => h.heap.mem w hw, h.heap.len⟩, h.sel l (List.mem_of_mem_drop hm), ?_⟩
    unfold Core.value; rw [ha]; rfl
  | none =>
    simp only
    obtain ⟨s', r, e, h1, h2, h3, h3', h4, h5⟩ := pickHeap_ok (s.heap.heap.length + 1) (s := { s with selIdx := (pickSel s.toCore (s.sel.drop s.selIdx) s.selIdx).2 })
      { h.heap with } (Nat.lt_succ_self _)
    have hk : Keep s s' := ⟨h2.1, h2.2, h2.3, h2.4, h2.5, h2.6, h2.7⟩
    rw [e]
    cases r with
    | none => exact ⟨s', none, rfl, h1, hk, h3, h4, fun l e => by cases e⟩
    | some v =>
      obtain ⟨a, b, c⟩ := h5 v rfl
      refine ⟨s', some (mkLit v (s'.polarity v)), rfl, h1, hk, h3, fun e => (by cases e), ?_⟩
      intro l e
      cases e
      rw [vr_mkLit]
      refine ⟨a, vr_lt.1 (by rw [vr_mkLit]; exact b), ?_⟩
      unfold Core.value
      rw [vr_mkLit]
      have c : s.asg v = none := c
      rw [c]; rfl

/-! ### The final conflict -/

/-- The marks of the loop in `analyze_final`. -/
theorem finalMark_ok (c : Core) (ks : List Nat) : ∀ (f : Nat → Bool) (v : Nat),
    ks.foldl (fun f k => if 0 < c.lv k then upd f (vr k) true else f) f v = true ↔ f v = true ∨ ∃ k ∈ ks, 0 < c.lv k ∧ vr k = v := by
  induction ks with
  | nil => intro f v; simp
  | cons k ks ih =>
    intro f v
    rw [List.foldl_cons, ih]
    constructor
    · rintro (h | ⟨k', hk', h⟩)
      · split at h
        · next h0 =>
          by_cases e : v = vr k
          · exact .inr ⟨k, List.mem_cons_self .., h0, e.symm⟩
          · rw [upd_ne _ _ e] at h; exact .inl h
        · exact .inl h
      · exact .inr ⟨k', List.mem_cons_of_mem _ hk', h⟩
    · rintro (h | ⟨k', hk', h0, e⟩)
      · left
        split
        · unfold upd; split
          · rfl
          · exact h
        · exact h
      · rcases List.mem_cons.1 hk' with rfl | hk'
        · left
          rw [if_pos h0, e, upd_self]
        · exact .inr ⟨k', hk', h0, e⟩

theorem finalLoop_ok {U : List Nat} {c : Core} (h : Inv Φ inc U q c) {A : List Nat} {p : Nat} {t0 : List Nat} (hz : ∀ y ∈ t0, c.lv y = 0) (t : List Nat) :
    ∀ {t1 : List Nat} {f : Nat → Bool} {cf : List Nat}, c.trail = t1 ++ (t ++ t0) → (∀ y ∈ t, 0 < c.lv y) → (∀ y ∈ t, c.reason (vr y) = none → y ∈ A) →
    (∀ l ∈ cf, neg l ∈ A) → (∀ v, f v = true → v ∈ t.map vr ∨ v = vr p) →
    (∀ ρ, Models ρ Φ → (∀ y ∈ t ++ t0, f (vr y) = true → litT ρ y) → clT ρ cf) →
    (∀ v, (finalLoop c t f cf).1 v = true → v = vr p) ∧ Ent Φ (finalLoop c t f cf).2 ∧ (∀ l ∈ (finalLoop c t f cf).2, neg l ∈ A) ∧ ∀ l ∈ cf, l ∈ (finalLoop c t f cf).2 := by
  induction t with
  | nil =>
    intro t1 f cf ht _ _ hcf hf hsem
    refine ⟨fun v hv => ?_, fun ρ hρ => ?_, hcf, fun _ h => h⟩
    · rcases hf v hv with h' | h'
      · simp at h'
      · exact h'
    · refine hsem ρ hρ fun y hy _ => ?_
      have hy : y ∈ t0 := by simpa using hy
      exact (h.zero y (by rw [ht]; simp [hy]) (hz y hy)).lit hρ
  | cons x t ih =>
    intro t1 f cf ht hpos hdec hcf hf hsem
    have ht' : c.trail = (t1 ++ [x]) ++ (t ++ t0) := by rw [ht]; simp
    have hpos' : ∀ y ∈ t, 0 < c.lv y := fun y hy => hpos y (List.mem_cons_of_mem _ hy)
    have hdec' : ∀ y ∈ t, c.reason (vr y) = none → y ∈ A := fun y hy => hdec y (List.mem_cons_of_mem _ hy)
    have hnd : ∀ y ∈ t ++ t0, vr y ≠ vr x := by
      intro y hy e
      have hyT : y ∈ c.trail := by rw [ht']; exact List.mem_append_right _ hy
      have hxT : x ∈ c.trail := by rw [ht]; simp
      have := h.trail_inj hyT hxT e
      subst this
      have := h.nodup
      rw [ht] at this
      have := (List.nodup_append.1 this).2.1
      rw [List.cons_append] at this
      exact (List.nodup_cons.1 this).1 hy
    unfold finalLoop
    by_cases hs : f (vr x) = true
    · rw [if_pos hs]
      cases hr : c.reason (vr x) with
      | none =>
        simp only
        obtain ⟨a, b, c', d⟩ := ih (t1 := t1 ++ [x]) (f := upd f (vr x) false) (cf := cf ++ [neg x]) ht' hpos' hdec'
          (by
            intro l hl
            rcases List.mem_append.1 hl with h' | h'
            · exact hcf l h'
            · rw [List.mem_singleton.1 h', neg_neg]; exact hdec x (List.mem_cons_self ..) hr)
          (by
            intro v hv
            by_cases e : v = vr x
            · subst e; rw [upd_self] at hv; cases hv
            · rw [upd_ne _ _ e] at hv
              rcases hf v hv with h' | h'
              · rcases List.mem_cons.1 h' with h' | h'
                · exact absurd h' e
                · exact .inl h'
              · exact .inr h')
          (by
            intro ρ hρ hy
            by_cases hx : litT ρ x
            · refine (hsem ρ hρ ?_).mono fun l hl => List.mem_append_left _ hl
              intro y hym hfy
              rcases List.mem_cons.1 hym with rfl | hym
              · exact hx
              · exact hy y hym (by rw [upd_ne _ _ (hnd y hym)]; exact hfy)
            · exact ⟨neg x, by simp, litT_neg.2 hx⟩)
        exact ⟨a, b, c', fun l hl => d l (List.mem_append_left _ hl)⟩
      | some id =>
        simp only
        have hxT : x ∈ c.trail := by rw [ht]; simp
        obtain ⟨r, hdata, hneg⟩ := h.rsn t1 x (t ++ t0) id (by rw [ht]; rfl) hr
        have hent := (h.good id (.inr (.inr (.inr ⟨x, hxT, hr⟩)))).1.ent
        rw [hdata] at hent
        rw [hdata, List.tail_cons]
        refine ih (t1 := t1 ++ [x]) ht' hpos' hdec' hcf ?_ ?_
        · intro v hv
          by_cases e : v = vr x
          · subst e; rw [upd_self] at hv; cases hv
          · rw [upd_ne _ _ e, finalMark_ok] at hv
            rcases hv with h' | ⟨k, hk, h0, rfl⟩
            · rcases hf v h' with h' | h'
              · rcases List.mem_cons.1 h' with h' | h'
                · exact absurd h' e
                · exact .inl h'
              · exact .inr h'
            · left
              rcases List.mem_append.1 (hneg k hk) with h' | h'
              · exact List.mem_map.2 ⟨neg k, h', vr_neg k⟩
              · have := hz _ h'
                rw [Inv.lv_neg] at this; omega
        · intro ρ hρ hy
          have hmark : ∀ y ∈ t ++ t0, (r.foldl (fun f k => if 0 < c.lv k then upd f (vr k) true else f) f) (vr y) = true → litT ρ y := fun y hym hf' =>
            hy y hym (by rw [upd_ne _ _ (hnd y hym)]; exact hf')
          refine hsem ρ hρ ?_
          intro y hym hfy
          rcases List.mem_cons.1 hym with rfl | hym
          · obtain ⟨k, hk, hkt⟩ := hent ρ hρ
            rcases List.mem_cons.1 hk with rfl | hk
            · exact hkt
            · exfalso
              have hnk := hneg k hk
              have : litT ρ (neg k) := by
                by_cases h0 : 0 < c.lv k
                · exact hmark _ hnk ((finalMark_ok c r f _).2 (.inr ⟨k, hk, h0, (vr_neg k).symm⟩))
                · exact (h.zero (neg k) (by rw [ht']; exact List.mem_append_right _ hnk) (by rw [Inv.lv_neg]; omega)).lit hρ
              exact litT_neg.1 this hkt
          · exact hmark y hym ((finalMark_ok c r f _).2 (.inl hfy))
    · rw [if_neg hs]
      refine ih (t1 := t1 ++ [x]) ht' hpos' hdec' hcf ?_ ?_
      · intro v hv
        rcases hf v hv with h' | h'
        · rcases List.mem_cons.1 h' with rfl | h'
          · exact absurd hv hs
          · exact .inl h'
        · exact .inr h'
      · intro ρ hρ hy
        refine hsem ρ hρ ?_
        intro y hym hfy
        rcases List.mem_cons.1 hym with rfl | hym
        · exact absurd hfy hs
        · exact hy y hym hfy

/-- The conflict over the assumptions is an implied clause of negated assumptions. -/
theorem analyzeFinal_ok (h : SInv Φ inc q s) {p : Nat} (hp : s.assumptions[s.lim.length]? = some p) (hn : neg p ∈ s.trail) :
    ∃ f cf, analyzeFinal (neg p) s = { s with seen := f, conflict := cf } ∧ (∀ v, f v = false) ∧ cf ≠ [] ∧ Ent Φ cf ∧ ∀ l ∈ cf, neg l ∈ s.assumptions := by
  have hpa : p ∈ s.assumptions := List.mem_of_getElem? hp
  have hlt : s.lim.length < s.assumptions.length := by
    by_contra hc
    rw [List.getElem?_eq_none (by omega)] at hp; cases hp
  unfold analyzeFinal
  split
  · next hz =>
    refine ⟨s.seen, [neg p], rfl, h.seen, by simp, ?_, ?_⟩
    · apply h.inv.zero _ hn
      have := h.inv.lv_le hn
      omega
    · intro l hl
      rw [List.mem_singleton.1 hl, neg_neg]; exact hpa
  · next hz =>
    simp only
    have hL : 0 < s.lim.length := by omega
    obtain ⟨_, _, hc3, hc4, _⟩ := h.inv.twf.cut hL
    have hc3 : ∀ l ∈ s.trail.take (s.trail.length - s.limAt 0), 0 < s.lv l := hc3
    have hc4 : ∀ l ∈ s.trail.drop (s.trail.length - s.limAt 0), s.lv l ≤ 0 := hc4
    obtain ⟨a, b, c, d⟩ := finalLoop_ok h.inv (A := s.assumptions) (p := neg p) (t0 := s.trail.drop (s.trail.length - s.limAt 0))
      (fun y hy => Nat.le_zero.1 (hc4 y hy)) (s.trail.take (s.trail.length - s.limAt 0)) (t1 := []) (f := upd s.seen (vr (neg p)) true) (cf := [neg p])
      (by rw [List.take_append_drop]; rfl) hc3
      (fun y hy hr => h.adec y (List.mem_of_mem_take hy) hr (hc3 y hy) (by
        have := h.inv.lv_le (List.mem_of_mem_take hy)
        omega))
      (fun l hl => by rw [List.mem_singleton.1 hl, neg_neg]; exact hpa)
      (fun v hv => by
        by_cases e : v = vr (neg p)
        · exact .inr e
        · rw [upd_ne _ _ e, h.seen] at hv; cases hv)
      (fun ρ hρ hy => by
        rw [List.take_append_drop] at hy
        exact ⟨neg p, by simp, hy _ hn (upd_self ..)⟩)
    refine ⟨_, _, rfl, fun v => ?_, ?_, b, c⟩
    · by_cases e : v = vr (neg p)
      · rw [e, upd_self]
      · rw [upd_ne _ _ e]
        cases hv : (finalLoop s.toCore (s.trail.take (s.trail.length - s.limAt 0)) (upd s.seen (vr (neg p)) true) [neg p]).1 v
        · rfl
        · exact absurd (a v hv) e
    · exact List.ne_nil_of_mem (d (neg p) (by simp))


/-! ### The search loop -/

/-- Everything is propagated without conflict. -/
def Full (Φ : List (List Nat)) (inc : Bool) (s : St F) : Prop := SInv Φ inc s.qhead s ∧ s.qhead = s.trail.length

/-- The answers of `search`. -/
inductive Ans (Φ : List (List Nat)) (inc : Bool) (s s' : St F) : Option Bool → Prop
  | restart (hf : Full Φ inc s') (hl : s'.lim = []) (hc : s'.conflict = s.conflict) : Ans Φ inc s s' none
  | sat (hf : Full Φ inc s') (hm : Models (valuation s'.toCore) Φ) (ha : ∀ p ∈ s.assumptions, litT (valuation s'.toCore) p) (hc : s'.conflict = s.conflict)
    (hall : ∀ v < s'.nvars, s'.asg v ≠ none) :
    Ans Φ inc s s' (some true)
  | unsat {q : Nat} (hi : SInv Φ inc q s') (hl : s'.lim = []) (hu : ∀ ρ, ¬ Models ρ Φ) (hc : s'.conflict = s.conflict) : Ans Φ inc s s' (some false)
  | fail (hf : Full Φ inc s') (hn : s'.conflict ≠ []) (he : Ent Φ s'.conflict) (ha : ∀ l ∈ s'.conflict, neg l ∈ s.assumptions) : Ans Φ inc s s' (some false)

/-- An answer, and what happened to the clause lists. -/
def AnsG (Φ : List (List Nat)) (inc : Bool) (s s' : St F) (r : Option Bool) : Prop :=
  Ans Φ inc s s' r ∧ Grow inc s { s' with conflict := s.conflict }

theorem AnsG.trans {s1 s' : St F} {r : Option Bool} (g : Grow inc s s1) (h : AnsG Φ inc s1 s' r) : AnsG Φ inc s s' r := by
  have ha : s1.assumptions = s.assumptions := g.keep.assumptions
  have hc : s1.conflict = s.conflict := g.keep.conflict
  refine ⟨?_, ?_⟩
  · cases h.1 with
    | restart hf hl hc' => exact .restart hf hl (hc'.trans hc)
    | sat hf hm ha' hc' hall => exact .sat hf hm (ha ▸ ha') (hc'.trans hc) hall
    | unsat hi hl hu hc' => exact .unsat hi hl hu (hc'.trans hc)
    | fail hf hn he ha' => exact .fail hf hn he (ha ▸ ha')
  · have := g.trans h.2
    rw [hc] at this
    exact this

theorem Grow.noConflict {s' : St F} (g : Grow inc s s') : Grow inc s { s' with conflict := s.conflict } := by
  have : ({ s' with conflict := s.conflict } : St F) = s' := by rw [← g.keep.conflict]
  rw [this]; exact g

/-- What one iteration of the loop gives. -/
def StepOk (Φ : List (List Nat)) (inc : Bool) (s : St F) : Step F → Prop
  | .again s' => SInv Φ inc s'.qhead s' ∧ Grow inc s s'
  | .answer s' r => AnsG Φ inc s s' r
  | .panic => False

theorem StepOk.trans {s1 : St F} {r : Step F} (g : Grow inc s s1) (h : StepOk Φ inc s1 r) : StepOk Φ inc s r := by
  cases r with
  | again s' => exact ⟨h.1, g.trans h.2⟩
  | answer s' r => exact AnsG.trans g h
  | panic => exact h

theorem branch_ok (h : SInv Φ inc s.qhead s) (hq : s.qhead = s.trail.length) (hok : s.ok = true) : StepOk Φ inc s (branch s) := by
  have hA := assumeLoop_ok _ h hq rfl
  unfold branch
  revert hA
  generalize assumeLoop (s.assumptions.length - s.lim.length) s = r
  intro hA
  cases r with
  | fail p s1 =>
    obtain ⟨h1, g1, hq1, hp, hn⟩ := hA
    obtain ⟨f, cf, e, hf, hne, hent, hneg⟩ := analyzeFinal_ok h1 hp hn
    refine StepOk.trans g1 (r := .answer _ _) ?_
    show AnsG Φ inc s1 (analyzeFinal (neg p) s1) (some false)
    rw [e]
    have hs : SInv Φ inc s1.qhead ({ s1 with seen := f, conflict := cf } : St F) :=
      ⟨h1.inv, { h1.heap with }, hf, h1.eqv, h1.uent, h1.cnod, h1.flag, h1.sel, h1.arng, h1.apos, h1.adec⟩
    refine ⟨.fail ⟨hs, hq1⟩ hne hent hneg, ?_⟩
    exact .of_eq ⟨rfl, rfl, rfl, rfl, rfl, rfl, rfl⟩ rfl
  | next p s1 =>
    obtain ⟨h1, g1, hq1, hp, hv⟩ := hA
    have hpr : p < 2 * s1.nvars := h1.arng p (List.mem_of_getElem? hp)
    obtain ⟨h2, g2⟩ := h1.decide hq1 (s' := s1) rfl (.refl _) rfl (h1.heap.pheap _) hv hpr (fun p' hp' => by rw [hp] at hp'; cases hp'; rfl)
    exact ⟨h2, g1.trans g2⟩
  | done s1 =>
    obtain ⟨h1, g1, hq1, hlen⟩ := hA
    obtain ⟨s2, r, e, hc, hk, hsn, hnone, hsome⟩ := pickBranch_ok h1
    simp only
    rw [e]
    cases r with
    | none =>
      obtain ⟨hh, hall⟩ := hnone rfl
      have h2 : SInv Φ inc s1.qhead s2 := h1.congr hc hk hh (by rw [hsn]; exact h1.seen)
      refine AnsG.trans (g1.trans (.of_eq hk hc)) ⟨.sat ⟨by rw [hc]; exact h2, by rw [hc]; exact hq1⟩ ?_ ?_ rfl (by rw [hc]; exact hall), .of_eq ⟨rfl, rfl, rfl, rfl, rfl, rfl, rfl⟩ rfl⟩
      · refine h2.eqv (by rw [hc, g1.ok]; exact hok) _ (fun id hid => ?_) fun x hx _ => h2.inv.valuation hx
        exact h2.inv.complete (by rw [hc]; exact hq1) (by rw [hc]; exact hall) id (List.mem_append_left _ hid)
      · intro p hp
        obtain ⟨i, hi⟩ := List.mem_iff_getElem?.1 hp
        have hlt : i < s2.assumptions.length := (List.getElem?_eq_some_iff.1 hi).1
        exact h2.inv.valuation (h2.apos i p (by rw [hc]; rw [hk.assumptions] at hlt; omega) hi).1
    | some l =>
      obtain ⟨hh, hl, hv⟩ := hsome l rfl
      obtain ⟨h2, g2⟩ := h1.decide hq1 hc hk hsn hh hv hl (fun p hp => by
        have := (List.getElem?_eq_some_iff.1 hp).1
        omega)
      exact ⟨h2, g1.trans g2⟩

theorem cancelZero_ok (h : Full Φ inc s) : ∃ s', cancelUntil 0 s = some s' ∧ Full Φ inc s' ∧ Grow inc s s' ∧ s'.lim = [] ∧
    (∀ v, s'.asg v = none ∨ s'.asg v = s.asg v) := by
  by_cases hz : s.lim = []
  · refine ⟨s, ?_, h, .refl s, hz, fun _ => .inr rfl⟩
    unfold cancelUntil
    rw [hz]; simp
  · have hL : 0 < s.lim.length := List.length_pos_iff.2 hz
    obtain ⟨s', e, hc⟩ := cancelUntil_ok h.1.inv h.1.heap hL
    obtain ⟨h1, g1⟩ := h.1.cancel hL hc
    refine ⟨s', e, ⟨h1, hc.qh⟩, g1, by rw [hc.lim]; simp, fun v => ?_⟩
    cases hv : s'.asg v with
    | none => exact .inl rfl
    | some b =>
      right
      have hmem : mkLit v (!b) ∈ s'.trail := by
        rw [← hc.inv.val]
        unfold Core.value
        rw [vr_mkLit, sgn_mkLit, hv]
        cases b <;> rfl
      have := (h.1.inv.val _).2 (hc.sub _ hmem).1
      unfold Core.value at this
      rw [vr_mkLit, sgn_mkLit] at this
      cases ha : s.asg v with
      | none => rw [ha] at this; cases this
      | some b' => rw [ha] at this; cases b <;> cases b' <;> simp_all

theorem cancelZero_same (h : Full Φ inc s) {s' : St F} (e : cancelUntil 0 s = some s') :
    s'.data = s.data ∧ s'.watches = s.watches ∧ s'.level = s.level ∧ s'.reason = s.reason ∧ s'.clauses = s.clauses ∧ s'.learnts = s.learnts ∧
      s'.units = s.units := by
  by_cases hz : s.lim = []
  · unfold cancelUntil at e
    rw [hz] at e
    simp only [List.length_nil, Nat.lt_irrefl, ↓reduceIte, Option.some.injEq] at e
    subst e
    exact ⟨rfl, rfl, rfl, rfl, rfl, rfl, rfl⟩
  · obtain ⟨s1, e1, hc⟩ := cancelUntil_ok h.1.inv h.1.heap (List.length_pos_iff.2 hz)
    rw [e1] at e
    cases e
    exact ⟨hc.data, hc.watches, hc.level, hc.reason, hc.clauses, hc.learnts, hc.units⟩

theorem noConflict_ok (C : Cfg F) (h : Full Φ C.incremental s) (hok : s.ok = true) (cnt : Bool) : StepOk Φ C.incremental s (noConflict C cnt s) := by
  unfold noConflict
  cases cnt with
  | true =>
    obtain ⟨s', e, h1, g1, hl, _⟩ := cancelZero_ok h
    rw [if_pos rfl, e]
    exact ⟨.restart h1 hl g1.keep.conflict, g1.noConflict⟩
  | false =>
    rw [if_neg (by simp)]
    cases hi : C.incremental with
    | true => rw [if_pos rfl]; rw [hi] at h; exact branch_ok h.1 h.2 hok
    | false =>
      rw [if_neg (by simp)]
      rw [hi] at h
      have hsimp : ∃ s1, (if s.lim.length = 0 then simplify C s else some (s, true)) = some (s1, true) ∧ Full Φ false s1 ∧ Grow false s s1 := by
        split
        · next hz =>
          obtain ⟨s1, e, h1, g1, _, hq1⟩ := simplify_ok C h.1 h.2 (List.length_eq_zero_iff.1 hz) hok
          exact ⟨s1, e, ⟨h1, hq1⟩, g1⟩
        · exact ⟨s, rfl, h, .refl s⟩
      obtain ⟨s1, e1, h1, g1⟩ := hsimp
      rw [e1]
      simp only
      have hok1 : s1.ok = true := by rw [g1.ok]; exact hok
      split
      · obtain ⟨s2, e2, h2, g2, ht2, hl2, hq2⟩ := reduceDb_ok C h1.1
        rw [e2]
        refine StepOk.trans (g1.trans g2) (branch_ok (by rw [hq2]; exact h2) (by rw [hq2, ht2]; exact h1.2) (by rw [g2.ok]; exact hok1))
      · exact StepOk.trans g1 (branch_ok h1.1 h1.2 hok1)

/-- `search` never panics; its answers are right. -/
theorem searchLoop_ok (C : Cfg F) (hm : C.clauseMin ≠ .none) (fuel : Nat) : ∀ (n : Nat) {s : St F}, SInv Φ C.incremental s.qhead s → s.ok = true →
    match searchLoop C fuel n s with
    | .panic => False
    | .diverge => True
    | .ok (s', r) => AnsG Φ C.incremental s s' r := by
  induction fuel with
  | zero => intro n s _ _; trivial
  | succ fuel ih =>
    intro n s h hok
    unfold searchLoop
    obtain ⟨⟨s1, o⟩, e, hp⟩ := prop_ok h.inv h.heap
    rw [e]
    have hgo : ∀ {s2 : St F} (n : Nat), SInv Φ C.incremental s2.qhead s2 → Grow C.incremental s s2 →
        match searchLoop C fuel n s2 with
        | .panic => False
        | .diverge => True
        | .ok (s', r) => AnsG Φ C.incremental s s' r := by
      intro s2 n h2 g2
      have := ih n h2 (by rw [g2.ok]; exact hok)
      revert this
      generalize searchLoop C fuel n s2 = r
      intro this
      cases r with
      | ok a => exact AnsG.trans g2 this
      | panic => exact this
      | diverge => trivial
    cases o with
    | some id =>
      obtain ⟨hcon, q, hi⟩ := hp.confl id rfl
      obtain ⟨h1, g1⟩ := h.frame hp.keep hp.frame hp.heap hp.seen hi
      simp only
      by_cases hz : s1.lim.length = 0
      · rw [if_pos hz]
        have hz := List.length_eq_zero_iff.1 hz
        exact ⟨.unsat h1 hz (h1.inv.unsat hz hcon) g1.keep.conflict, g1.noConflict⟩
      · rw [if_neg hz]
        obtain ⟨s2, e2, h2, g2⟩ := learn_ok C hm (s := s1) h1 (fun e => hz (by rw [e]; rfl)) hcon
        rw [e2]
        exact hgo _ h2 (g1.trans g2)
    | none =>
      obtain ⟨hq, hi⟩ := hp.inv rfl
      obtain ⟨h1, g1⟩ := h.frame hp.keep hp.frame hp.heap hp.seen hi
      simp only
      have hs := noConflict_ok C (s := s1) ⟨h1, hq⟩ (by rw [g1.ok]; exact hok) (n == 0)
      revert hs
      generalize noConflict C (n == 0) s1 = r
      intro hs
      cases r with
      | panic => exact hs
      | answer s' r => exact AnsG.trans g1 hs
      | again s' => exact hgo _ hs.1 (g1.trans hs.2)

theorem search_ok (C : Cfg F) (hm : C.clauseMin ≠ .none) (fuel n : Nat) (h : SInv Φ C.incremental s.qhead s) (hok : s.ok = true) :
    match search C fuel n s with
    | .panic => False
    | .diverge => True
    | .ok (s', r) => AnsG Φ C.incremental s s' r := by
  unfold search
  rw [if_neg (by rw [hok]; simp)]
  have g : Grow C.incremental s { s with selIdx := 0 } := .of_eq ⟨rfl, rfl, rfl, rfl, rfl, rfl, rfl⟩ rfl
  have := searchLoop_ok C hm fuel n (s := { s with selIdx := 0 }) (h.congr rfl ⟨rfl, rfl, rfl, rfl, rfl, rfl, rfl⟩ { h.heap with } h.seen) hok
  revert this
  generalize searchLoop C fuel n { s with selIdx := 0 } = r
  intro this
  cases r with
  | ok a => exact AnsG.trans g this
  | panic => exact this
  | diverge => trivial

theorem restartLoop_ok (C : Cfg F) (hm : C.clauseMin ≠ .none) (fuel0 fuel : Nat) : ∀ (k : Nat) {s : St F}, SInv Φ C.incremental s.qhead s → s.ok = true →
    match restartLoop C fuel0 fuel k s with
    | .panic => False
    | .diverge => True
    | .ok (s', b) => AnsG Φ C.incremental s s' (some b) := by
  induction fuel with
  | zero => intro k s _ _; trivial
  | succ fuel ih =>
    intro k s h hok
    unfold restartLoop
    obtain ⟨e, he, _⟩ := lubyExp_ok k
    rw [he]
    simp only
    have hs := search_ok C hm fuel0 (Flt.toNat (Flt.mul (Flt.pow C.restartInc e) (Flt.ofInt C.restartFirst))) h hok
    revert hs
    generalize search C fuel0 (Flt.toNat (Flt.mul (Flt.pow C.restartInc e) (Flt.ofInt C.restartFirst))) s = r
    intro hs
    cases r with
    | panic => exact hs
    | diverge => trivial
    | ok a =>
      obtain ⟨s1, o⟩ := a
      cases o with
      | some b => exact hs
      | none =>
        have hs : AnsG Φ C.incremental s s1 none := hs
        obtain ⟨ha, hg⟩ := hs
        cases ha with
        | restart hf hl hc =>
          have g : Grow C.incremental s s1 := by
            rw [← hc] at hg
            exact hg
          have := ih (k + 1) hf.1 (by rw [g.ok]; exact hok)
          revert this
          show (match restartLoop C fuel0 fuel (k + 1) s1 with | .panic => False | .diverge => True | .ok (s', b) => AnsG Φ C.incremental s1 s' (some b)) →
            (match restartLoop C fuel0 fuel (k + 1) s1 with | .panic => False | .diverge => True | .ok (s', b) => AnsG Φ C.incremental s s' (some b))
          generalize restartLoop C fuel0 fuel (k + 1) s1 = r
          intro this
          cases r with
          | ok a => exact AnsG.trans g this
          | panic => exact this
          | diverge => trivial

end
end Verif.Sat
