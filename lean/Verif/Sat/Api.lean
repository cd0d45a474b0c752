import Verif.Sat.Search
/-
The operations of the solver between searches: new variables, added clauses, solving.
-/
namespace Verif.Sat
open Core

/-- The solver between two calls: no decisions, and either everything is propagated or the clauses have no model. -/
structure Ready {F : Type} (Φ : List (List Nat)) (inc : Bool) (s : St F) : Prop where
  inv : ∃ q, SInv Φ inc q s
  lim : s.lim = []
  full : s.ok = true → Full Φ inc s
  bad : s.ok = false → ∀ ρ, ¬ Models ρ Φ
  rep : inc = true → RInv s.toCore
  base : inc = true → s.ok = true → ∀ ρ, (∀ id ∈ s.clauses, clT ρ (s.data id)) → (∀ u ∈ s.units, litT ρ u) → Models ρ Φ

/-- What calls between save and load do to the clause lists. -/
structure Ext {F : Type} (s s' : St F) : Prop where
  nvars : s.nvars ≤ s'.nvars
  next : s.next ≤ s'.next
  clauses : ∃ r, s'.clauses = s.clauses ++ r ∧ ∀ id ∈ r, s.next ≤ id
  learnts : ∃ r, s'.learnts = s.learnts ++ r ∧ ∀ id ∈ r, s.next ≤ id
  units : ∃ r, s'.units = s.units ++ r
  perm : ∀ i < s.next, (s'.data i).Perm (s.data i)
  flag : ∀ i < s.next, s'.learnt i = s.learnt i

namespace Ext
variable {F : Type} {s s' s'' : St F}

theorem refl (s : St F) : Ext s s := ⟨Nat.le_refl _, Nat.le_refl _, ⟨[], by simp, by simp⟩, ⟨[], by simp, by simp⟩, ⟨[], by simp⟩, fun _ _ => .refl _, fun _ _ => rfl⟩

theorem trans (h : Ext s s') (h' : Ext s' s'') : Ext s s'' where
  nvars := Nat.le_trans h.nvars h'.nvars
  next := Nat.le_trans h.next h'.next
  clauses := by
    obtain ⟨r, e, hr⟩ := h.clauses
    obtain ⟨r', e', hr'⟩ := h'.clauses
    refine ⟨r ++ r', by rw [e', e, List.append_assoc], fun id hid => ?_⟩
    rcases List.mem_append.1 hid with h1 | h1
    · exact hr id h1
    · exact Nat.le_trans h.next (hr' id h1)
  learnts := by
    obtain ⟨r, e, hr⟩ := h.learnts
    obtain ⟨r', e', hr'⟩ := h'.learnts
    refine ⟨r ++ r', by rw [e', e, List.append_assoc], fun id hid => ?_⟩
    rcases List.mem_append.1 hid with h1 | h1
    · exact hr id h1
    · exact Nat.le_trans h.next (hr' id h1)
  units := by
    obtain ⟨r, e⟩ := h.units
    obtain ⟨r', e'⟩ := h'.units
    exact ⟨r ++ r', by rw [e', e, List.append_assoc]⟩
  perm i hn := (h'.perm i (Nat.lt_of_lt_of_le hn h.next)).trans (h.perm i hn)
  flag i hn := (h'.flag i (Nat.lt_of_lt_of_le hn h.next)).trans (h.flag i hn)

theorem of_core (h : s'.toCore = s.toCore) : Ext s s' := by
  refine ⟨?_, ?_, ⟨[], ?_, by simp⟩, ⟨[], ?_, by simp⟩, ⟨[], ?_⟩, ?_, fun _ _ => ?_⟩ <;> rw [h] <;> simp

end Ext

theorem Grow.ext {F : Type} {s s' : St F} (h : Grow true s s') : Ext s s' where
  nvars := Nat.le_of_eq h.nvars.symm
  next := h.next
  clauses := ⟨[], by rw [h.clauses rfl]; simp, by simp⟩
  learnts := h.learnts rfl
  units := h.units
  perm := h.perm rfl
  flag := h.flag rfl

section
variable {F : Type} [LinearOrder F] [Flt F] {Φ : List (List Nat)} {inc : Bool} {q : Nat} {s : St F}
open St

theorem Inv.asg_ge {U : List Nat} {c : Core} (h : Inv Φ inc U q c) {v : Nat} (hv : c.nvars ≤ v) : c.asg v = none := by
  by_contra hne
  obtain ⟨b, hb⟩ := Option.ne_none_iff_exists'.1 hne
  have hm : mkLit v (!b) ∈ c.trail := by
    rw [← h.val]
    unfold Core.value
    rw [vr_mkLit, sgn_mkLit, hb]
    cases b <;> rfl
  have := vr_lt.2 (h.rng _ hm)
  rw [vr_mkLit] at this
  omega

theorem Inv.watch_ge {U : List Nat} {c : Core} (h : Inv Φ inc U q c) {l : Nat} (hv : 2 * c.nvars ≤ l) : c.watches l = [] := by
  apply List.eq_nil_iff_forall_not_mem.2
  intro w hw
  obtain ⟨c0, c1, r, e, ho⟩ := h.w1 l w hw
  have hg := (h.good w.1 (.inr (.inr (.inl ⟨l, w, hw, rfl⟩)))).1
  rw [e] at hg
  have : neg l < 2 * c.nvars := by
    rcases ho with h' | h'
    · rw [h']; exact hg.rng _ (by simp)
    · rw [h']; exact hg.rng _ (by simp)
  have := neg_lt.1 this
  omega

theorem SInv.mono (h : SInv Φ inc q s) {Ψ : List (List Nat)} (hsub : ∀ c ∈ Φ, c ∈ Ψ) (he : s.ok = true → ∀ ρ, Models ρ Φ → (∀ x ∈ s.trail, s.lv x = 0 → litT ρ x) → Models ρ Ψ) :
    SInv Ψ inc q s :=
  { h with
    inv := h.inv.mono_Φ hsub
    eqv := fun ho ρ h1 h2 => he ho ρ (h.eqv ho ρ h1 h2) h2
    uent := fun u hu => (h.uent u hu).mono hsub }

theorem Ready.lv (h : Ready Φ inc s) {x : Nat} (hx : x ∈ s.trail) : s.lv x = 0 := by
  obtain ⟨q, hi⟩ := h.inv
  have := hi.inv.lv_le hx
  rw [h.lim] at this
  simpa using this

/-! ### New variables -/

theorem Inv.newVar {U : List Nat} {c : Core} (h : Inv Φ inc U q c) :
    Inv Φ inc U q { c with
      nvars := c.nvars + 1
      asg := upd c.asg c.nvars none
      level := upd c.level c.nvars none
      reason := upd c.reason c.nvars none
      watches := upd (upd c.watches (2 * c.nvars) []) (2 * c.nvars + 1) [] } := by
  have hasg : upd c.asg c.nvars none = c.asg := by
    funext v; unfold upd; split
    · next e => rw [e, h.asg_ge (Nat.le_refl _)]
    · rfl
  have hw : upd (upd c.watches (2 * c.nvars) []) (2 * c.nvars + 1) [] = c.watches := by
    funext l; unfold upd; split
    · next e => rw [e, h.watch_ge (by omega)]
    · split
      · next e => rw [e, h.watch_ge (by omega)]
      · rfl
  have hne : ∀ x ∈ c.trail, vr x ≠ c.nvars := fun x hx => Nat.ne_of_lt (vr_lt.2 (h.rng x hx))
  have hlv : ∀ x ∈ c.trail, upd c.level c.nvars none (vr x) = c.level (vr x) := fun x hx => upd_ne _ _ (hne x hx)
  have hrs : ∀ x ∈ c.trail, upd c.reason c.nvars none (vr x) = c.reason (vr x) := fun x hx => upd_ne _ _ (hne x hx)
  rw [hasg, hw]
  have hlv' : ∀ x, x ∈ c.trail ∨ neg x ∈ c.trail → ({ c with
      nvars := c.nvars + 1
      level := upd c.level c.nvars none
      reason := upd c.reason c.nvars none } : Core).lv x = c.lv x := by
    intro x hx
    show (upd c.level c.nvars none (vr x)).getD 0 = (c.level (vr x)).getD 0
    rcases hx with hx | hx
    · rw [hlv x hx]
    · have := hlv _ hx
      rw [vr_neg] at this
      rw [this]
  exact
  { twf := h.twf.congr fun x hx => hlv x hx
    val := h.val
    nodup := h.nodup
    rng := fun x hx => by have := h.rng x hx; show x < 2 * (c.nvars + 1); omega
    rsn := fun t1 x t2 id ht hr => h.rsn t1 x t2 id ht (by
      rw [← hrs x (by rw [show c.trail = t1 ++ x :: t2 from ht]; simp)]; exact hr)
    dec := fun t1 x t2 ht hr => by
      have hx : x ∈ c.trail := by rw [show c.trail = t1 ++ x :: t2 from ht]; simp
      rw [hlv' x (.inl hx)]
      exact h.dec t1 x t2 ht (by rw [← hrs x hx]; exact hr)
    limq := h.limq
    qle := h.qle
    good := fun id hid => by
      have hlive : c.Live id := by
        rcases hid with h' | h' | h' | ⟨x, hx, e⟩
        · exact .inl h'
        · exact .inr (.inl h')
        · exact .inr (.inr (.inl h'))
        · exact .inr (.inr (.inr ⟨x, hx, by rw [← hrs x hx]; exact e⟩))
      obtain ⟨g, hn⟩ := h.good id hlive
      exact ⟨{ g with rng := fun l hl => by have := g.rng l hl; show l < 2 * (c.nvars + 1); omega }, hn⟩
    w1 := h.w1
    w2 := h.w2
    blk := fun l w hw => (h.blk l w hw).imp (fun h => h) fun ⟨a, b, d⟩ => ⟨a, b, by rw [hlv' _ (.inr b)]; exact d⟩
    mutual_ := h.mutual_
    valid := fun l hl w hw => by
      obtain ⟨t, ht, htt, hle⟩ := h.valid l hl w hw
      exact ⟨t, ht, htt, by rw [hlv' _ (.inl htt), hlv' _ (.inl (List.mem_of_mem_drop hl))]; exact hle.1, hle.2⟩
    cov := fun id hid => (h.cov id hid).imp (fun ⟨a, t, ht, htt, d⟩ => ⟨a, t, ht, htt, by rw [hlv' _ (.inl htt)]; exact d⟩) (fun h => h)
    zero := fun x hx h0 => h.zero x hx (by rw [← hlv' x (.inl hx)]; exact h0)
    incw := h.incw
    incr := fun hi x hx id hr => h.incr hi x hx id (by rw [← hrs x hx]; exact hr)
    incu := fun hi x hx h0 hr => h.incu hi x hx (by rw [← hlv' x (.inl hx)]; exact h0) (by rw [← hrs x hx]; exact hr) }

/-- `new_var` succeeds and keeps the invariant. -/
theorem newVar_ok (h : Ready Φ inc s) (sign : Bool) : ∃ s', newVar sign true s = some s' ∧ Ready Φ inc s' ∧ Ext s s' ∧ s'.nvars = s.nvars + 1 ∧ s'.ok = s.ok ∧
    s'.assumptions = s.assumptions ∧ s'.sel = s.sel ∧ s'.trail = s.trail := by
  unfold newVar
  simp only
  obtain ⟨q, hi⟩ := h.inv
  obtain ⟨s1, hs1⟩ : ∃ s1 : St F, s1 = { s with
    nvars := s.nvars + 1
    asg := upd s.asg s.nvars none
    level := upd s.level s.nvars none
    reason := upd s.reason s.nvars none
    polarity := upd s.polarity s.nvars sign
    decision := upd s.decision s.nvars true
    act := upd s.act s.nvars (Flt.ofInt 0)
    watches := upd (upd s.watches (2 * s.nvars) []) (2 * s.nvars + 1) [] } := ⟨_, rfl⟩
  rw [← hs1]
  have hX : HInvX s1 s.nvars := by
    rw [hs1]
    exact
    { cons := hi.heap.cons
      rng := fun v hv => Nat.lt_succ_of_lt (hi.heap.rng v hv)
      dec := fun v hv => by
        show upd s.decision s.nvars true v = true
        unfold upd; split
        · rfl
        · next hne => exact hi.heap.dec v (by have hv : v < s.nvars + 1 := hv; omega)
      mem := fun w hw hne ha => by
        have ha : upd s.asg s.nvars none w = none := ha
        rw [upd_ne _ _ hne] at ha
        exact hi.heap.mem w (by have hw : w < s.nvars + 1 := hw; omega) ha
      len := fun w hw hne => by
        have := hi.heap.len
        have hw : w < s.nvars + 1 := hw
        show w < s.heap.idx.length
        omega }
  obtain ⟨s2, e2, hc2, hk2, hsn2, _, hh2⟩ := insertVarOrder_ok hX (by rw [hs1]; exact Nat.lt_succ_self _)
  have hlv : ∀ x ∈ s.trail, s2.lv x = s.lv x := fun x hx => by
    rw [hc2, hs1]
    show (upd s.level s.nvars none (vr x)).getD 0 = _
    rw [upd_ne _ _ (Nat.ne_of_lt (vr_lt.2 (hi.inv.rng x hx)))]; rfl
  have ht2 : s2.trail = s.trail := by rw [hc2, hs1]
  have hn2 : s2.nvars = s.nvars + 1 := by rw [hc2, hs1]
  have ha2 : s2.assumptions = s.assumptions := by rw [hk2.assumptions, hs1]
  have hsel2 : s2.sel = s.sel := by rw [hk2.sel, hs1]
  have key : ∀ {q : Nat}, SInv Φ inc q s → SInv Φ inc q s2 := by
    intro q hi
    exact
    { inv := by
        have := hi.inv.newVar
        rw [hc2, hs1]; exact this
      heap := hh2
      seen := by rw [hsn2, hs1]; exact hi.seen
      eqv := fun ho ρ h1 h2 => hi.eqv (by rw [hc2, hs1] at ho; exact ho) ρ (by rw [hc2, hs1] at h1; exact h1) fun x hx h0 =>
        h2 x (by rw [ht2]; exact hx) (by rw [hlv x hx]; exact h0)
      uent := by rw [hc2, hs1]; exact hi.uent
      cnod := by rw [hc2, hs1]; exact hi.cnod
      flag := by rw [hc2, hs1]; exact hi.flag
      sel := by rw [hsel2, hn2]; exact fun l hl => by have := hi.sel l hl; omega
      arng := by rw [ha2, hn2]; exact fun l hl => by have := hi.arng l hl; omega
      apos := fun i p hlt _ => by rw [hc2, hs1] at hlt; rw [show ({ s with
    nvars := s.nvars + 1
    asg := upd s.asg s.nvars none
    level := upd s.level s.nvars none
    reason := upd s.reason s.nvars none
    polarity := upd s.polarity s.nvars sign
    decision := upd s.decision s.nvars true
    act := upd s.act s.nvars (Flt.ofInt 0)
    watches := upd (upd s.watches (2 * s.nvars) []) (2 * s.nvars + 1) [] } : St F).lim = [] from h.lim] at hlt; simp at hlt
      adec := fun x hx _ h0 _ => by
        rw [ht2] at hx
        rw [hlv x hx, h.lv hx] at h0
        omega }
  refine ⟨s2, e2, ⟨⟨q, key hi⟩, ?_, fun ho => ?_, fun ho => h.bad ?_, fun hinc => ?_, fun hinc => ?_⟩, ?_, hn2, ?_, ha2, hsel2, ht2⟩
  · rw [hc2, hs1]; exact h.lim
  · have hf := h.full (by rw [hc2, hs1] at ho; exact ho)
    have hqh : s2.qhead = s.qhead := by rw [hc2, hs1]
    exact ⟨by rw [hqh]; exact key hf.1, by rw [hqh, ht2]; exact hf.2⟩
  · rw [hc2, hs1] at ho; exact ho
  · refine (h.rep hinc).mono (by rw [hc2, hs1]) (by rw [hc2, hs1]; exact fun h => h) (by rw [hc2, hs1]; exact fun _ h => h) (by rw [hc2, hs1]; exact fun _ h => h) (fun id _ => by rw [hc2, hs1]) fun x hx h0 => ?_
    exact ⟨by rw [ht2]; exact hx, by rw [hlv x hx]; exact h0⟩
  · rw [hc2, hs1]; exact h.base hinc
  · refine ⟨by omega, ?_, ⟨[], ?_, by simp⟩, ⟨[], ?_, by simp⟩, ⟨[], ?_⟩, ?_, ?_⟩ <;> rw [hc2, hs1] <;> simp
  · rw [hc2, hs1]

/-! ### Added clauses -/

theorem mem_ins {x y : Nat} {l : List Nat} : y ∈ ins x l ↔ y = x ∨ y ∈ l := by
  induction l with
  | nil => simp [ins]
  | cons a l ih =>
    unfold ins
    split
    · simp
    · simp only [List.mem_cons, ih]
      constructor
      · rintro (h | h | h)
        · exact .inr (.inl h)
        · exact .inl h
        · exact .inr (.inr h)
      · rintro (h | h | h)
        · exact .inr (.inl h)
        · exact .inl h
        · exact .inr (.inr h)

theorem mem_isort {y : Nat} {l : List Nat} : y ∈ isort l ↔ y ∈ l := by
  induction l with
  | nil => simp [isort]
  | cons a l ih => unfold isort; rw [mem_ins, ih, List.mem_cons]

theorem ins_sorted {x : Nat} {l : List Nat} (h : l.Pairwise (· ≤ ·)) : (ins x l).Pairwise (· ≤ ·) := by
  induction l with
  | nil => simp [ins]
  | cons a l ih =>
    unfold ins
    split
    · next hle =>
      refine List.pairwise_cons.2 ⟨fun y hy => ?_, h⟩
      rcases List.mem_cons.1 hy with rfl | hy
      · exact hle
      · exact Nat.le_trans hle ((List.pairwise_cons.1 h).1 y hy)
    · next hle =>
      refine List.pairwise_cons.2 ⟨fun y hy => ?_, ih (List.pairwise_cons.1 h).2⟩
      rcases mem_ins.1 hy with rfl | hy
      · omega
      · exact (List.pairwise_cons.1 h).1 y hy

theorem isort_sorted (l : List Nat) : (isort l).Pairwise (· ≤ ·) := by
  induction l with
  | nil => simp [isort]
  | cons a l ih => exact ins_sorted ih

theorem addFilter_none {c : Core} (ps : List Nat) : ∀ {p : Option Nat}, addFilter c ps p = none →
    (∃ e ∈ ps, c.value e = some true) ∨ ∃ e ∈ ps, neg e ∈ ps ∨ p = some (neg e) := by
  induction ps with
  | nil => intro p e; cases e
  | cons a ps ih =>
    intro p e
    unfold addFilter at e
    have lift : ∀ {p' : Option Nat}, (∃ e ∈ ps, c.value e = some true) ∨ (∃ e ∈ ps, neg e ∈ ps ∨ p' = some (neg e)) → (∀ x, p' = some x → p = some x ∨ x = a) →
        (∃ e ∈ a :: ps, c.value e = some true) ∨ ∃ e ∈ a :: ps, neg e ∈ a :: ps ∨ p = some (neg e) := by
      rintro p' (⟨e, he, hv⟩ | ⟨e, he, hv⟩) hp
      · exact .inl ⟨e, List.mem_cons_of_mem _ he, hv⟩
      · right
        refine ⟨e, List.mem_cons_of_mem _ he, ?_⟩
        rcases hv with h' | h'
        · exact .inl (List.mem_cons_of_mem _ h')
        · rcases hp _ h' with h'' | h''
          · exact .inr h''
          · rw [h'']; exact .inl (List.mem_cons_self ..)
    split at e
    · next hc =>
      rcases hc with hv | hv
      · exact .inl ⟨a, List.mem_cons_self .., hv⟩
      · exact .inr ⟨a, List.mem_cons_self .., .inr hv⟩
    · split at e
      · exact lift (ih (Option.map_eq_none_iff.1 e)) fun x ex => by cases ex; exact .inr rfl
      · exact lift (ih e) fun x ex => .inl ex

theorem addFilter_some {c : Core} (ps : List Nat) : ∀ {p : Option Nat} {qs : List Nat}, ps.Pairwise (· ≤ ·) → (∀ x, p = some x → ∀ e ∈ ps, x ≤ e) →
    addFilter c ps p = some qs → (∀ e ∈ qs, e ∈ ps ∧ c.value e = none) ∧ (∀ e ∈ ps, e ∈ qs ∨ c.value e = some false ∨ p = some e) ∧ qs.Pairwise (· < ·) ∧
      ∀ x, p = some x → ∀ e ∈ qs, x < e := by
  induction ps with
  | nil => intro p qs _ _ e; cases e; exact ⟨by simp, by simp, by simp, by simp⟩
  | cons a ps ih =>
    intro p qs hs hp e
    obtain ⟨hs1, hs2⟩ := List.pairwise_cons.1 hs
    unfold addFilter at e
    split at e
    · cases e
    · next hc =>
      split at e
      · next hk =>
        obtain ⟨qs', e', rfl⟩ := Option.map_eq_some_iff.1 e
        obtain ⟨h1, h2, h3, h4⟩ := ih hs2 (fun x ex b hb => by cases ex; exact hs1 b hb) e'
        refine ⟨?_, ?_, List.pairwise_cons.2 ⟨fun b hb => h4 a rfl b hb, h3⟩, ?_⟩
        · intro b hb
          rcases List.mem_cons.1 hb with rfl | hb
          · refine ⟨List.mem_cons_self .., ?_⟩
            cases hv : c.value b with
            | none => rfl
            | some v => cases v
                        · exact absurd hv hk.1
                        · exact absurd (.inl hv) hc
          · exact ⟨List.mem_cons_of_mem _ (h1 b hb).1, (h1 b hb).2⟩
        · intro b hb
          rcases List.mem_cons.1 hb with rfl | hb
          · exact .inl (List.mem_cons_self ..)
          · rcases h2 b hb with h' | h' | h'
            · exact .inl (List.mem_cons_of_mem _ h')
            · exact .inr (.inl h')
            · cases h'; exact .inl (List.mem_cons_self ..)
        · intro x ex b hb
          have hxa : x < a := by
            have h5 := hp x ex a (List.mem_cons_self ..)
            have h6 : x ≠ a := fun e => hk.2 (e ▸ ex)
            omega
          rcases List.mem_cons.1 hb with rfl | hb
          · exact hxa
          · have := h4 a rfl b hb; omega
      · next hk =>
        obtain ⟨h1, h2, h3, h4⟩ := ih hs2 (fun x ex b hb => hp x ex b (List.mem_cons_of_mem _ hb)) e
        refine ⟨fun b hb => ⟨List.mem_cons_of_mem _ (h1 b hb).1, (h1 b hb).2⟩, ?_, h3, h4⟩
        intro b hb
        rcases List.mem_cons.1 hb with rfl | hb
        · by_cases hv : c.value b = some false
          · exact .inr (.inl hv)
          · right; right
            by_contra hne
            exact hk ⟨hv, hne⟩
        · exact h2 b hb

/-- The invariant does not look at the proof log and the statistics. -/
theorem SInv.of_eq {s' : St F} (h : SInv Φ inc q s) (hc : s'.toCore = s.toCore) (hh : s'.heap = s.heap) (hd : s'.decision = s.decision) (hs : s'.seen = s.seen)
    (hsel : s'.sel = s.sel) (ha : s'.assumptions = s.assumptions) : SInv Φ inc q s' where
  inv := by rw [hc]; exact h.inv
  heap := h.heap.congr (by rw [hc]) hh hd (fun v _ hv => by rw [hc] at hv; exact hv)
  seen := by rw [hs]; exact h.seen
  eqv := by rw [hc]; exact h.eqv
  uent := by rw [hc]; exact h.uent
  cnod := by rw [hc]; exact h.cnod
  flag := by rw [hc]; exact h.flag
  sel := by rw [hc, hsel]; exact h.sel
  arng := by rw [hc, ha]; exact h.arng
  apos := by rw [hc, ha]; exact h.apos
  adec := by rw [hc, ha]; exact h.adec

theorem Ready.of_eq {s' : St F} (h : Ready Φ inc s) (hc : s'.toCore = s.toCore) (hh : s'.heap = s.heap) (hd : s'.decision = s.decision) (hs : s'.seen = s.seen)
    (hsel : s'.sel = s.sel) (ha : s'.assumptions = s.assumptions) : Ready Φ inc s' where
  inv := h.inv.imp fun _ hi => hi.of_eq hc hh hd hs hsel ha
  lim := by rw [hc]; exact h.lim
  full ho := by
    have hf := h.full (by rw [hc] at ho; exact ho)
    exact ⟨by rw [show s'.qhead = s.qhead by rw [hc]]; exact hf.1.of_eq hc hh hd hs hsel ha, by rw [hc]; exact hf.2⟩
  bad ho := h.bad (by rw [hc] at ho; exact ho)
  rep hinc := by rw [hc]; exact h.rep hinc
  base hinc := by rw [hc]; exact h.base hinc

/-- The fields an added clause leaves alone. -/
structure Same {F : Type} (s s' : St F) : Prop where
  nvars : s'.nvars = s.nvars
  decision : s'.decision = s.decision
  assumptions : s'.assumptions = s.assumptions
  conflict : s'.conflict = s.conflict
  sel : s'.sel = s.sel
  bb : s'.bb = s.bb
  model : s'.model = s.model

theorem Keep.same {s' : St F} (h : Keep s s') (hn : s'.nvars = s.nvars) : Same s s' := ⟨hn, h.decision, h.assumptions, h.conflict, h.sel, h.bb, h.model⟩

theorem Same.trans {s' s'' : St F} (h : Same s s') (h' : Same s' s'') : Same s s'' :=
  ⟨h'.nvars.trans h.nvars, h'.decision.trans h.decision, h'.assumptions.trans h.assumptions, h'.conflict.trans h.conflict, h'.sel.trans h.sel, h'.bb.trans h.bb,
    h'.model.trans h.model⟩

/-- Adding a unit clause: enqueue, propagate, and remember the literal. -/
theorem addUnit_ok (C : Cfg F) (h : Ready Φ C.incremental s) (hok : s.ok = true) {l : Nat} {Ψ : List (List Nat)} (hv : s.value l = none) (hl : l < 2 * s.nvars)
    (hsub : ∀ c ∈ Φ, c ∈ Ψ) (hent : Ent Ψ [l])
    (he : ∀ ρ, Models ρ Φ → (∀ x ∈ s.trail, litT ρ x) → litT ρ l → Models ρ Ψ) :
    ∃ s' b, addRest C [l] s = some (s', b) ∧ Ready Ψ C.incremental s' ∧ Ext s s' ∧ b = s'.ok ∧ Same s s' ∧ s'.clauses = s.clauses := by
  have hf := h.full hok
  have hi := hf.1.inv
  have hl1 : l ∉ s.trail := fun hm => by rw [(hi.val l).2 hm] at hv; cases hv
  have hl2 : neg l ∉ s.trail := fun hm => by rw [(hi.val_false l).2 hm] at hv; cases hv
  unfold addRest
  simp only
  obtain ⟨U, hU⟩ : ∃ U, U = if C.incremental = true then s.units ++ [l] else s.units := ⟨_, rfl⟩
  have hUsub : ∀ u ∈ s.units, u ∈ U := fun u hu => by rw [hU]; split <;> simp [hu]
  have henq : Inv Ψ C.incremental U s.qhead (s.toCore.enqueue l none) := by
    refine ((hi.mono_Φ hsub).mono_U hUsub).enqueue hl1 hl2 hl (fun id e => by cases e) (fun _ => .inl ⟨h.lim, fun hinc => ?_⟩) (fun _ => hent)
    rw [hU, if_pos hinc]; simp
  have hheap : HInv ({ s with toCore := s.toCore.enqueue l none } : St F) := hf.1.heap.congr rfl rfl rfl (fun v _ hv => by
    have hv : upd s.asg (vr l) (some (!sgn l)) v = none := hv
    by_cases e : v = vr l
    · subst e; rw [upd_self] at hv; cases hv
    · rwa [upd_ne _ _ e] at hv)
  obtain ⟨⟨s1, confl⟩, e1, hx⟩ := prop_ok (s := { s with toCore := s.toCore.enqueue l none }) henq hheap
  rw [e1]
  simp only
  have hfr := hx.frame
  have hkp := hx.keep
  have hseen : s1.seen = s.seen := hx.seen
  have hlim1 : s1.lim = [] := hfr.lim.trans h.lim
  have hcl : s1.clauses = s.clauses := hfr.clauses
  have hle : s1.learnts = s.learnts := hfr.learnts
  have hun : s1.units = s.units := hfr.units
  have hnv : s1.nvars = s.nvars := hfr.nvars
  have hln : s1.learnt = s.learnt := hfr.learnt
  have hperm : ∀ i, (s1.data i).Perm (s.data i) := hfr.perm
  have hmem : ∀ x, x = l ∨ x ∈ s.trail → x ∈ s1.trail := by
    obtain ⟨n, en⟩ := hfr.ext
    have en : s1.trail = n ++ l :: s.trail := en
    intro x hx
    rw [en]
    rcases hx with rfl | hx <;> simp [*]
  have hU' : (if C.incremental = true then s1.units ++ [l] else s1.units) = U := by rw [hun, hU]
  have hexq : ∃ q, Inv Ψ C.incremental U q s1.toCore := by
    cases hcf : confl with
    | none => exact ⟨_, (hx.inv hcf).2⟩
    | some id => exact (hx.confl id hcf).2
  have key : ∀ {q : Nat} {p : List (List Int)}, Inv Ψ C.incremental U q s1.toCore →
      SInv Ψ C.incremental q { s1 with ok := confl.isNone, units := U, pgProof := p } := by
    intro q p hq
    have hlv : ∀ x ∈ s1.trail, s1.lv x = 0 := fun x hx => by have := hq.lv_le hx; rw [hlim1] at this; simpa using this
    exact
    { inv := { hq with }
      heap := { hx.heap with }
      seen := by show ∀ v, s1.seen v = false; rw [hseen]; exact hf.1.seen
      eqv := fun _ ρ h1 h2 => by
        have h2 : ∀ x ∈ s1.trail, s1.lv x = 0 → litT ρ x := h2
        have h1 : ∀ id ∈ s1.clauses, clT ρ (s1.data id) := h1
        rw [hcl] at h1
        have htr : ∀ x, x = l ∨ x ∈ s.trail → litT ρ x := fun x hx => h2 x (hmem x hx) (hlv x (hmem x hx))
        exact he ρ (hf.1.eqv hok ρ (fun id hid => (clT_perm (hperm id)).1 (h1 id hid)) fun x hx _ => htr x (.inr hx)) (fun x hx => htr x (.inr hx)) (htr l (.inl rfl))
      uent := fun u hu => by
        have hu : u ∈ U := hu
        rw [hU] at hu
        split at hu
        · rcases List.mem_append.1 hu with h' | h'
          · exact (hf.1.uent u h').mono hsub
          · rw [List.mem_singleton.1 h']; exact hent
        · exact (hf.1.uent u hu).mono hsub
      cnod := by show (s1.clauses ++ s1.learnts).Nodup; rw [hcl, hle]; exact hf.1.cnod
      flag := by show (∀ id ∈ s1.clauses, s1.learnt id = false) ∧ ∀ id ∈ s1.learnts, s1.learnt id = true; rw [hcl, hle, hln]; exact hf.1.flag
      sel := by show ∀ l ∈ s1.sel, l < 2 * s1.nvars; rw [hkp.sel, hnv]; exact hf.1.sel
      arng := by show ∀ l ∈ s1.assumptions, l < 2 * s1.nvars; rw [hkp.assumptions, hnv]; exact hf.1.arng
      apos := fun i p hlt _ => by
        have hlt : i < s1.lim.length := hlt
        rw [hlim1] at hlt; simp at hlt
      adec := fun x hx _ h0 _ => by
        have h0 : 0 < s1.lv x := h0
        rw [hlv x hx] at h0; omega }
  rw [hU']
  refine ⟨_, _, rfl, ⟨hexq.imp fun q hq => key hq, hlim1, fun ho => ?_, fun ho => ?_, fun hinc => ?_, fun hinc _ ρ h1 h2 => ?_⟩, ?_, rfl, ?_, hcl⟩
  · have hcn : confl = none := Option.isNone_iff_eq_none.1 ho
    obtain ⟨hq, hiq⟩ := hx.inv hcn
    exact ⟨key hiq, hq⟩
  · obtain ⟨id, hid⟩ : ∃ id, confl = some id := by
      cases confl with
      | none => cases ho
      | some id => exact ⟨id, rfl⟩
    obtain ⟨hc, q, hq⟩ := hx.confl id hid
    exact hq.unsat hlim1 hc
  · have hi' := hi
    rw [hinc] at hi'
    have hr := (h.rep hinc).unit hi' hf.2 h.lim hl1 hl2 hok
    refine hr.mono ?_ (fun _ => hok) ?_ ?_ (fun id _ => hperm id) fun x hx h0 => ⟨hmem x (List.mem_cons.1 hx), ?_⟩
    · show U = s.units ++ [l]
      rw [hU, if_pos hinc]
    · show ∀ id ∈ s1.clauses, id ∈ s.clauses
      rw [hcl]; exact fun _ h => h
    · show ∀ id ∈ s1.learnts, id ∈ s.learnts
      rw [hle]; exact fun _ h => h
    · obtain ⟨q, hq⟩ := hexq
      have := hq.lv_le (hmem x (List.mem_cons.1 hx))
      rw [hlim1] at this
      have : s1.lv x ≤ 0 := this
      exact Nat.le_zero.1 this
  · have h1 : ∀ id ∈ s1.clauses, clT ρ (s1.data id) := h1
    have h2 : ∀ u ∈ U, litT ρ u := h2
    rw [hcl] at h1
    have hΦ := h.base hinc hok ρ (fun id hid => (clT_perm (hperm id)).1 (h1 id hid)) fun u hu => h2 u (hUsub u hu)
    refine he ρ hΦ (fun x hx => (hi.zero x hx (h.lv hx)).lit hΦ) (h2 l ?_)
    rw [hU, if_pos hinc]; simp
  · refine ⟨Nat.le_of_eq hnv.symm, Nat.le_of_eq hfr.next.symm, ⟨[], by simpa using hcl, by simp⟩, ⟨[], by simpa using hle, by simp⟩, ?_, fun i _ => hperm i, fun i _ => congrFun hln i⟩
    show ∃ r, U = s.units ++ r
    rw [hU]
    split
    · exact ⟨_, rfl⟩
    · exact ⟨[], by simp⟩
  · exact ⟨hnv, hkp.decision, hkp.assumptions, hkp.conflict, hkp.sel, hkp.bb, hkp.model⟩

theorem models_snoc {ρ : Nat → Bool} {ps : List Nat} : Models ρ (Φ ++ [ps]) ↔ Models ρ Φ ∧ clT ρ ps := by
  constructor
  · exact fun h => ⟨fun c hc => h c (List.mem_append_left _ hc), h ps (by simp)⟩
  · rintro ⟨h1, h2⟩ c hc
    rcases List.mem_append.1 hc with h | h
    · exact h1 c h
    · rw [List.mem_singleton.1 h]; exact h2

theorem ent_snoc {ps : List Nat} : Ent (Φ ++ [ps]) ps := fun _ h => (models_snoc.1 h).2

/-- The clauses of `s` are still there, and every new one has property `P`. -/
def GrewBy {F : Type} (P : List Nat → Prop) (s s' : St F) : Prop :=
  ∃ r, s'.clauses = s.clauses ++ r ∧ (∀ i ∈ s.clauses, (s'.data i).Perm (s.data i)) ∧ ∀ j ∈ r, P (s'.data j)

theorem GrewBy.refl (P : List Nat → Prop) (s : St F) : GrewBy P s s := ⟨[], by simp, fun _ _ => .refl _, fun _ h => by cases h⟩

/-- The same clauses. -/
theorem GrewBy.same {P : List Nat → Prop} {s s' : St F} (h : s'.clauses = s.clauses) (hp : ∀ i ∈ s.clauses, (s'.data i).Perm (s.data i)) : GrewBy P s s' :=
  ⟨[], by rw [h, List.append_nil], hp, fun _ h => by cases h⟩

theorem GrewBy.mono {P Q : List Nat → Prop} {s s' : St F} (h : GrewBy P s s') (hpq : ∀ d, P d → Q d) : GrewBy Q s s' := by
  obtain ⟨r, a, b, c⟩ := h
  exact ⟨r, a, b, fun j hj => hpq _ (c j hj)⟩

theorem GrewBy.trans {P : List Nat → Prop} (hP : ∀ d d' : List Nat, d'.Perm d → P d → P d') {s s' s'' : St F} (h : GrewBy P s s') (h' : GrewBy P s' s'') : GrewBy P s s'' := by
  obtain ⟨r, a, b, c⟩ := h
  obtain ⟨r', a', b', c'⟩ := h'
  refine ⟨r ++ r', by rw [a', a, List.append_assoc], fun i hi => (b' i (by rw [a]; exact List.mem_append_left _ hi)).trans (b i hi), fun j hj => ?_⟩
  rcases List.mem_append.1 hj with hj | hj
  · exact hP _ _ (b' j (by rw [a]; exact List.mem_append_right _ hj)) (c j hj)
  · exact c' j hj

theorem addRest_ok (C : Cfg F) (h : Ready Φ C.incremental s) (hok : s.ok = true) {ps qs : List Nat} (hr : ∀ l ∈ ps, l < 2 * s.nvars)
    (hq1 : ∀ e ∈ qs, e ∈ ps ∧ s.value e = none) (hq2 : ∀ e ∈ ps, e ∈ qs ∨ s.value e = some false) (hq3 : qs.Pairwise (· < ·)) :
    ∃ s' b, addRest C qs s = some (s', b) ∧ Ready (Φ ++ [ps]) C.incremental s' ∧ Ext s s' ∧ b = s'.ok ∧ Same s s' ∧
      GrewBy (fun d => d = qs ∧ 2 ≤ qs.length) s s' := by
  have hf := h.full hok
  have hi := hf.1.inv
  have hsub : ∀ c ∈ Φ, c ∈ Φ ++ [ps] := fun c hc => List.mem_append_left _ hc
  have hent : Ent (Φ ++ [ps]) qs := by
    intro ρ hρ
    obtain ⟨h1, l, hl, hlt⟩ := models_snoc.1 hρ
    rcases hq2 l hl with h' | h'
    · exact ⟨l, h', hlt⟩
    · have hm := (hi.val_false l).1 h'
      exact absurd hlt (litT_neg.1 ((hi.zero _ hm (h.lv hm)).lit h1))
  match qs, hq1, hq2, hq3, hent with
  | [], _, _, _, hent =>
    obtain ⟨q, hi0⟩ := h.inv
    unfold addRest
    refine ⟨_, _, rfl, ⟨⟨q, ?_⟩, h.lim, (fun ho => by cases ho), fun _ ρ hρ => ?_, fun hinc => (h.rep hinc).mono rfl (fun ho => by cases ho) (fun _ h => h) (fun _ h => h) (fun _ _ => .refl _) fun x hx h0 => ⟨hx, h0⟩,
      fun _ ho => by cases ho⟩, ?_, rfl, ⟨rfl, rfl, rfl, rfl, rfl, rfl, rfl⟩, .same rfl fun _ _ => .refl _⟩
    · exact
      { hi0 with
        inv := { hi0.inv.mono_Φ hsub with }
        heap := { hi0.heap with }
        eqv := fun ho => by cases ho
        uent := fun u hu => (hi0.uent u hu).mono hsub }
    · obtain ⟨l, hl, _⟩ := hent ρ hρ
      cases hl
    · exact ⟨Nat.le_refl _, Nat.le_refl _, ⟨[], by simp, by simp⟩, ⟨[], by simp, by simp⟩, ⟨[], by simp⟩, fun _ _ => .refl _, fun _ _ => rfl⟩
  | [l], hq1, _, _, hent =>
    obtain ⟨s', b, k1, k2, k3, k4, k5, k6⟩ := addUnit_ok C h hok (hq1 l (by simp)).2 (hr l (hq1 l (by simp)).1) hsub hent fun ρ h1 _ h2 =>
      models_snoc.2 ⟨h1, l, (hq1 l (by simp)).1, h2⟩
    exact ⟨s', b, k1, k2, k3, k4, k5, .same k6 fun id hid => k3.perm id (hi.good id (.inl hid)).2⟩
  | c0 :: c1 :: r, hq1, _, hq3, hent =>
    unfold addRest
    obtain ⟨s1, e1, hc1, hk1, hh1, hs1, _⟩ := install_eq (s := s) (c0 := c0) (c1 := c1) (r := r) false
    simp only [e1]
    have hnone : ∀ e ∈ c0 :: c1 :: r, neg e ∉ s.done s.qhead := fun e he hm => by
      have := (hi.val_false e).2 (List.mem_of_mem_drop hm)
      rw [(hq1 e he).2] at this; cases this
    have hg : Good (Φ ++ [ps]) s.nvars (c0 :: c1 :: r) := ⟨by simp, hq3.imp Nat.ne_of_lt, fun l hl => hr l (hq1 l hl).1, hent⟩
    have hne : c0 ≠ c1 := by
      have := hg.nodup
      simp only [List.nodup_cons, List.mem_cons, not_or] at this
      exact this.1.1
    have hinv := (hi.mono_Φ hsub).withClause hg (hnone c0 (by simp)) (hnone c1 (by simp)) false (cs := s.clauses ++ [s.next]) (ls := s.learnts)
      (fun id hid => by simpa using hid) (fun id hid => .inl hid) (fun id hid => by simp [hid]) (fun id hid => hid) (.inl (by simp))
    have hcore : ({ s1 with clauses := s1.clauses ++ [s.next] } : St F).toCore = withClause s.toCore c0 c1 r false (s.clauses ++ [s.next]) s.learnts := by
      show ({ s1.toCore with clauses := s1.toCore.clauses ++ [s.next] } : Core) = _
      rw [hc1]; rfl
    obtain ⟨hS, _⟩ := hf.1.withClause (Ψ := Φ ++ [ps]) (lrn := false) (c0 := c0) (c1 := c1) (r := r) (s' := { s1 with clauses := s1.clauses ++ [s.next] }) (by rw [hcore]; rfl)
      ⟨hk1.decision, hk1.assumptions, hk1.conflict, hk1.sel, hk1.bb, hk1.model, hk1.orig⟩ hh1 hs1 (by rw [hcore]; exact hinv) hsub
      (fun ρ h1 h2 h3 => models_snoc.2 ⟨h1, (h3 rfl).mono fun l hl => (hq1 l hl).1⟩) hne (fun e => by cases e) (fun e => by cases e)
    have hqh : s1.qhead = s.qhead := by rw [hc1]; rfl
    have htr : s1.trail = s.trail := by rw [hc1]; rfl
    have hok1 : s1.ok = s.ok := by rw [hc1]; rfl
    have hid : ∀ id, id ∈ s.clauses ∨ id ∈ s.learnts → id < s.next := fun id hid =>
      (hi.good id (hid.elim .inl fun h => .inr (.inl h))).2
    refine ⟨_, _, rfl, ⟨⟨_, hS⟩, ?_, fun _ => ⟨?_, ?_⟩, fun ho => ?_, fun hinc => ?_, fun hinc _ ρ h1 h2 => ?_⟩, ?_, ?_, ?_, [s.next], ?_, fun i hi' => ?_, fun j hj => ?_⟩
    · show s1.lim = []
      rw [hc1]; exact h.lim
    · have hS' : ∀ q, q = s.qhead → SInv (Φ ++ [ps]) C.incremental q { s1 with clauses := s1.clauses ++ [s.next] } := by rintro _ rfl; exact hS
      exact hS' _ hqh
    · show s1.qhead = s1.trail.length
      rw [hqh, htr]; exact hf.2
    · have ho : s1.ok = false := ho
      rw [hok1, hok] at ho; cases ho
    · rw [hcore]
      refine (h.rep hinc).withClause (lrn := false) hne (fun l hl hn => ?_) hok (fun e => by cases e) hid
      have := (hi.val_false l).2 hn
      rw [(hq1 l hl).2] at this; cases this
    · rw [hcore] at h1 h2
      have h1 : ∀ id ∈ s.clauses ++ [s.next], clT ρ (upd s.data s.next (c0 :: c1 :: r) id) := h1
      have hq := h1 s.next (by simp)
      rw [upd_self] at hq
      refine models_snoc.2 ⟨h.base hinc hok ρ (fun id hm => ?_) h2, hq.mono fun l hl => (hq1 l hl).1⟩
      have := h1 id (List.mem_append_left _ hm)
      rwa [upd_ne _ _ (Nat.ne_of_lt (hid id (.inl hm)))] at this
    · refine ⟨?_, ?_, ⟨[s.next], ?_, by simp⟩, ⟨[], ?_, by simp⟩, ⟨[], ?_⟩, fun i hn => ?_, fun i hn => ?_⟩
      · show s.nvars ≤ s1.nvars; rw [hc1]; exact Nat.le_refl _
      · show s.next ≤ s1.next; rw [hc1]; exact Nat.le_succ _
      · show s1.clauses ++ [s.next] = _; rw [hc1]; rfl
      · show s1.learnts = _; rw [hc1, List.append_nil]; rfl
      · show s1.units = _; rw [hc1, List.append_nil]; rfl
      · show (s1.data i).Perm _
        rw [hc1]
        show (upd s.data s.next (c0 :: c1 :: r) i).Perm _
        rw [upd_ne _ _ (Nat.ne_of_lt hn)]
      · show s1.learnt i = _
        rw [hc1]
        show upd s.learnt s.next false i = _
        rw [upd_ne _ _ (Nat.ne_of_lt hn)]
    · show true = s1.ok
      rw [hok1, hok]
    · exact ⟨by show s1.nvars = s.nvars; rw [hc1]; rfl, hk1.decision, hk1.assumptions, hk1.conflict, hk1.sel, hk1.bb, hk1.model⟩
    · rw [hcore]; rfl
    · rw [hcore]
      show (upd s.data s.next (c0 :: c1 :: r) i).Perm _
      rw [upd_ne _ _ (Nat.ne_of_lt (hid i (.inl hi')))]
    · rw [List.mem_singleton.1 hj, hcore]
      exact ⟨upd_self .., by simp⟩

/-- `add_clause` succeeds and conjoins the clause. -/
theorem addClause_ok (C : Cfg F) (h : Ready Φ C.incremental s) {ps : List Nat} (hr : ∀ l ∈ ps, l < 2 * s.nvars) :
    ∃ s' b, addClause C ps s = some (s', b) ∧ Ready (Φ ++ [ps]) C.incremental s' ∧ Ext s s' ∧ b = s'.ok ∧ Same s s' ∧
      GrewBy (fun d => 2 ≤ d.length ∧ d.Nodup ∧ ∀ l, l ∈ d ↔ l ∈ ps ∧ s.value l ≠ some false) s s' := by
  unfold addClause
  simp only
  obtain ⟨s0, hs0⟩ : ∃ s0 : St F, s0 = if C.proofGen = true then { s with pgOrig := s.pgOrig ++ [ps.map pgLit] } else s := ⟨_, rfl⟩
  rw [← hs0]
  have hc0 : s0.toCore = s.toCore := by rw [hs0]; split <;> rfl
  have hsame : Same s s0 := by rw [hs0]; split <;> exact ⟨rfl, rfl, rfl, rfl, rfl, rfl, rfl⟩
  have h0 : Ready Φ C.incremental s0 := h.of_eq hc0 (by rw [hs0]; split <;> rfl) hsame.decision (by rw [hs0]; split <;> rfl) hsame.sel hsame.assumptions
  have hx0 : Ext s s0 := .of_core hc0
  have hr0 : ∀ l ∈ ps, l < 2 * s0.nvars := by rw [hsame.nvars]; exact hr
  have hsub : ∀ c ∈ Φ, c ∈ Φ ++ [ps] := fun c hc => List.mem_append_left _ hc
  by_cases hok : s0.ok = false
  · rw [if_pos hok]
    refine ⟨_, _, rfl, ⟨?_, h0.lim, (fun ho => by rw [hok] at ho; cases ho), fun _ ρ hρ => h0.bad hok ρ (models_snoc.1 hρ).1, h0.rep, fun _ ho => by rw [hok] at ho; cases ho⟩, hx0, hok.symm, hsame,
      .same (by rw [hc0]) fun _ _ => by rw [hc0]⟩
    exact h0.inv.imp fun q hi => hi.mono hsub fun ho => by rw [hok] at ho; cases ho
  · rw [if_neg hok]
    have hok : s0.ok = true := by simpa using hok
    have hf := h0.full hok
    cases hfl : addFilter s0.toCore (isort ps) none with
    | none =>
      simp only
      have hcl : ∀ ρ, (∀ x ∈ s0.trail, s0.lv x = 0 → litT ρ x) → clT ρ ps := by
        intro ρ ht
        rcases addFilter_none _ hfl with ⟨e, he, hv⟩ | ⟨e, he, hv⟩
        · have hm := (hf.1.inv.val e).1 hv
          exact ⟨e, mem_isort.1 he, ht e hm (h0.lv hm)⟩
        · rcases hv with hv | hv
          · by_cases hp : litT ρ e
            · exact ⟨e, mem_isort.1 he, hp⟩
            · exact ⟨neg e, mem_isort.1 hv, litT_neg.2 hp⟩
          · cases hv
      have hm : ∀ {q}, SInv Φ C.incremental q s0 → SInv (Φ ++ [ps]) C.incremental q s0 := fun hi =>
        hi.mono hsub fun _ ρ h1 h2 => models_snoc.2 ⟨h1, hcl ρ h2⟩
      exact ⟨_, _, rfl, ⟨h0.inv.imp fun q hi => hm hi, h0.lim, fun ho => ⟨hm (h0.full ho).1, (h0.full ho).2⟩, (fun ho => by rw [hok] at ho; cases ho), h0.rep,
        fun hinc ho ρ h1 h2 => by
          have hΦ := h0.base hinc ho ρ h1 h2
          exact models_snoc.2 ⟨hΦ, hcl ρ fun x hx h0 => (hf.1.inv.zero x hx h0).lit hΦ⟩⟩, hx0, hok.symm, hsame,
        .same (by rw [hc0]) fun _ _ => by rw [hc0]⟩
    | some qs =>
      simp only
      obtain ⟨s1, hs1⟩ : ∃ s1 : St F, s1 = if (C.proofGen && (isort ps).any fun l => s0.value l != none) = true then
        { s0 with pgProof := s0.pgProof ++ [1 :: qs.map pgLit, -1 :: (isort ps).map pgLit] } else s0 := ⟨_, rfl⟩
      rw [← hs1]
      have hc1 : s1.toCore = s0.toCore := by rw [hs1]; split <;> rfl
      have hsame1 : Same s0 s1 := by rw [hs1]; split <;> exact ⟨rfl, rfl, rfl, rfl, rfl, rfl, rfl⟩
      have h1 : Ready Φ C.incremental s1 := h0.of_eq hc1 (by rw [hs1]; split <;> rfl) hsame1.decision (by rw [hs1]; split <;> rfl) hsame1.sel hsame1.assumptions
      obtain ⟨k1, k2, k3, _⟩ := addFilter_some _ (isort_sorted ps) (fun x e => by cases e) hfl
      have hval : ∀ l, s1.value l = s0.value l := fun l => by rw [hc1]
      obtain ⟨s', b, e, g1, g2, g3, g4, g5⟩ := addRest_ok C h1 (by rw [hc1]; exact hok) (ps := ps) (qs := qs) (by rw [hsame1.nvars]; exact hr0)
        (fun l hl => ⟨mem_isort.1 (k1 l hl).1, by rw [hval]; exact (k1 l hl).2⟩)
        (fun l hl => by
          rw [hval]
          rcases k2 l (mem_isort.2 hl) with h' | h' | h'
          · exact .inl h'
          · exact .inr h'
          · cases h') k3
      refine ⟨s', b, e, g1, hx0.trans ((Ext.of_core hc1).trans g2), g3, hsame.trans (hsame1.trans g4), ?_⟩
      have hc : s1.toCore = s.toCore := hc1.trans hc0
      have g6 : GrewBy (fun d => d = qs ∧ 2 ≤ qs.length) s s' := by
        unfold GrewBy at g5 ⊢
        rwa [hc] at g5
      refine g6.mono ?_
      rintro d ⟨rfl, h2⟩
      refine ⟨h2, k3.imp Nat.ne_of_lt, fun l => ⟨fun hm => ⟨mem_isort.1 (k1 l hm).1, ?_⟩, fun ⟨a, b⟩ => ?_⟩⟩
      · rw [show s.value l = s0.value l by rw [hc0], (k1 l hm).2]; simp
      · rcases k2 l (mem_isort.2 a) with h' | h' | h'
        · exact h'
        · rw [hc0] at h'; exact absurd h' b
        · cases h'

/-! ### Solving -/

/-- The valuation a model vector stands for (variables beyond its end are false). -/
def modelVal (m : List Bool) : Nat → Bool := fun v => m.getD v false

/-- The complete assignment `c` found by the search that led to `s`: levels, reasons, clauses and watch lists are still those of `c`. -/
structure Final {F : Type} (Φ : List (List Nat)) (inc : Bool) (c : Core) (s : St F) : Prop where
  inv : Inv Φ inc c.units c.qhead c
  full : c.qhead = c.trail.length
  all : ∀ v < c.nvars, c.asg v ≠ none
  eqv : ∀ ρ, (∀ id ∈ c.clauses, clT ρ (c.data id)) → (∀ x ∈ c.trail, c.lv x = 0 → litT ρ x) → Models ρ Φ
  nvars : s.nvars = c.nvars
  data : s.data = c.data
  watches : s.watches = c.watches
  level : s.level = c.level
  reason : s.reason = c.reason
  model : modelVal s.model = valuation c
  len : s.model.length = s.nvars

/-- What `solve` guarantees for the assumptions `as`. -/
structure Solved {F : Type} (Φ : List (List Nat)) (inc : Bool) (as : List Nat) (s s' : St F) (b : Bool) : Prop where
  ready : Ready Φ inc s'
  ext : inc = true → Ext s s'
  nvars : s'.nvars = s.nvars
  decision : s'.decision = s.decision
  sel : s'.sel = s.sel
  bb : s'.bb = s.bb
  orig : s'.pgOrig = s.pgOrig
  ok : s'.ok = (b || !s'.conflict.isEmpty)
  sat : b = true → s'.model.length = s'.nvars ∧ s'.conflict = [] ∧ Models (modelVal s'.model) Φ ∧ ∀ p ∈ as, litT (modelVal s'.model) p
  unsat : b = false → Ent Φ s'.conflict ∧ (∀ l ∈ s'.conflict, neg l ∈ as) ∧ s'.model = []
  cls : inc = true → s'.clauses = s.clauses
  final : b = true → ∃ c, Final Φ inc c s'

/-- Between searches the assumptions can be replaced. -/
theorem SInv.assume (h : SInv Φ inc q s) (hl : s.lim = []) {as : List Nat} (ha : ∀ p ∈ as, p < 2 * s.nvars) : SInv Φ inc q { s with assumptions := as } :=
  { h with
    heap := { h.heap with }
    arng := ha
    apos := fun i p hlt _ => by
      have hlt : i < s.lim.length := hlt
      rw [hl] at hlt; simp at hlt
    adec := fun x hx _ h0 _ => by
      have h0 : 0 < s.lv x := h0
      have := h.inv.lv_le hx
      rw [hl] at this
      simp at this
      omega }

theorem Ready.assume (h : Ready Φ inc s) {as : List Nat} (ha : ∀ p ∈ as, p < 2 * s.nvars) : Ready Φ inc { s with assumptions := as } where
  inv := h.inv.imp fun _ hi => hi.assume h.lim ha
  lim := h.lim
  full ho := ⟨(h.full ho).1.assume h.lim ha, (h.full ho).2⟩
  bad := h.bad
  rep := h.rep
  base := h.base

theorem modelVal_eq {c : Core} {U : List Nat} (h : Inv Φ inc U q c) : modelVal ((List.range c.nvars).map fun v => c.asg v == some true) = valuation c := by
  funext v
  unfold modelVal valuation
  by_cases hv : v < c.nvars
  · simp [List.getD, hv]
  · rw [h.asg_ge (Nat.le_of_not_lt hv)]
    simp [List.getD, hv]

theorem solve_ok (C : Cfg F) (hm : C.clauseMin ≠ .none) (fuel : Nat) (h : Ready Φ C.incremental s) :
    match solve C fuel s with
    | .panic => False
    | .diverge => True
    | .ok (s', b) => Solved Φ C.incremental s.assumptions s s' b ∧ s'.assumptions = s.assumptions := by
  unfold solve
  simp only
  by_cases hok : s.ok = false
  · rw [if_pos hok]
    refine ⟨⟨h.of_eq rfl rfl rfl rfl rfl rfl, fun _ => .of_core rfl, rfl, rfl, rfl, rfl, rfl, ?_, (fun e => by cases e), fun _ => ⟨fun ρ hρ => absurd hρ (h.bad hok ρ), by simp, rfl⟩, fun _ => rfl, fun e => by cases e⟩, rfl⟩
    show s.ok = _
    rw [hok]; rfl
  · rw [if_neg hok]
    have hok : s.ok = true := by simpa using hok
    have hf := h.full hok
    obtain ⟨s0, hs0⟩ : ∃ s0 : St F, s0 = { s with
      model := [], conflict := []
      adjConfl := Flt.ofInt 100
      adjCnt := 100
      maxLearnts := Flt.mul (Flt.ofInt s.clauses.length) C.learntsizeFactor } := ⟨_, rfl⟩
    rw [← hs0]
    have hc0 : s0.toCore = s.toCore := by rw [hs0]
    have hm0 : s0.model = [] := by rw [hs0]
    have hcf0 : s0.conflict = [] := by rw [hs0]
    have ha0 : s0.assumptions = s.assumptions := by rw [hs0]
    have hS0 : SInv Φ C.incremental s0.qhead s0 := by
      rw [show s0.qhead = s.qhead by rw [hc0]]
      exact hf.1.of_eq hc0 (by rw [hs0]) (by rw [hs0]) (by rw [hs0]) (by rw [hs0]) ha0
    have hr := restartLoop_ok C hm fuel fuel 0 hS0 (by rw [hc0]; exact hok)
    revert hr
    generalize restartLoop C fuel fuel 0 s0 = r
    intro hr
    match r, hr with
    | .panic, hr => exact hr
    | .diverge, _ => trivial
    | .ok (s1, b), ⟨hA, hG⟩ =>
      simp only
      obtain ⟨s2, hs2⟩ : ∃ s2 : St F, s2 = { s1 with
        pgProof := if (C.proofGen && s1.assumptions.isEmpty && !b) = true then s1.pgProof ++ [[0]] else s1.pgProof
        model := if b = true then (List.range s1.nvars).map (fun v => s1.asg v == some true) else s1.model
        ok := s1.ok && (b || !s1.conflict.isEmpty) } := ⟨_, rfl⟩
      rw [← hs2]
      have hok1 : s1.ok = true := by
        have : s1.ok = s0.ok := hG.ok
        rw [this, hc0]; exact hok
      have hx1 : C.incremental = true → Ext s s1 := fun hinc => by
        rw [hinc] at hG
        have := hG.ext
        exact (Ext.of_core hc0).trans { this with }
      have hn1 : s1.nvars = s.nvars := by
        have : s1.nvars = s0.nvars := hG.nvars
        rw [this, hc0]
      have hcl1 : C.incremental = true → s1.clauses = s.clauses := fun hinc => by
        have : s1.clauses = s0.clauses := hG.clauses hinc
        rw [this, hc0]
      have hcl3 : ∀ {s3 : St F}, Grow C.incremental s2 s3 → C.incremental = true → s3.clauses = s.clauses := fun g hinc => by
        rw [g.clauses hinc, hs2]; exact hcl1 hinc
      have has3 : ∀ {s3 : St F}, Grow C.incremental s2 s3 → s3.assumptions = s.assumptions := fun g => by
        rw [g.keep.assumptions, hs2]
        have : s1.assumptions = s0.assumptions := hG.keep.assumptions
        exact this.trans ha0
      have hd1 : s1.decision = s.decision := by
        have : s1.decision = s0.decision := hG.keep.decision
        rw [this, hs0]
      have hsel1 : s1.sel = s.sel := by
        have : s1.sel = s0.sel := hG.keep.sel
        rw [this, hs0]
      have hbb1 : s1.bb = s.bb := by
        have : s1.bb = s0.bb := hG.keep.bb
        rw [this, hs0]
      have hmo1 : s1.model = [] := by
        have : s1.model = s0.model := hG.keep.model
        rw [this, hs0]
      have hor1 : s1.pgOrig = s.pgOrig := by
        have : s1.pgOrig = s0.pgOrig := hG.keep.orig
        rw [this, hs0]
      have frame : ∀ {s3 : St F}, Grow C.incremental s2 s3 → (C.incremental = true → Ext s s3) ∧ s3.nvars = s.nvars ∧ s3.decision = s.decision ∧ s3.sel = s.sel ∧
            s3.bb = s.bb ∧ s3.pgOrig = s.pgOrig ∧ s3.ok = (b || !s3.conflict.isEmpty) ∧ s3.model = s2.model ∧ s3.conflict = s1.conflict := by
        intro s3 g
        have hcf : s3.conflict = s1.conflict := by rw [g.keep.conflict, hs2]
        refine ⟨fun hinc => ?_, ?_, ?_, ?_, ?_, ?_, ?_, g.keep.model, hcf⟩
        · have h12 : Ext s1 s2 := by
            rw [hs2]
            exact ⟨Nat.le_refl _, Nat.le_refl _, ⟨[], by simp, by simp⟩, ⟨[], by simp, by simp⟩, ⟨[], by simp⟩, fun _ _ => .refl _, fun _ _ => rfl⟩
          rw [hinc] at g
          exact (hx1 hinc).trans (h12.trans g.ext)
        · rw [g.nvars, hs2]; exact hn1
        · rw [g.keep.decision, hs2]; exact hd1
        · rw [g.keep.sel, hs2]; exact hsel1
        · rw [g.keep.bb, hs2]; exact hbb1
        · rw [g.keep.orig, hs2]; exact hor1
        · rw [hcf, g.ok, hs2]
          show (s1.ok && _) = _
          rw [hok1, Bool.true_and]
      have hr1 : C.incremental = true → RInv s1.toCore := fun hinc => hG.rep hinc (by rw [hc0]; exact hok) (by rw [hc0]; exact h.rep hinc)
      have hr2 : C.incremental = true → RInv s2.toCore := fun hinc => by
        rw [hs2]
        exact (hr1 hinc).mono rfl (fun _ => hok1) (fun _ h => h) (fun _ h => h) (fun _ _ => .refl _) fun x hx h0 => ⟨hx, h0⟩
      have hbase : C.incremental = true → ∀ {s3 : St F}, Ext s s3 → ∀ ρ, (∀ id ∈ s3.clauses, clT ρ (s3.data id)) → (∀ u ∈ s3.units, litT ρ u) → Models ρ Φ := by
        intro hinc s3 hx ρ h1 h2
        obtain ⟨r, ec, _⟩ := hx.clauses
        obtain ⟨r', eu⟩ := hx.units
        rw [ec] at h1
        rw [eu] at h2
        exact h.base hinc hok ρ (fun id hid => (clT_perm (hx.perm id (hf.1.inv.good id (.inl hid)).2)).1 (h1 id (List.mem_append_left _ hid)))
          fun u hu => h2 u (List.mem_append_left _ hu)
      have toFull : ∀ {q}, SInv Φ C.incremental q s1 → SInv Φ C.incremental q s2 := by
        intro q hi
        rw [hs2]
        exact
        { hi with
          inv := { hi.inv with }
          heap := { hi.heap with }
          eqv := fun _ => hi.eqv hok1 }
      have hq2 : s2.qhead = s1.qhead := by rw [hs2]
      have ht2 : s2.trail = s1.trail := by rw [hs2]
      cases hA with
      | sat hf1 hmod has hcf hall1 =>
        have hfull2 : Full Φ C.incremental s2 := ⟨by rw [hq2]; exact toFull hf1.1, by rw [hq2, ht2]; exact hf1.2⟩
        obtain ⟨s3, e3, hf3, g3, hl3, _⟩ := cancelZero_ok hfull2
        obtain ⟨z1, z2, z3, z4, _⟩ := cancelZero_same hfull2 e3
        rw [e3]
        simp only
        obtain ⟨k1, k2, k3, k4, k5, k6, k7, k8, k9⟩ := frame g3
        have hmv : modelVal s3.model = valuation s1.toCore := by
          rw [k8, hs2]
          exact modelVal_eq hf1.1.inv
        refine ⟨⟨⟨⟨_, hf3.1⟩, hl3, fun _ => hf3, fun ho => ?_, fun hinc => g3.rep hinc ?_ (hr2 hinc), fun hinc _ => hbase hinc (k1 hinc)⟩, k1, k2, k3, k4, k5, k6, k7,
          fun _ => ⟨?_, ?_, ?_, ?_⟩, (fun e => by cases e), hcl3 g3, fun _ => ⟨s1.toCore, ?_⟩⟩, has3 g3⟩
        · rw [k7] at ho; simp at ho
        · rw [← g3.ok, k7]; rfl
        · rw [k8, k2, ← hn1, hs2]; simp
        · rw [k9, hcf, hcf0]
        · rw [hmv]; exact hmod
        · rw [hmv, ← ha0]; exact has
        · exact
          { inv := hf1.1.inv
            full := hf1.2
            all := hall1
            eqv := hf1.1.eqv hok1
            nvars := k2.trans hn1.symm
            data := by rw [z1, hs2]
            watches := by rw [z2, hs2]
            level := by rw [z3, hs2]
            reason := by rw [z4, hs2]
            model := hmv
            len := by rw [k8, k2, ← hn1, hs2]; simp }
      | fail hf1 hne hent hneg =>
        obtain ⟨s3, e3, hf3, g3, hl3, _⟩ := cancelZero_ok (s := s2) ⟨by rw [hq2]; exact toFull hf1.1, by rw [hq2, ht2]; exact hf1.2⟩
        rw [e3]
        simp only
        obtain ⟨k1, k2, k3, k4, k5, k6, k7, k8, k9⟩ := frame g3
        refine ⟨⟨⟨⟨_, hf3.1⟩, hl3, fun _ => hf3, fun ho => ?_, fun hinc => g3.rep hinc ?_ (hr2 hinc), fun hinc _ => hbase hinc (k1 hinc)⟩, k1, k2, k3, k4, k5, k6, k7,
          (fun e => by cases e), fun _ => ⟨by rw [k9]; exact hent, by rw [k9, ← ha0]; exact hneg, ?_⟩, hcl3 g3, fun e => by cases e⟩, has3 g3⟩
        · rw [k7, k9] at ho
          simp only [Bool.false_or, Bool.not_eq_eq_eq_not, Bool.not_false, List.isEmpty_iff] at ho
          exact absurd ho hne
        · rw [← g3.ok, k7, k9]
          simp only [Bool.false_or, Bool.not_eq_eq_eq_not, Bool.not_true, List.isEmpty_eq_false_iff]
          exact hne
        · rw [k8, hs2]; exact hmo1
      | unsat hi1 hl1 hu hcf =>
        have hl2 : s2.lim = [] := by rw [hs2]; exact hl1
        have e3 : cancelUntil 0 s2 = some s2 := by unfold cancelUntil; rw [hl2]; simp
        rw [e3]
        simp only
        obtain ⟨k1, k2, k3, k4, k5, k6, k7, k8, k9⟩ := frame (.refl s2)
        have hko : s2.ok = false := by rw [k7, k9, hcf, hcf0]; rfl
        refine ⟨⟨⟨⟨_, toFull hi1⟩, hl2, (fun ho => by rw [hko] at ho; cases ho), fun _ => hu, hr2, fun hinc _ => hbase hinc (k1 hinc)⟩, k1, k2, k3, k4, k5, k6, k7, (fun e => by cases e),
          fun _ => ⟨fun ρ hρ => absurd hρ (hu ρ), by rw [k9, hcf, hcf0]; simp, ?_⟩, hcl3 (.refl s2), fun e => by cases e⟩, has3 (.refl s2)⟩
        rw [hs2]; exact hmo1

theorem solveWith_ok (C : Cfg F) (hm : C.clauseMin ≠ .none) (fuel : Nat) (h : Ready Φ C.incremental s) {as : List Nat} (ha : ∀ p ∈ as, p < 2 * s.nvars) :
    match solveWith C fuel as s with
    | .panic => False
    | .diverge => True
    | .ok (s', b) => Solved Φ C.incremental as s s' b := by
  unfold solveWith
  have hs := solve_ok C hm fuel (h.assume ha)
  revert hs
  generalize solve C fuel { s with assumptions := as } = r
  intro hs
  match r, hs with
  | .panic, hs => exact hs
  | .diverge, _ => trivial
  | .ok (s1, b), ⟨hs, _⟩ =>
    exact
    { ready := hs.ready.assume (by simp)
      ext := fun hinc => { hs.ext hinc with }
      nvars := hs.nvars
      decision := hs.decision
      sel := hs.sel
      bb := hs.bb
      orig := hs.orig
      ok := hs.ok
      sat := hs.sat
      unsat := hs.unsat
      cls := hs.cls
      final := fun e => (hs.final e).imp fun c hc => { hc with } }

end
end Verif.Sat
