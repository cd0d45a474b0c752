import Verif.Sat.Api
/-
Saving and loading the state of the solver.
-/
namespace Verif.Sat
open Core

section
variable {F : Type} [LinearOrder F] [Flt F] {Φ : List (List Nat)} {inc : Bool} {q : Nat} {s : St F}
open St

/-! ### The parts of loading -/

theorem backLoop_ok (n : Nat) : ∀ (v : Nat) {s : St F}, HInv s → v + n ≤ s.nvars →
    ∃ s', backLoop n v s = some s' ∧ s'.toCore = { s.toCore with asg := s'.asg, reason := s'.reason } ∧ Keep s s' ∧ s'.seen = s.seen ∧ HInv s' ∧
      (∀ w, v ≤ w → w < v + n → s'.asg w = none ∧ s'.reason w = none) ∧ (∀ w, w < v ∨ v + n ≤ w → s'.asg w = s.asg w ∧ s'.reason w = s.reason w) := by
  induction n with
  | zero => intro v s h _; exact ⟨s, rfl, rfl, .refl s, rfl, h, fun w h1 h2 => by omega, fun w _ => ⟨rfl, rfl⟩⟩
  | succ n ih =>
    intro v s h hv
    unfold backLoop
    have hX : HInvX ({ s with asg := upd s.asg v none, reason := upd s.reason v none } : St F) v :=
      { cons := h.cons
        rng := h.rng
        dec := h.dec
        mem := fun w hw hne ha => h.mem w hw (by
          have ha : upd s.asg v none w = none := ha
          rwa [upd_ne _ _ hne] at ha)
        len := fun w hw _ => Nat.lt_of_lt_of_le hw h.len }
    obtain ⟨s1, e1, hc1, hk1, hs1, _, hh1⟩ := insertVarOrder_ok hX (by show v < s.nvars; omega)
    rw [e1]
    simp only
    obtain ⟨s2, e2, hc2, hk2, hs2, hh2, ha2, hb2⟩ := ih (v + 1) (s := s1) hh1 (by rw [hc1]; show v + 1 + n ≤ s.nvars; omega)
    refine ⟨s2, e2, ?_, Keep.trans ⟨hk1.1, hk1.2, hk1.3, hk1.4, hk1.5, hk1.6, hk1.7⟩ hk2, hs2.trans hs1, hh2, fun w h1 h2 => ?_, fun w hw => ?_⟩
    · rw [hc2, hc1]
    · by_cases e : w = v
      · subst e
        obtain ⟨a, b⟩ := hb2 w (.inl (Nat.lt_succ_self _))
        rw [a, b, hc1]
        exact ⟨upd_self .., upd_self ..⟩
      · exact ha2 w (by omega) (by omega)
    · obtain ⟨a, b⟩ := hb2 w (by omega)
      have hne : w ≠ v := by omega
      rw [a, b, hc1]
      exact ⟨upd_ne _ _ hne, upd_ne _ _ hne⟩

theorem heapCut_ok (v n : Nat) : ∀ {s : St F}, s.heap.Cons → (∀ w, v ≤ w → w < v + n → w ∈ s.heap.heap) →
    ∃ s' h', heapCut v n s = some s' ∧ s' = { s with heap := h' } ∧ h'.Cons ∧ h'.idx.length = s.heap.idx.length ∧
      ∀ m, m ∈ h'.heap ↔ m ∈ s.heap.heap ∧ ¬ (v ≤ m ∧ m < v + n) := by
  induction n with
  | zero => intro s h _; exact ⟨s, s.heap, rfl, rfl, h, rfl, fun m => by simp⟩
  | succ n ih =>
    intro s h hm
    unfold heapCut
    obtain ⟨h1, e1, c1, _, l1, m1, _⟩ := Heap.remove_ok (act := s.act) h (hm (v + n) (by omega) (by omega))
    rw [e1]
    simp only
    obtain ⟨s2, h2, e2, es, c2, l2, m2⟩ := ih (s := { s with heap := h1 }) c1 (fun w a b => (m1 w).2 ⟨hm w a (by omega), by omega⟩)
    refine ⟨s2, h2, e2, es, c2, l2.trans l1, fun m => ?_⟩
    rw [m2]
    show m ∈ h1.heap ∧ _ ↔ _
    rw [m1]
    constructor
    · rintro ⟨⟨a, b⟩, c⟩; exact ⟨a, by omega⟩
    · rintro ⟨a, b⟩; exact ⟨⟨a, by omega⟩, by omega⟩

theorem watches_congr (c : Core) {w w' : Nat → List (Nat × Nat)} (h : ∀ l, w l = w' l) : ({ c with watches := w } : Core) = { c with watches := w' } := by
  rw [funext h]

theorem sameClause_self (s : St F) (a : Nat) : sameClause s a a = true := by simp [sameClause]

theorem sameClause_congr {s : St F} {a b : Nat} (h : sameClause s a b = true) (k : Nat) : sameClause s a k = sameClause s b k := by
  unfold sameClause at h ⊢
  simp only [Bool.and_eq_true, decide_eq_true_eq, beq_iff_eq] at h
  rw [h.1.1, h.1.2, h.2]

theorem dropWatch_sublist (s : St F) (id : Nat) : ∀ ws, (dropWatch s id ws).Sublist ws
  | [] => .slnil
  | w :: ws => by
    unfold dropWatch
    split
    · exact List.sublist_cons_self _ _
    · exact (dropWatch_sublist s id ws).cons₂ _

theorem dropWatch_none (s : St F) (id : Nat) : ∀ ws : List (Nat × Nat), (∀ w ∈ ws, sameClause s w.1 id = false) → dropWatch s id ws = ws
  | [], _ => rfl
  | w :: ws, h => by
    unfold dropWatch
    rw [if_neg (by rw [h w (by simp)]; simp), dropWatch_none s id ws fun w hw => h w (by simp [hw])]

/-- One watcher of the clauses with this content is removed, if there is one. -/
theorem dropWatch_count (s : St F) (id k : Nat) : ∀ ws : List (Nat × Nat),
    (dropWatch s id ws).countP (fun w => sameClause s w.1 k) = ws.countP (fun w => sameClause s w.1 k) - if sameClause s id k = true then 1 else 0
  | [] => by simp [dropWatch]
  | w :: ws => by
    unfold dropWatch
    split
    · next h =>
      rw [List.countP_cons, sameClause_congr h k]
      split <;> omega
    · next h =>
      rw [List.countP_cons, List.countP_cons, dropWatch_count s id k ws]
      by_cases hk : sameClause s id k = true
      · have hw : sameClause s w.1 k = false := by
          cases hw : sameClause s w.1 k with
          | false => rfl
          | true =>
            have h1 := sameClause_congr hw id
            have h2 := sameClause_congr hk id
            rw [sameClause_self] at h2
            exact absurd (h1.trans h2.symm) h
        rw [hw]
        simp
      · simp [hk]

/-- The rest of the watchers stays. -/
theorem dropWatch_filter (s : St F) (id : Nat) (I : List Nat) : ∀ ws : List (Nat × Nat), (∀ w ∈ ws, sameClause s w.1 id = true → w.1 ∈ I) →
    (dropWatch s id ws).filter (fun w => w.1 ∉ I) = ws.filter fun w => w.1 ∉ I
  | [], _ => rfl
  | w :: ws, h => by
    unfold dropWatch
    split
    · next hs => rw [List.filter_cons_of_neg (by simpa using h w (by simp) hs)]
    · rw [List.filter_cons, List.filter_cons, dropWatch_filter s id I ws fun w hw => h w (by simp [hw])]

/-- Removing, one after the other, as many watchers as there are clauses of each content removes exactly the watchers of these clauses, unless one of
the remaining clauses has the same content. -/
theorem dropAll_eq (s : St F) (ids : List Nat) (ws : List (Nat × Nat)) (hn : (ws.map Prod.fst).Nodup) (hs : ∀ id ∈ ids, ∀ w ∈ ws, sameClause s w.1 id = true → w.1 ∈ ids) :
    ids.foldl (fun ws id => dropWatch s id ws) ws = ws.filter fun w => w.1 ∉ ids := by
  have hfil : ∀ (js : List Nat) (ws : List (Nat × Nat)), (∀ id ∈ js, ∀ w ∈ ws, sameClause s w.1 id = true → w.1 ∈ ids) →
      (js.foldl (fun ws id => dropWatch s id ws) ws).filter (fun w => w.1 ∉ ids) = ws.filter fun w => w.1 ∉ ids := by
    intro js
    induction js with
    | nil => intro ws _; rfl
    | cons j js ih =>
      intro ws h
      rw [List.foldl_cons, ih _ fun id hid w hw => h id (by simp [hid]) w ((dropWatch_sublist s j ws).subset hw), dropWatch_filter s j ids ws (h j (by simp))]
  have hcnt : ∀ (k : Nat) (js : List Nat) (ws : List (Nat × Nat)), (js.foldl (fun ws id => dropWatch s id ws) ws).countP (fun w => sameClause s w.1 k) =
      ws.countP (fun w => sameClause s w.1 k) - js.countP fun j => sameClause s j k := by
    intro k js
    induction js with
    | nil => intro ws; rfl
    | cons j js ih =>
      intro ws
      rw [List.foldl_cons, ih, dropWatch_count, List.countP_cons]
      omega
  rw [← hfil ids ws hs]
  refine (List.filter_eq_self.2 fun w hw => ?_).symm
  simp only [decide_eq_true_eq]
  intro hm
  have h0 : (ids.foldl (fun ws id => dropWatch s id ws) ws).countP (fun w' => sameClause s w'.1 w.1) = 0 := by
    rw [hcnt, Nat.sub_eq_zero_iff_le]
    have hle : ((ws.map Prod.fst).filter fun j => sameClause s j w.1).length ≤ (ids.filter fun j => sameClause s j w.1).length := by
      refine (List.subperm_of_subset (hn.sublist List.filter_sublist) fun i hi => ?_).length_le
      obtain ⟨h1, h2⟩ := List.mem_filter.1 hi
      obtain ⟨w', hw', rfl⟩ := List.mem_map.1 h1
      exact List.mem_filter.2 ⟨hs w.1 hm w' hw' h2, h2⟩
    rw [← List.countP_eq_length_filter, ← List.countP_eq_length_filter, List.countP_map] at hle
    exact hle
  rw [List.countP_eq_zero] at h0
  exact h0 w hw (sameClause_self s w.1)

/-- Detaching a clause removes from each list one watcher of a clause with the same content. -/
theorem detach_eq (lrn : Bool) {id c0 c1 : Nat} {r : List Nat} (e : s.data id = c0 :: c1 :: r) (hne : c0 ≠ c1)
    (h1 : ∀ l w, w ∈ s.watches l → ∃ c0 c1 r, s.data w.1 = c0 :: c1 :: r ∧ (neg l = c0 ∨ neg l = c1)) :
    ∃ s', detach lrn id s = some s' ∧ s'.toCore = { s.toCore with watches := fun l => dropWatch s id (s.watches l) } ∧ Keep s s' ∧ s'.heap = s.heap ∧
      s'.seen = s.seen ∧ s'.cact = s.cact ∧ s'.decision = s.decision := by
  have hfil : ∀ l, l ≠ neg c0 → l ≠ neg c1 → dropWatch s id (s.watches l) = s.watches l := by
    intro l n0 n1
    refine dropWatch_none s id _ fun w hw => ?_
    cases hsame : sameClause s w.1 id with
    | false => rfl
    | true =>
      unfold sameClause at hsame
      simp only [Bool.and_eq_true, decide_eq_true_eq] at hsame
      obtain ⟨d0, d1, d, ed, hd⟩ := h1 l w hw
      rw [hsame.1.1, e] at ed
      cases ed
      rcases hd with h | h
      · exact absurd (by rw [← h, neg_neg]) n0
      · exact absurd (by rw [← h, neg_neg]) n1
  unfold detach
  rw [e]
  refine ⟨_, rfl, ?_, ⟨rfl, rfl, rfl, rfl, rfl, rfl, rfl⟩, rfl, rfl, rfl, rfl⟩
  refine watches_congr s.toCore fun l => ?_
  by_cases e1 : l = neg c1
  · rw [e1, upd_self, upd_ne]
    intro h
    exact hne (by rw [← neg_neg c0, ← h, neg_neg])
  · rw [upd_ne _ _ e1]
    by_cases e0 : l = neg c0
    · rw [e0, upd_self]
    · rw [upd_ne _ _ e0, hfil l e0 e1]

theorem dropWatch_congr {s s' : St F} (hd : s'.data = s.data) (hl : s'.learnt = s.learnt) (ha : s'.cact = s.cact) (id : Nat) (ws : List (Nat × Nat)) : dropWatch s' id ws = dropWatch s id ws := by
  induction ws with
  | nil => rfl
  | cons w ws ih => unfold dropWatch sameClause; rw [hd, hl, ha, ih]

theorem detachAll_fold (lrn : Bool) (ids : List Nat) : ∀ {s : St F}, (∀ id ∈ ids, ∃ c0 c1 r, s.data id = c0 :: c1 :: r ∧ c0 ≠ c1) →
    (∀ l w, w ∈ s.watches l → ∃ c0 c1 r, s.data w.1 = c0 :: c1 :: r ∧ (neg l = c0 ∨ neg l = c1)) →
    ∃ s', detachAll lrn ids s = some s' ∧ s'.toCore = { s.toCore with watches := fun l => ids.foldl (fun ws id => dropWatch s id ws) (s.watches l) } ∧ Keep s s' ∧ s'.heap = s.heap ∧
      s'.seen = s.seen ∧ s'.cact = s.cact := by
  induction ids with
  | nil =>
    intro s _ _
    exact ⟨s, rfl, rfl, .refl s, rfl, rfl, rfl⟩
  | cons id ids ih =>
    intro s hd h1
    unfold detachAll
    obtain ⟨c0, c1, r, e, hne⟩ := hd id (by simp)
    obtain ⟨s1, e1, hc1, hk1, hh1, hs1, ha1, _⟩ := detach_eq lrn e hne h1
    rw [e1]
    simp only
    have hw1 : ∀ l, s1.watches l = dropWatch s id (s.watches l) := fun l => by rw [hc1]
    have hdat : s1.data = s.data := by rw [hc1]
    have hlrn : s1.learnt = s.learnt := by rw [hc1]
    obtain ⟨s2, e2, hc2, hk2, hh2, hs2, ha2⟩ := ih (s := s1) (fun i hi => by rw [hdat]; exact hd i (by simp [hi]))
      (fun l w hw => by
        rw [hw1] at hw
        rw [hdat]; exact h1 l w ((dropWatch_sublist s id _).subset hw))
    refine ⟨s2, e2, ?_, hk1.trans hk2, hh2.trans hh1, hs2.trans hs1, ha2.trans ha1⟩
    rw [hc2]
    have hdw : (fun ws id => dropWatch s1 id ws) = fun ws id => dropWatch s id ws := funext fun ws => funext fun i => dropWatch_congr hdat hlrn ha1 i ws
    rw [hdw]
    show ({ s1.toCore with watches := fun l => ids.foldl (fun ws id => dropWatch s id ws) (s1.watches l) } : Core) = _
    rw [hc1]
    rfl

/-- Detaching clauses removes exactly their watchers, unless one of the other clauses has the same content. -/
theorem detachAll_eq (lrn : Bool) (ids : List Nat) {s : St F} (hd : ∀ id ∈ ids, ∃ c0 c1 r, s.data id = c0 :: c1 :: r ∧ c0 ≠ c1)
    (h1 : ∀ l w, w ∈ s.watches l → ∃ c0 c1 r, s.data w.1 = c0 :: c1 :: r ∧ (neg l = c0 ∨ neg l = c1)) (h2 : ∀ l, ((s.watches l).map Prod.fst).Nodup)
    (hs : ∀ id ∈ ids, ∀ l w, w ∈ s.watches l → sameClause s w.1 id = true → w.1 ∈ ids) :
    ∃ s', detachAll lrn ids s = some s' ∧ s'.toCore = { s.toCore with watches := fun l => (s.watches l).filter fun w => w.1 ∉ ids } ∧ Keep s s' ∧ s'.heap = s.heap ∧
      s'.seen = s.seen ∧ s'.cact = s.cact := by
  obtain ⟨s', e, hc, k⟩ := detachAll_fold lrn ids hd h1
  refine ⟨s', e, ?_, k⟩
  rw [hc]
  exact watches_congr s.toCore fun l => dropAll_eq s ids _ (h2 l) fun id hid w hw => hs id hid l w hw

/-! ### Putting the unit clauses back -/

/-- Everything on level zero follows from the unit clauses by unit propagation. -/
theorem Inv.sub_closed {U : List Nat} {c : Core} (h : Inv Φ true U q c) (hl : c.lim = []) {A : Nat → Prop} (hA : Closed c A) (hU : ∀ u ∈ U, A u) :
    ∀ x ∈ c.trail, A x := by
  have key : ∀ t t1 : List Nat, c.trail = t1 ++ t → ∀ x ∈ t, A x := by
    intro t
    induction t with
    | nil => intro _ _ x hx; cases hx
    | cons y t ih =>
      intro t1 e x hx
      have ht := ih (t1 ++ [y]) (by rw [e]; simp)
      rcases List.mem_cons.1 hx with rfl | hx
      · have hm : x ∈ c.trail := by rw [e]; simp
        cases hr : c.reason (vr x) with
        | none =>
          refine hU x (h.incu rfl x hm ?_ hr)
          have := h.lv_le hm
          rw [hl] at this
          simpa using this
        | some id =>
          obtain ⟨r, er, hr'⟩ := h.rsn t1 x t id e hr
          refine hA id (h.incr rfl x hm id hr) x (by rw [er]; simp) fun z hz hne => ?_
          rw [er] at hz
          rcases List.mem_cons.1 hz with rfl | hz
          · exact absurd rfl hne
          · exact ht _ (hr' z hz)
      · exact ht x hx
  exact key c.trail [] rfl

/-- What putting the unit clauses back leaves alone. -/
structure Reloaded (s s' : St F) : Prop where
  keep : Keep s s'
  seen : s'.seen = s.seen
  nvars : s'.nvars = s.nvars
  learnt : s'.learnt = s.learnt
  next : s'.next = s.next
  clauses : s'.clauses = s.clauses
  learnts : s'.learnts = s.learnts
  units : s'.units = s.units
  lim : s'.lim = s.lim
  perm : ∀ i, (s'.data i).Perm (s.data i)

theorem Reloaded.trans {s' s'' : St F} (h : Reloaded s s') (h' : Reloaded s' s'') : Reloaded s s'' :=
  ⟨h.keep.trans h'.keep, h'.seen.trans h.seen, h'.nvars.trans h.nvars, h'.learnt.trans h.learnt, h'.next.trans h.next, h'.clauses.trans h.clauses,
    h'.learnts.trans h.learnts, h'.units.trans h.units, h'.lim.trans h.lim, fun i => (h'.perm i).trans (h.perm i)⟩

theorem reUnit_ok (ls : List Nat) : ∀ {s : St F} {pre : List Nat}, Inv Φ true pre s.qhead s.toCore → s.qhead = s.trail.length → s.lim = [] → HInv s →
    (∀ u ∈ ls, u < 2 * s.nvars ∧ Ent Φ [u]) → (∀ u ∈ pre, u ∈ s.trail) →
    (∀ k u, (pre ++ ls)[k]? = some u → ∃ A : Nat → Prop, (∀ x ∈ (pre ++ ls).take k, A x) ∧ Closed s.toCore A ∧ ¬ A u ∧ ¬ A (neg u)) → s.ok = true →
    ∃ s', reUnit ls s = some s' ∧ Reloaded s s' ∧ HInv s' ∧ (∃ q, Inv Φ true (pre ++ ls) q s'.toCore) ∧
      (s'.ok = true → Inv Φ true (pre ++ ls) s'.qhead s'.toCore ∧ s'.qhead = s'.trail.length ∧ ∀ u ∈ pre ++ ls, u ∈ s'.trail) ∧
      (s'.ok = false → ∀ ρ, ¬ Models ρ Φ) := by
  induction ls with
  | nil =>
    intro s pre h hq hl hh _ hpre _ hok
    refine ⟨s, rfl, ⟨.refl s, rfl, rfl, rfl, rfl, rfl, rfl, rfl, rfl, fun _ => .refl _⟩, hh, ⟨_, by simpa using h⟩, fun _ => ⟨by simpa using h, hq, by simpa using hpre⟩, fun ho => ?_⟩
    rw [hok] at ho; cases ho
  | cons l ls ih =>
    intro s pre h hq hl hh hls hpre hind hok
    unfold reUnit
    rw [if_pos hok]
    obtain ⟨hlr, hle⟩ := hls l (by simp)
    obtain ⟨A, hA1, hA2, hA3, hA4⟩ := hind pre.length l (by simp)
    rw [List.take_left] at hA1
    have hsub := h.sub_closed hl hA2 hA1
    have hn1 : l ∉ s.trail := fun hm => hA3 (hsub l hm)
    have hn2 : neg l ∉ s.trail := fun hm => hA4 (hsub _ hm)
    have hU : Inv Φ true (pre ++ [l]) s.qhead (s.toCore.enqueue l none) :=
      (h.mono_U (U' := pre ++ [l]) fun u hu => List.mem_append_left _ hu).enqueue hn1 hn2 hlr (fun id e => by cases e) (fun _ => .inl ⟨hl, fun _ => by simp⟩) (fun _ => hle)
    have hheap : HInv ({ s with toCore := s.toCore.enqueue l none } : St F) := hh.congr rfl rfl rfl (fun v _ hv => by
      have hv : upd s.asg (vr l) (some (!sgn l)) v = none := hv
      by_cases e : v = vr l
      · subst e; rw [upd_self] at hv; cases hv
      · rwa [upd_ne _ _ e] at hv)
    obtain ⟨⟨s1, confl⟩, e1, hx⟩ := prop_ok (s := { s with toCore := s.toCore.enqueue l none }) hU hheap
    rw [e1]
    simp only
    have hfr := hx.frame
    have hkp := hx.keep
    have hlim1 : s1.lim = [] := hfr.lim.trans hl
    have hrel : ∀ b, Reloaded s { s1 with ok := b } := fun b =>
      ⟨⟨hkp.1, hkp.2, hkp.3, hkp.4, hkp.5, hkp.6, hkp.7⟩, hx.seen, hfr.nvars, hfr.learnt, hfr.next, hfr.clauses, hfr.learnts, hfr.units, hfr.lim, hfr.perm⟩
    have hmem : ∀ x, x = l ∨ x ∈ s.trail → x ∈ s1.trail := by
      obtain ⟨n, en⟩ := hfr.ext
      have en : s1.trail = n ++ l :: s.trail := en
      intro x hx
      rw [en]
      rcases hx with rfl | hx <;> simp [*]
    cases hcf : confl with
    | none =>
      obtain ⟨hq1, hi1⟩ := hx.inv hcf
      have hpre1 : ∀ u ∈ pre ++ [l], u ∈ s1.trail := fun u hu => by
        rcases List.mem_append.1 hu with h' | h'
        · exact hmem u (.inr (hpre u h'))
        · exact hmem u (.inl (List.mem_singleton.1 h'))
      have happ : pre ++ l :: ls = pre ++ [l] ++ ls := by simp
      obtain ⟨s2, e2, r2, k1, k2, k3, k4⟩ := ih (s := { s1 with ok := true }) (pre := pre ++ [l]) { hi1 with } hq1 hlim1 { hx.heap with }
        (fun u hu => by
          have := hls u (by simp [hu])
          exact ⟨by show u < 2 * s1.nvars; rw [hfr.nvars]; exact this.1, this.2⟩) hpre1
        (fun k u e => by
          obtain ⟨A, a1, a2, a3⟩ := hind k u (by rw [happ]; exact e)
          refine ⟨A, by rw [← happ]; exact a1, a2.mono ?_ fun i _ => hfr.perm i, a3⟩
          show ∀ id, id ∈ s1.clauses ∨ id ∈ s1.learnts → _
          rw [hfr.clauses, hfr.learnts]; exact fun _ h => h) rfl
      rw [← happ] at k2 k3
      exact ⟨s2, e2, (hrel true).trans r2, k1, k2, k3, k4⟩
    | some id =>
      obtain ⟨hc, q, hi1⟩ := hx.confl id hcf
      have hr2 : reUnit ls ({ s1 with ok := false } : St F) = some { s1 with ok := false } := by
        cases ls with
        | nil => rfl
        | cons a b => unfold reUnit; rw [if_neg (by simp)]
      refine ⟨_, hr2, hrel false, { hx.heap with }, ⟨q, ?_⟩, (fun ho => by cases ho), fun _ => hi1.unsat hlim1 hc⟩
      have := hi1.mono_U (U' := pre ++ l :: ls) fun u hu => by
        rcases List.mem_append.1 hu with h' | h'
        · exact List.mem_append_left _ h'
        · rw [List.mem_singleton.1 h']; simp
      exact { this with }

/-! ### Snapshots -/

/-- A saved state that can be loaded into the current state, when it was saved with the clauses `Φ`. -/
structure Snap {F : Type} (Φ : List (List Nat)) (st : Saved) (s : St F) : Prop where
  nv : st.nvars ≤ s.nvars
  cl : st.clauses ≤ s.clauses.length
  le : st.learnts ≤ s.learnts.length
  un : st.units ≤ s.units.length
  good : ∀ id, id ∈ s.clauses.take st.clauses ∨ id ∈ s.learnts.take st.learnts → Good Φ st.nvars (s.data id)
  unit : ∀ u ∈ s.units.take st.units, Ent Φ [u]
  urng : st.ok = true → ∀ u ∈ s.units.take st.units, u < 2 * st.nvars
  base : st.ok = true → ∀ ρ, (∀ id ∈ s.clauses.take st.clauses, clT ρ (s.data id)) → (∀ u ∈ s.units.take st.units, litT ρ u) → Models ρ Φ
  bad : st.ok = false → ∀ ρ, ¬ Models ρ Φ

theorem take_prefix {α : Type} {l l' r : List α} (e : l' = l ++ r) {n : Nat} (hn : n ≤ l.length) : l'.take n = l.take n := by
  rw [e, List.take_append_of_le_length hn]

/-- Snapshots stay valid while the solver works on. -/
theorem Snap.ext {st : Saved} {s' : St F} (h : Snap Φ st s) (hid : ∀ id, id ∈ s.clauses ∨ id ∈ s.learnts → id < s.next) (hx : Ext s s') : Snap Φ st s' := by
  obtain ⟨r1, e1, _⟩ := hx.clauses
  obtain ⟨r2, e2, _⟩ := hx.learnts
  obtain ⟨r3, e3⟩ := hx.units
  have t1 := take_prefix e1 h.cl
  have t2 := take_prefix e2 h.le
  have t3 := take_prefix e3 h.un
  have hp : ∀ id, id ∈ s.clauses.take st.clauses ∨ id ∈ s.learnts.take st.learnts → (s'.data id).Perm (s.data id) := fun id hm =>
    hx.perm id (hid id (hm.imp List.mem_of_mem_take List.mem_of_mem_take))
  exact
  { nv := Nat.le_trans h.nv hx.nvars
    cl := by rw [e1, List.length_append]; exact Nat.le_trans h.cl (Nat.le_add_right _ _)
    le := by rw [e2, List.length_append]; exact Nat.le_trans h.le (Nat.le_add_right _ _)
    un := by rw [e3, List.length_append]; exact Nat.le_trans h.un (Nat.le_add_right _ _)
    good := by rw [t1, t2]; exact fun id hm => (h.good id hm).perm (hp id hm)
    unit := by rw [t3]; exact h.unit
    urng := by rw [t3]; exact h.urng
    base := by
      rw [t1, t3]
      exact fun ho ρ h1 h2 => h.base ho ρ (fun id hm => (clT_perm (hp id (.inl hm))).1 (h1 id hm)) h2
    bad := h.bad }

theorem Ready.ids (h : Ready Φ inc s) : ∀ id, id ∈ s.clauses ∨ id ∈ s.learnts → id < s.next := by
  obtain ⟨q, hi⟩ := h.inv
  exact fun id hid => (hi.inv.good id (hid.elim .inl fun h => .inr (.inl h))).2

/-- Unit clauses only speak about known variables. -/
theorem Ready.unit_rng (h : Ready Φ true s) (hok : s.ok = true) : ∀ u ∈ s.units, u < 2 * s.nvars := by
  obtain ⟨q, hi⟩ := h.inv
  exact fun u hu => hi.inv.rng u ((h.rep rfl).pres hok u hu).1

/-- A state just saved can be loaded. -/
theorem save_ok (C : Cfg F) (hinc : C.incremental = true) (h : Ready Φ true s) : ∃ st, save C s = some st ∧ Snap Φ st s ∧
    st.ok = s.ok ∧ st.nvars = s.nvars ∧ st.clauses = s.clauses.length ∧ st.learnts = s.learnts.length ∧ st.units = s.units.length := by
  unfold save
  rw [if_pos hinc]
  obtain ⟨q, hi⟩ := h.inv
  refine ⟨_, rfl, ⟨Nat.le_refl _, Nat.le_refl _, Nat.le_refl _, Nat.le_refl _, ?_, ?_, ?_, ?_, h.bad⟩, rfl, rfl, rfl, rfl, rfl⟩
  · simp only [List.take_length]
    exact fun id hid => (hi.inv.good id (hid.elim .inl fun h => .inr (.inl h))).1
  · simp only [List.take_length]
    exact hi.uent
  · simp only [List.take_length]
    exact h.unit_rng
  · simp only [List.take_length]
    exact h.base rfl

/-- What loading does to the clause lists. -/
structure Loaded {F : Type} (st : Saved) (s s' : St F) : Prop where
  nvars : s'.nvars = st.nvars
  clauses : s'.clauses = s.clauses.take st.clauses
  learnts : s'.learnts = s.learnts.take st.learnts
  units : s'.units = s.units.take st.units
  next : s'.next = s.next
  perm : ∀ i, (s'.data i).Perm (s.data i)
  assumptions : s'.assumptions = s.assumptions
  sel : s'.sel = s.sel
  model : s'.model = s.model
  conflict : s'.conflict = s.conflict

/-- None of the first `n` problem clauses has the same literals as one of the others. -/
def Sep {F : Type} (n : Nat) (s : St F) : Prop := ∀ i ∈ s.clauses.take n, ∀ j ∈ s.clauses.drop n, ¬ (s.data i).Perm (s.data j)

theorem Sep.grew {P : List Nat → Prop} {n : Nat} {s s' : St F} (h : Sep n s) (hn : n ≤ s.clauses.length) (hg : GrewBy P s s')
    (hP : ∀ d, P d → ∀ i ∈ s.clauses, ¬ (s.data i).Perm d) : Sep n s' := by
  obtain ⟨r, e, hp, hr⟩ := hg
  intro i hi j hj
  rw [take_prefix e hn] at hi
  rw [e, List.drop_append_of_le_length hn] at hj
  have hi' := List.mem_of_mem_take hi
  rcases List.mem_append.1 hj with hj | hj
  · exact fun hpm => h i hi j hj ((hp i hi').symm.trans (hpm.trans (hp j (List.mem_of_mem_drop hj))))
  · exact fun hpm => hP _ (hr j hj) i hi' ((hp i hi').symm.trans hpm)

theorem sep_all (s : St F) : Sep s.clauses.length s := fun i _ j hj => by rw [List.drop_length] at hj; cases hj

/-- Each of the problem clauses except the first `n` has a literal of a variable from `N` on. -/
def FreshFrom {F : Type} (n N : Nat) (s : St F) : Prop := ∀ j ∈ s.clauses.drop n, ∃ l ∈ s.data j, 2 * N ≤ l

theorem freshFrom_all (N : Nat) (s : St F) : FreshFrom s.clauses.length N s := fun j hj => by rw [List.drop_length] at hj; cases hj

theorem FreshFrom.grew {P : List Nat → Prop} {n N : Nat} {s s' : St F} (h : FreshFrom n N s) (hn : n ≤ s.clauses.length) (hg : GrewBy P s s')
    (hP : ∀ d, P d → ∃ l ∈ d, 2 * N ≤ l) : FreshFrom n N s' := by
  obtain ⟨r, e, hp, hr⟩ := hg
  intro j hj
  rw [e, List.drop_append_of_le_length hn] at hj
  rcases List.mem_append.1 hj with hj | hj
  · obtain ⟨l, hl, hN⟩ := h j hj
    exact ⟨l, (hp j (List.mem_of_mem_drop hj)).mem_iff.2 hl, hN⟩
  · exact hP _ (hr j hj)

/-- A clause with a new variable is not a copy of an old clause. -/
theorem FreshFrom.sep {st : Saved} (h : FreshFrom st.clauses st.nvars s) (hs : Snap Φ st s) : Sep st.clauses s := by
  intro i hi j hj hp
  obtain ⟨l, hl, hN⟩ := h j hj
  have := (hs.good i (.inl hi)).rng l (hp.mem_iff.2 hl)
  omega

theorem load_ok (C : Cfg F) (hinc : C.incremental = true) {Ψ : List (List Nat)} (h : Ready Ψ true s) {st : Saved} (hs : Snap Φ st s)
    (htw : Sep st.clauses s) (hsel : ∀ l ∈ s.sel, l < 2 * st.nvars) (has : ∀ p ∈ s.assumptions, p < 2 * st.nvars) :
    ∃ s', load C st s = some s' ∧ Ready Φ true s' ∧ Loaded st s s' := by
  obtain ⟨q, hi⟩ := h.inv
  have hrep := h.rep rfl
  unfold load
  rw [if_pos hinc]
  -- backtracking completely
  obtain ⟨s1, e1, hc1, hk1, hsn1, hh1, hz1, hz1'⟩ := backLoop_ok s.nvars 0 hi.heap (by omega)
  rw [e1]
  simp only
  have hasg1 : ∀ v, s1.asg v = none := fun v => by
    by_cases hv : v < s.nvars
    · exact (hz1 v (by omega) (by omega)).1
    · rw [(hz1' v (.inr (by omega))).1]; exact hi.inv.asg_ge (by omega)
  have hn1 : s1.nvars = s.nvars := by rw [hc1]
  have hmin : min st.nvars s1.nvars = st.nvars := by rw [hn1]; exact Nat.min_eq_left hs.nv
  rw [hmin]
  obtain ⟨s2, h2, e2, es2, hcons2, hlen2, hmem2⟩ := heapCut_ok st.nvars (s1.nvars - st.nvars) (s := { s1 with trail := [], lim := [], qhead := 0, ok := st.ok }) hh1.cons
    (fun w hw1 hw2 => hh1.mem w (by have := hs.nv; omega) (hasg1 w))
  rw [e2]
  simp only
  -- the state in which clauses are detached
  obtain ⟨s3, hs3⟩ : ∃ s3 : St F, s3 = { s2 with nvars := st.nvars } := ⟨_, rfl⟩
  rw [← hs3]
  have hcl3 : s3.clauses = s.clauses := by rw [hs3, es2]; show s1.clauses = _; rw [hc1]
  have hle3 : s3.learnts = s.learnts := by rw [hs3, es2]; show s1.learnts = _; rw [hc1]
  have hda3 : s3.data = s.data := by rw [hs3, es2]; show s1.data = _; rw [hc1]
  have hlr3 : s3.learnt = s.learnt := by rw [hs3, es2]; show s1.learnt = _; rw [hc1]
  have hwa3 : s3.watches = s.watches := by rw [hs3, es2]; show s1.watches = _; rw [hc1]
  have hun3 : s3.units = s.units := by rw [hs3, es2]; show s1.units = _; rw [hc1]
  have hnx3 : s3.next = s.next := by rw [hs3, es2]; show s1.next = _; rw [hc1]
  have hnv3 : s3.nvars = st.nvars := by rw [hs3]
  have htr3 : s3.trail = [] := by rw [hs3, es2]
  have hli3 : s3.lim = [] := by rw [hs3, es2]
  have hqh3 : s3.qhead = 0 := by rw [hs3, es2]
  have hok3 : s3.ok = st.ok := by rw [hs3, es2]
  have has3 : ∀ v, s3.asg v = none := by rw [hs3, es2]; exact hasg1
  have hsn3 : s3.seen = s.seen := by rw [hs3, es2]; exact hsn1
  have hk3 : Keep s s3 := by rw [hs3, es2]; exact ⟨hk1.1, hk1.2, hk1.3, hk1.4, hk1.5, hk1.6, hk1.7⟩
  have hrs3 : ∀ v < st.nvars, s3.reason v = none := by
    rw [hs3, es2]
    exact fun v hv => (hz1 v (by omega) (by have := hs.nv; omega)).2
  have hh3 : HInv s3 := by
    rw [hs3, es2]
    exact
    { cons := hcons2
      rng := fun v hv => by
        obtain ⟨a, b⟩ := (hmem2 v).1 hv
        have a := hh1.rng v a
        have b : ¬ (st.nvars ≤ v ∧ v < st.nvars + (s1.nvars - st.nvars)) := b
        show v < st.nvars
        omega
      dec := fun v hv => hh1.dec v (by have hv : v < st.nvars := hv; have := hs.nv; omega)
      mem := fun v hv ha => (hmem2 v).2 ⟨hh1.mem v (by have hv : v < st.nvars := hv; have := hs.nv; omega) ha, by
        have hv : v < st.nvars := hv
        omega⟩
      len := by
        show st.nvars ≤ h2.idx.length
        rw [hlen2]
        have := hh1.len
        have := hs.nv
        show st.nvars ≤ s1.heap.idx.length
        omega }
  have hfull : ∀ id, id ∈ s.clauses ∨ id ∈ s.learnts → ∃ c0 c1 r, s.data id = c0 :: c1 :: r ∧ c0 ≠ c1 := fun id hid => by
    have hg := (hi.inv.good id (hid.elim .inl fun h => .inr (.inl h))).1
    have := hg.two
    have hnd := hg.nodup
    match hd : s.data id with
    | [] => rw [hd] at this; simp at this
    | [_] => rw [hd] at this; simp at this
    | c0 :: c1 :: r =>
      rw [hd] at hnd
      simp only [List.nodup_cons, List.mem_cons, not_or] at hnd
      exact ⟨c0, c1, r, rfl, hnd.1.1⟩
  rw [show s2.clauses = s3.clauses by rw [hs3]]
  have hcmin : min st.clauses s3.clauses.length = st.clauses := by rw [hcl3]; exact Nat.min_eq_left hs.cl
  rw [hcmin]
  obtain ⟨D1, hD1⟩ : ∃ D1, D1 = (s.clauses.drop st.clauses).reverse := ⟨_, rfl⟩
  have hD1m : ∀ id ∈ D1, id ∈ s.clauses := fun id hm => by rw [hD1] at hm; exact List.mem_of_mem_drop (List.mem_reverse.1 hm)
  obtain ⟨s4, e4, hc4, hk4, hh4, hsn4, hca4⟩ := detachAll_eq false D1 (s := s3) (fun id hm => by rw [hda3]; exact hfull id (.inl (hD1m id hm)))
    (by rw [hwa3, hda3]; exact hi.inv.w1) (by rw [hwa3]; exact hi.inv.w2)
    (fun id hm l w hw hsame => by
      rw [hwa3] at hw
      unfold sameClause at hsame
      simp only [Bool.and_eq_true, decide_eq_true_eq, beq_iff_eq] at hsame
      rw [hda3, hlr3] at hsame
      rcases hi.inv.incw rfl l w hw with hwc | hwl
      · rw [← List.take_append_drop st.clauses s.clauses] at hwc
        rw [hD1, List.mem_reverse] at hm ⊢
        rcases List.mem_append.1 hwc with hwc | hwc
        · exact absurd (by rw [hsame.1.1]) (htw w.1 hwc id hm)
        · exact hwc
      · have := hi.flag.2 w.1 hwl
        rw [hsame.1.2, hi.flag.1 id (hD1m id hm)] at this
        cases this)
  rw [show (s3.clauses.drop st.clauses).reverse = D1 by rw [hcl3, hD1], e4]
  simp only
  obtain ⟨D2, hD2⟩ : ∃ D2, D2 = (s.learnts.drop st.learnts).reverse := ⟨_, rfl⟩
  have hD2m : ∀ id ∈ D2, id ∈ s.learnts := fun id hm => by rw [hD2] at hm; exact List.mem_of_mem_drop (List.mem_reverse.1 hm)
  obtain ⟨s5, hs5⟩ : ∃ s5 : St F, s5 = { s4 with clauses := s4.clauses.take st.clauses } := ⟨_, rfl⟩
  rw [← hs5]
  have hle5 : s5.learnts = s.learnts := by rw [hs5]; show s4.learnts = _; rw [hc4]; exact hle3
  have hda5 : s5.data = s.data := by rw [hs5]; show s4.data = _; rw [hc4]; exact hda3
  have hlr5 : s5.learnt = s.learnt := by rw [hs5]; show s4.learnt = _; rw [hc4]; exact hlr3
  have hwa5 : ∀ l, s5.watches l = (s.watches l).filter fun w => w.1 ∉ D1 := fun l => by
    rw [hs5]; show s4.watches l = _; rw [hc4]
    show (s3.watches l).filter _ = _
    rw [hwa3]
  rw [show s4.learnts = s5.learnts by rw [hs5]]
  have hlmin : min st.learnts s5.learnts.length = st.learnts := by rw [hle5]; exact Nat.min_eq_left hs.le
  rw [hlmin]
  obtain ⟨s6, e6, hc6, hk6, hh6, hsn6, _⟩ := detachAll_eq true D2 (s := s5) (fun id hm => by rw [hda5]; exact hfull id (.inr (hD2m id hm)))
    (fun l w hw => by
      rw [hwa5] at hw
      rw [hda5]; exact hi.inv.w1 l w (List.mem_filter.1 hw).1)
    (fun l => by rw [hwa5]; exact (hi.inv.w2 l).sublist (List.filter_sublist.map _))
    (fun id hm l w hw hsame => by
      rw [hwa5] at hw
      have hw := (List.mem_filter.1 hw).1
      unfold sameClause at hsame
      simp only [Bool.and_eq_true, decide_eq_true_eq, beq_iff_eq] at hsame
      rw [hda5, hlr5] at hsame
      rcases hi.inv.incw rfl l w hw with hwc | hwl
      · have := hi.flag.2 id (hD2m id hm)
        rw [← hsame.1.2, hi.flag.1 w.1 hwc] at this
        cases this
      · rw [hrep.tw w.1 hwl id (hD2m id hm) (by rw [hsame.1.1])]; exact hm)
  rw [show (s5.learnts.drop st.learnts).reverse = D2 by rw [hle5, hD2], e6]
  simp only
  -- the state in which the unit clauses are put back
  obtain ⟨s7, hs7⟩ : ∃ s7 : St F, s7 = { s6 with
    learnts := s6.learnts.take st.learnts
    watches := fun l => if l < 2 * st.nvars then s6.watches l else []
    units := s6.units.take st.units } := ⟨_, rfl⟩
  rw [← hs7]
  have hcl7 : s7.clauses = s.clauses.take st.clauses := by
    rw [hs7]; show s6.clauses = _; rw [hc6]; show s5.clauses = _; rw [hs5]; show s4.clauses.take _ = _; rw [hc4]; show s3.clauses.take _ = _; rw [hcl3]
  have hle7 : s7.learnts = s.learnts.take st.learnts := by rw [hs7]; show s6.learnts.take _ = _; rw [hc6]; show s5.learnts.take _ = _; rw [hle5]
  have hda7 : s7.data = s.data := by rw [hs7]; show s6.data = _; rw [hc6]; exact hda5
  have hlr7 : s7.learnt = s.learnt := by rw [hs7]; show s6.learnt = _; rw [hc6]; exact hlr5
  have hun7 : s7.units = s.units.take st.units := by
    rw [hs7]; show s6.units.take _ = _; rw [hc6]; show s5.units.take _ = _; rw [hs5]; show s4.units.take _ = _; rw [hc4]; show s3.units.take _ = _; rw [hun3]
  have hwa7 : ∀ l, s7.watches l = if l < 2 * st.nvars then ((s.watches l).filter fun w => w.1 ∉ D1).filter (fun w => w.1 ∉ D2) else [] := fun l => by
    rw [hs7]; show (if l < 2 * st.nvars then s6.watches l else []) = _
    rw [hc6]; show (if l < 2 * st.nvars then (s5.watches l).filter _ else []) = _; rw [hwa5]
  have core7 : ∀ {α : Type} (f : Core → α), (∀ (c : Core) cl w, f { c with clauses := cl, watches := w } = f c) → (∀ (c : Core) w, f { c with watches := w } = f c) →
      (∀ (c : Core) l w u, f { c with learnts := l, watches := w, units := u } = f c) → f s7.toCore = f s3.toCore := by
    intro α f g1 g2 g3
    rw [hs7]
    show f { s6.toCore with learnts := _, watches := _, units := _ } = _
    rw [g3, hc6, g2, hs5]
    show f { s4.toCore with clauses := _ } = _
    rw [show ({ s4.toCore with clauses := s4.clauses.take st.clauses } : Core) = { s4.toCore with clauses := s4.clauses.take st.clauses, watches := s4.watches } from rfl, g1, hc4, g2]
  have hnv7 : s7.nvars = st.nvars := (core7 (fun c => c.nvars) (fun _ _ _ => rfl) (fun _ _ => rfl) (fun _ _ _ _ => rfl)).trans hnv3
  have hnx7 : s7.next = s.next := (core7 (fun c => c.next) (fun _ _ _ => rfl) (fun _ _ => rfl) (fun _ _ _ _ => rfl)).trans hnx3
  have htr7 : s7.trail = [] := (core7 (fun c => c.trail) (fun _ _ _ => rfl) (fun _ _ => rfl) (fun _ _ _ _ => rfl)).trans htr3
  have hli7 : s7.lim = [] := (core7 (fun c => c.lim) (fun _ _ _ => rfl) (fun _ _ => rfl) (fun _ _ _ _ => rfl)).trans hli3
  have hqh7 : s7.qhead = 0 := (core7 (fun c => c.qhead) (fun _ _ _ => rfl) (fun _ _ => rfl) (fun _ _ _ _ => rfl)).trans hqh3
  have hok7 : s7.ok = st.ok := (core7 (fun c => c.ok) (fun _ _ _ => rfl) (fun _ _ => rfl) (fun _ _ _ _ => rfl)).trans hok3
  have has7 : ∀ v, s7.asg v = none := fun v => (core7 (fun c => c.asg v) (fun _ _ _ => rfl) (fun _ _ => rfl) (fun _ _ _ _ => rfl)).trans (has3 v)
  have hsn7 : s7.seen = s.seen := by
    rw [hs7]; show s6.seen = _; rw [hsn6, hs5]; show s4.seen = _; rw [hsn4, hsn3]
  have hk45 : Keep s4 s5 := by rw [hs5]; exact ⟨rfl, rfl, rfl, rfl, rfl, rfl, rfl⟩
  have hk67 : Keep s6 s7 := by rw [hs7]; exact ⟨rfl, rfl, rfl, rfl, rfl, rfl, rfl⟩
  have hk7 : Keep s s7 := (((hk3.trans hk4).trans hk45).trans hk6).trans hk67
  have hhp7 : s7.heap = s3.heap := by
    rw [hs7]; show s6.heap = _; rw [hh6, hs5]; show s4.heap = _; rw [hh4]
  have hh7 : HInv s7 := hh3.congr (by rw [hnv7, hnv3]) hhp7 (hk7.decision.trans hk3.decision.symm) (fun v _ _ => has3 v)
  -- watchers of kept clauses stay
  have hkeep : ∀ l w, w ∈ s7.watches l ↔ l < 2 * st.nvars ∧ w ∈ s.watches l ∧ (w.1 ∈ s7.clauses ∨ w.1 ∈ s7.learnts) := by
    intro l w
    have hnod := hi.cnod
    have hsplit : ∀ (l : List Nat) (n id : Nat), id ∈ l → l.Nodup → (id ∉ (l.drop n).reverse ↔ id ∈ l.take n) := by
      intro l n id hm hn
      rw [List.mem_reverse]
      rw [← List.take_append_drop n l] at hm hn
      constructor
      · intro h'
        rcases List.mem_append.1 hm with h'' | h''
        · exact h''
        · exact absurd h'' h'
      · intro h' h''
        exact (List.nodup_append.1 hn).2.2 id h' id h'' rfl
    obtain ⟨n1, n2, n3⟩ := List.nodup_append.1 hnod
    rw [hwa7]
    by_cases hlt : l < 2 * st.nvars
    · rw [if_pos hlt]
      simp only [List.mem_filter, decide_eq_true_eq, hlt, true_and]
      constructor
      · rintro ⟨⟨hw, a⟩, b⟩
        refine ⟨hw, ?_⟩
        rcases hi.inv.incw rfl l w hw with h' | h'
        · left; rw [hcl7]; rw [hD1] at a; exact (hsplit _ _ _ h' n1).1 a
        · right; rw [hle7]; rw [hD2] at b; exact (hsplit _ _ _ h' n2).1 b
      · rintro ⟨hw, hm⟩
        refine ⟨⟨hw, fun h1 => ?_⟩, fun h2 => ?_⟩
        · rcases hm with h' | h'
          · rw [hcl7] at h'
            rw [hD1] at h1
            exact (hsplit _ _ _ (List.mem_of_mem_take h') n1).2 h' h1
          · rw [hle7] at h'
            exact n3 _ (hD1m _ h1) _ (List.mem_of_mem_take h') rfl
        · rcases hm with h' | h'
          · rw [hcl7] at h'
            exact n3 _ (List.mem_of_mem_take h') _ (hD2m _ h2) rfl
          · rw [hle7] at h'
            rw [hD2] at h2
            exact (hsplit _ _ _ (List.mem_of_mem_take h') n2).2 h' h2
    · rw [if_neg hlt]
      simp [hlt]
  have hgood7 : ∀ id, id ∈ s7.clauses ∨ id ∈ s7.learnts → Good Φ st.nvars (s7.data id) ∧ id < s7.next := by
    intro id hm
    rw [hda7, hnx7]
    rw [hcl7, hle7] at hm
    exact ⟨hs.good id hm, h.ids id (hm.imp List.mem_of_mem_take List.mem_of_mem_take)⟩
  have hval7 : ∀ l, s7.value l = none := fun l => by unfold Core.value; rw [has7]; rfl
  have hinv7 : ∀ U, Inv Φ true U 0 s7.toCore := by
    intro U
    exact
    { twf := by rw [htr7, hli7]; exact TWf.nil
      val := fun l => by rw [hval7, htr7]; simp
      nodup := by rw [htr7]; exact List.nodup_nil
      rng := fun l hl => by rw [htr7] at hl; cases hl
      rsn := fun t1 x t2 id e => by rw [htr7] at e; simp at e
      dec := fun t1 x t2 e => by rw [htr7] at e; simp at e
      limq := fun n hn => by rw [hli7] at hn; cases hn
      qle := Nat.zero_le _
      good := fun id hid => by
        rw [hnv7]
        apply hgood7
        rcases hid with h' | h' | ⟨l, w, hw, e⟩ | ⟨x, hx, _⟩
        · exact .inl h'
        · exact .inr h'
        · rw [← e]; exact ((hkeep l w).1 hw).2.2
        · rw [htr7] at hx; cases hx
      w1 := fun l w hw => by rw [hda7]; exact hi.inv.w1 l w ((hkeep l w).1 hw).2.1
      w2 := fun l => by
        rw [hwa7]
        split
        · exact ((hi.inv.w2 l).sublist (List.filter_sublist.map _)).sublist (List.filter_sublist.map _)
        · simp
      blk := fun l w hw => by
        rcases hi.inv.blk l w ((hkeep l w).1 hw).2.1 with h' | ⟨h', _⟩
        · left; rw [hda7]; exact h'
        · cases h'
      mutual_ := fun id c0 c1 r b0 b1 e m0 m1 => by
        rw [hda7] at e
        exact hi.inv.mutual_ _ _ _ _ _ _ e ((hkeep _ _).1 m0).2.1 ((hkeep _ _).1 m1).2.1
      valid := fun l hl => by unfold Core.done at hl; rw [htr7] at hl; simp at hl
      cov := fun id hid => by
        right
        have hid : id ∈ s7.clauses ∨ id ∈ s7.learnts := by
          unfold Core.db at hid
          simpa using hid
        have hold : id ∈ s.db true := by
          unfold Core.db
          have := hid
          rw [hcl7, hle7] at this
          have := this.imp List.mem_of_mem_take List.mem_of_mem_take
          simpa using this
        rcases hi.inv.cov id hold with ⟨h', _⟩ | ⟨c0, c1, r, e, m0, m1⟩
        · cases h'
        · have hg := (hgood7 id hid).1
          rw [hda7, e] at hg
          refine ⟨c0, c1, r, by rw [hda7]; exact e, ?_, ?_⟩
          · obtain ⟨w, hw, ew⟩ := List.mem_map.1 m0
            exact List.mem_map.2 ⟨w, (hkeep _ w).2 ⟨neg_lt.2 (hg.rng c0 (by simp)), hw, by rw [ew]; exact hid⟩, ew⟩
          · obtain ⟨w, hw, ew⟩ := List.mem_map.1 m1
            exact List.mem_map.2 ⟨w, (hkeep _ w).2 ⟨neg_lt.2 (hg.rng c1 (by simp)), hw, by rw [ew]; exact hid⟩, ew⟩
      zero := fun x hx => by rw [htr7] at hx; cases hx
      incw := fun _ l w hw => ((hkeep l w).1 hw).2.2
      incr := fun _ x hx => by rw [htr7] at hx; cases hx
      incu := fun _ x hx => by rw [htr7] at hx; cases hx }
  have hsub7 : ∀ id, id ∈ s7.clauses ∨ id ∈ s7.learnts → id ∈ s.clauses ∨ id ∈ s.learnts := by
    rw [hcl7, hle7]
    exact fun id hm => hm.imp List.mem_of_mem_take List.mem_of_mem_take
  have hind7 : ∀ k u, s7.units[k]? = some u → ∃ A : Nat → Prop, (∀ x ∈ s7.units.take k, A x) ∧ Closed s7.toCore A ∧ ¬ A u ∧ ¬ A (neg u) := by
    intro k u e
    rw [hun7] at e ⊢
    have hk : k < st.units := by
      have := (List.getElem?_eq_some_iff.1 e).1
      rw [List.length_take] at this
      omega
    rw [List.getElem?_take_of_lt hk] at e
    obtain ⟨A, a1, a2, _, a3⟩ := hrep.ind k u e
    refine ⟨A, fun x hx => a1 x ?_, a2.mono hsub7 fun i _ => by rw [hda7], a3⟩
    rw [List.take_take, Nat.min_eq_left (Nat.le_of_lt hk)] at hx
    exact hx
  -- putting the unit clauses back
  have hre : ∃ s8, reUnit s7.units s7 = some s8 ∧ Reloaded s7 s8 ∧ HInv s8 ∧ (∃ q, Inv Φ true s7.units q s8.toCore) ∧
      (s8.ok = true → Inv Φ true s7.units s8.qhead s8.toCore ∧ s8.qhead = s8.trail.length ∧ ∀ u ∈ s7.units, u ∈ s8.trail) ∧
      (s8.ok = false → ∀ ρ, ¬ Models ρ Φ) ∧ (s8.ok = true → st.ok = true) := by
    cases hst : st.ok with
    | true =>
      obtain ⟨s8, a, b, c, d, e, f⟩ := reUnit_ok s7.units (Φ := Φ) (s := s7) (pre := []) (by rw [hqh7]; exact hinv7 []) (by rw [hqh7, htr7]; rfl) hli7 hh7
        (by rw [hun7, hnv7]; exact fun u hu => ⟨hs.urng hst u hu, hs.unit u hu⟩) (by simp) (by simpa using hind7) (hok7.trans hst)
      exact ⟨s8, a, b, c, by simpa using d, by simpa using e, f, fun _ => rfl⟩
    | false =>
      refine ⟨s7, ?_, ⟨.refl s7, rfl, rfl, rfl, rfl, rfl, rfl, rfl, rfl, fun _ => .refl _⟩, hh7, ⟨0, hinv7 _⟩, ?_, fun _ => hs.bad hst, ?_⟩
      · cases s7.units with
        | nil => rfl
        | cons a b => unfold reUnit; rw [if_neg (by rw [hok7, hst]; simp)]
      · intro ho; rw [hok7, hst] at ho; cases ho
      · intro ho; rw [hok7, hst] at ho; cases ho
  obtain ⟨s8, e8, r8, hh8, ⟨q8, hq8⟩, hfull8, hbad8, hstok8⟩ := hre
  rw [show s6.units.take st.units = s7.units by rw [hs7], e8]
  simp only [Option.map_some]
  obtain ⟨s9, hs9⟩ : ∃ s9 : St F, s9 = if C.proofGen = true then { s8 with pgOrig := s8.pgOrig.take st.orig, pgProof := s8.pgProof.take st.proof } else s8 := ⟨_, rfl⟩
  rw [← hs9]
  have hc9 : s9.toCore = s8.toCore := by rw [hs9]; split <;> rfl
  have hlim8 : s8.lim = [] := r8.lim.trans hli7
  have hcl8 : s8.clauses = s.clauses.take st.clauses := r8.clauses.trans hcl7
  have hle8 : s8.learnts = s.learnts.take st.learnts := r8.learnts.trans hle7
  have hun8 : s8.units = s.units.take st.units := r8.units.trans hun7
  have hperm8 : ∀ i, (s8.data i).Perm (s.data i) := fun i => by have := r8.perm i; rw [hda7] at this; exact this
  have hlv8 : ∀ x ∈ s8.trail, s8.lv x = 0 := fun x hx => by
    have := hq8.lv_le hx
    rw [hlim8] at this
    simpa using this
  have hpermC : ∀ {ρ : Nat → Bool}, (∀ id ∈ s8.clauses, clT ρ (s8.data id)) → ∀ id ∈ s.clauses.take st.clauses, clT ρ (s.data id) := fun h1 id hm =>
    (clT_perm (hperm8 id)).1 (h1 id (by rw [hcl8]; exact hm))
  have hS : ∀ {q}, Inv Φ true s7.units q s8.toCore → SInv Φ true q s8 := by
    intro q hq
    exact
    { inv := by rw [hun8, ← hun7]; exact hq
      heap := hh8
      seen := by rw [r8.seen, hsn7]; exact hi.seen
      eqv := fun ho ρ h1 h2 => hs.base (hstok8 ho) ρ (hpermC h1) fun u hu => by
        have hm := (hfull8 ho).2.2 u (by rw [hun7]; exact hu)
        exact h2 u hm (hlv8 u hm)
      uent := by rw [hun8]; exact hs.unit
      cnod := by
        rw [hcl8, hle8]
        exact hi.cnod.sublist (List.Sublist.append (List.take_sublist _ _) (List.take_sublist _ _))
      flag := by
        rw [hcl8, hle8, r8.learnt, hlr7]
        exact ⟨fun id hm => hi.flag.1 id (List.mem_of_mem_take hm), fun id hm => hi.flag.2 id (List.mem_of_mem_take hm)⟩
      sel := by rw [r8.keep.sel, hk7.sel, r8.nvars, hnv7]; exact hsel
      arng := by rw [r8.keep.assumptions, hk7.assumptions, r8.nvars, hnv7]; exact has
      apos := fun i p hlt _ => by rw [hlim8] at hlt; simp at hlt
      adec := fun x hx _ h0 _ => by rw [hlv8 x hx] at h0; omega }
  have hsub8 : ∀ id, id ∈ s8.clauses ∨ id ∈ s8.learnts → id ∈ s7.clauses ∨ id ∈ s7.learnts := by rw [r8.clauses, r8.learnts]; exact fun _ h => h
  have hR8 : RInv s8.toCore :=
    { ind := fun k u e => by
        rw [r8.units] at e ⊢
        obtain ⟨A, a1, a2, a3, a4⟩ := hind7 k u e
        have a2' : Closed s8.toCore A := a2.mono hsub8 fun i _ => r8.perm i
        cases ho : s8.ok with
        | false => exact ⟨A, a1, a2', (fun h => by cases h), a3, a4⟩
        | true =>
          obtain ⟨b1, b2, b3⟩ := hfull8 ho
          refine ⟨fun x => A x ∧ x ∈ s8.trail, fun x hx => ⟨a1 x hx, b3 x (List.mem_of_mem_take hx)⟩, ?_, fun _ x hx => ⟨hx.2, hlv8 x hx.2⟩, fun h => a3 h.1, fun h => a4 h.1⟩
          intro id hid l hl hall
          exact ⟨a2' id hid l hl fun y hy hne => (hall y hy hne).1, b1.closed b2 id hid l hl fun y hy hne => (hall y hy hne).2⟩
      pres := fun ho u hu => by
        rw [r8.units] at hu
        have hm := (hfull8 ho).2.2 u hu
        exact ⟨hm, hlv8 u hm⟩
      tw := by
        rw [hle8]
        exact hrep.tw.mono (fun i hm => List.mem_of_mem_take hm) fun i _ => hperm8 i }
  have hready8 : Ready Φ true s8 :=
    { inv := ⟨q8, hS hq8⟩
      lim := hlim8
      full := fun ho => ⟨hS (hfull8 ho).1, (hfull8 ho).2.1⟩
      bad := hbad8
      rep := fun _ => hR8
      base := fun _ ho ρ h1 h2 => hs.base (hstok8 ho) ρ (hpermC h1) (by rw [hun8] at h2; exact h2) }
  refine ⟨s9, rfl, hready8.of_eq hc9 ?_ ?_ ?_ ?_ ?_, ?_⟩
  · rw [hs9]; split <;> rfl
  · rw [hs9]; split <;> rfl
  · rw [hs9]; split <;> rfl
  · rw [hs9]; split <;> rfl
  · rw [hs9]; split <;> rfl
  · refine ⟨?_, ?_, ?_, ?_, ?_, ?_, ?_, ?_, ?_, ?_⟩
    · rw [hc9, r8.nvars, hnv7]
    · rw [hc9, hcl8]
    · rw [hc9, hle8]
    · rw [hc9, hun8]
    · rw [hc9, r8.next, hnx7]
    · rw [hc9]; exact hperm8
    · have : s9.assumptions = s8.assumptions := by rw [hs9]; split <;> rfl
      rw [this, r8.keep.assumptions, hk7.assumptions]
    · have : s9.sel = s8.sel := by rw [hs9]; split <;> rfl
      rw [this, r8.keep.sel, hk7.sel]
    · have : s9.model = s8.model := by rw [hs9]; split <;> rfl
      rw [this, r8.keep.model, hk7.model]
    · have : s9.conflict = s8.conflict := by rw [hs9]; split <;> rfl
      rw [this, r8.keep.conflict, hk7.conflict]

/-- Older snapshots stay valid after loading. -/
theorem Snap.loaded {st0 st : Saved} {s' : St F} (h : Snap Φ st0 s) (hl : Loaded st s s') (hn : st0.nvars ≤ st.nvars) (hc : st0.clauses ≤ st.clauses)
    (hle : st0.learnts ≤ st.learnts) (hu : st0.units ≤ st.units) : Snap Φ st0 s' := by
  have t1 : s'.clauses.take st0.clauses = s.clauses.take st0.clauses := by rw [hl.clauses, List.take_take, Nat.min_eq_left hc]
  have t2 : s'.learnts.take st0.learnts = s.learnts.take st0.learnts := by rw [hl.learnts, List.take_take, Nat.min_eq_left hle]
  have t3 : s'.units.take st0.units = s.units.take st0.units := by rw [hl.units, List.take_take, Nat.min_eq_left hu]
  exact
  { nv := by rw [hl.nvars]; exact hn
    cl := by rw [hl.clauses, List.length_take]; have := h.cl; omega
    le := by rw [hl.learnts, List.length_take]; have := h.le; omega
    un := by rw [hl.units, List.length_take]; have := h.un; omega
    good := by rw [t1, t2]; exact fun id hm => (h.good id hm).perm (hl.perm id)
    unit := by rw [t3]; exact h.unit
    urng := by rw [t3]; exact h.urng
    base := by
      rw [t1, t3]
      exact fun ho ρ h1 h2 => h.base ho ρ (fun id hm => (clT_perm (hl.perm id)).1 (h1 id hm)) h2
    bad := h.bad }

end
end Verif.Sat
