import Verif.Sat.Learn
import Verif.Sat.Sort
/-
Removing clauses: satisfied clauses on level 0 (`simplify`) and inactive learnt clauses (`reduce_db`).  Both only
happen without the incremental mode.
-/
namespace Verif.Sat
open Core

section
variable {Φ : List (List Nat)} {U : List Nat} {q : Nat} {s : Core}

/-- Dropping watchers, reasons of level 0, and clauses. -/
theorem Inv.drop (h : Inv Φ false U q s) {w' : Nat → List (Nat × Nat)} {rs : Nat → Option Nat} {cs ls : List Nat}
    (hw : ∀ l, (w' l).Sublist (s.watches l)) (hr : ∀ v, rs v = s.reason v ∨ (rs v = none ∧ ∀ x ∈ s.trail, vr x = v → s.lv x = 0))
    (hcs : ∀ id ∈ cs, id ∈ s.clauses) (hls : ∀ id ∈ ls, id ∈ s.learnts)
    (hcov : ∀ id ∈ cs, (∃ t ∈ s.data id, t ∈ s.trail ∧ s.lv t = 0) ∨ ∀ l w, w ∈ s.watches l → w.1 = id → w ∈ w' l) :
    Inv Φ false U q { s with watches := w', reason := rs, clauses := cs, learnts := ls } := by
  have hrs : ∀ {v id : Nat}, rs v = some id → s.reason v = some id := by
    intro v id e
    rcases hr v with h' | ⟨h', _⟩
    · rw [← h']; exact e
    · rw [h'] at e; cases e
  exact
  { twf := h.twf
    val := h.val
    nodup := h.nodup
    rng := h.rng
    rsn := fun t1 x t2 id ht e => h.rsn t1 x t2 id ht (hrs e)
    dec := by
      intro t1 x t2 ht e
      have e : rs (vr x) = none := e
      have ht : s.trail = t1 ++ x :: t2 := ht
      rcases hr (vr x) with h' | ⟨_, h'⟩
      · exact h.dec t1 x t2 ht (by rw [← h']; exact e)
      · exact .inl (h' x (by rw [ht]; simp) rfl)
    limq := h.limq
    qle := h.qle
    good := by
      intro id hid
      refine h.good id ?_
      rcases hid with h' | h' | ⟨l, w, hw', rfl⟩ | ⟨x, hx, e⟩
      · exact .inl (hcs id h')
      · exact .inr (.inl (hls id h'))
      · exact .inr (.inr (.inl ⟨l, w, (hw l).subset hw', rfl⟩))
      · exact .inr (.inr (.inr ⟨x, hx, hrs e⟩))
    w1 := fun l w hw' => h.w1 l w ((hw l).subset hw')
    w2 := fun l => (h.w2 l).sublist ((hw l).map _)
    blk := fun l w hw' => h.blk l w ((hw l).subset hw')
    mutual_ := fun id c0 c1 r b0 b1 e m0 m1 => h.mutual_ id c0 c1 r b0 b1 e ((hw _).subset m0) ((hw _).subset m1)
    valid := fun l hl w hw' => h.valid l hl w ((hw l).subset hw')
    cov := by
      intro id hid
      have hid : id ∈ cs ++ [] := hid
      rw [List.append_nil] at hid
      rcases hcov id hid with h' | h'
      · exact .inl ⟨rfl, h'⟩
      · refine (h.cov id (List.mem_append_left _ (hcs id hid))).imp (fun h => h) ?_
        rintro ⟨c0, c1, r, e, m0, m1⟩
        refine ⟨c0, c1, r, e, ?_, ?_⟩
        · obtain ⟨w, hw', e'⟩ := List.mem_map.1 m0
          exact List.mem_map.2 ⟨w, h' _ w hw' e', e'⟩
        · obtain ⟨w, hw', e'⟩ := List.mem_map.1 m1
          exact List.mem_map.2 ⟨w, h' _ w hw' e', e'⟩
    zero := h.zero
    incw := fun e => (nomatch e)
    incr := fun e => (nomatch e)
    incu := fun e => (nomatch e) }

/-- Removing literals false on level 0 from the unwatched part of a clause. -/
theorem Inv.strip (h : Inv Φ false U q s) {id c0 c1 : Nat} {r r' : List Nat} (e : s.data id = c0 :: c1 :: r) (hlive : s.Live id)
    (hsub : ∀ y ∈ r', y ∈ r) (hnod : r'.Nodup) (hrem : ∀ y ∈ r, y ∉ r' → neg y ∈ s.trail ∧ s.lv y = 0) :
    Inv Φ false U q { s with data := upd s.data id (c0 :: c1 :: r') } := by
  have hd : ∀ i, upd s.data id (c0 :: c1 :: r') i = s.data i ∨ (i = id ∧ upd s.data id (c0 :: c1 :: r') i = c0 :: c1 :: r') := by
    intro i
    unfold upd
    split
    · next hi => exact .inr ⟨hi, rfl⟩
    · exact .inl rfl
  have hsub' : ∀ i, ∀ t ∈ s.data i, t ∈ upd s.data id (c0 :: c1 :: r') i ∨ (neg t ∈ s.trail ∧ s.lv t = 0) := by
    intro i t ht
    rcases hd i with h' | ⟨rfl, h'⟩
    · rw [h']; exact .inl ht
    · rw [h']
      rw [e] at ht
      rcases List.mem_cons.1 ht with rfl | ht
      · left; simp
      · rcases List.mem_cons.1 ht with rfl | ht
        · left; simp
        · by_cases hm : t ∈ r'
          · left; simp [hm]
          · exact .inr (hrem t ht hm)
  have htrue : ∀ i, ∀ t ∈ s.data i, t ∈ s.trail → t ∈ upd s.data id (c0 :: c1 :: r') i := by
    intro i t ht htt
    rcases hsub' i t ht with h' | ⟨h', _⟩
    · exact h'
    · exact (h.not_both htt h').elim
  have hgood := (h.good id hlive).1
  exact
  { twf := h.twf
    val := h.val
    nodup := h.nodup
    rng := h.rng
    rsn := by
      intro t1 x t2 i ht er
      obtain ⟨r0, e0, hy⟩ := h.rsn t1 x t2 i ht er
      show ∃ r1, upd s.data id (c0 :: c1 :: r') i = x :: r1 ∧ _
      rcases hd i with h' | ⟨rfl, h'⟩
      · exact ⟨r0, by rw [h']; exact e0, hy⟩
      · rw [e] at e0
        cases e0
        refine ⟨c1 :: r', h', fun y hm => hy y ?_⟩
        rcases List.mem_cons.1 hm with rfl | hm
        · simp
        · simp [hsub y hm]
    dec := h.dec
    limq := h.limq
    qle := h.qle
    good := by
      intro i hi
      obtain ⟨g, hn⟩ := h.good i hi
      refine ⟨?_, hn⟩
      show Good Φ s.nvars (upd s.data id (c0 :: c1 :: r') i)
      rcases hd i with h' | ⟨rfl, h'⟩
      · rw [h']; exact g
      · rw [h']
        rw [e] at g
        refine ⟨by simp, ?_, ?_, ?_⟩
        · have := g.nodup
          simp only [List.nodup_cons, List.mem_cons, not_or] at this ⊢
          exact ⟨⟨this.1.1, fun hm => this.1.2 (hsub _ hm)⟩, fun hm => this.2.1 (hsub _ hm), hnod⟩
        · intro l hl
          apply g.rng
          simp only [List.mem_cons] at hl ⊢
          exact hl.imp (fun h => h) (Or.imp (fun h => h) (hsub l))
        · intro ρ hρ
          obtain ⟨l, hl, hlt⟩ := g.ent ρ hρ
          rcases hsub' i l (by rw [e]; exact hl) with h'' | ⟨h1, h2⟩
          · rw [h'] at h''; exact ⟨l, h'', hlt⟩
          · exfalso
            have := (h.zero (neg l) h1 (by rw [Inv.lv_neg]; exact h2)).lit hρ
            exact litT_neg.1 this hlt
    w1 := by
      intro l w hw
      show ∃ a b r1, upd s.data id (c0 :: c1 :: r') w.1 = a :: b :: r1 ∧ _
      rcases hd w.1 with h' | ⟨e', h'⟩
      · rw [h']; exact h.w1 l w hw
      · obtain ⟨a, b, r1, e1, ho⟩ := h.w1 l w hw
        rw [e', e] at e1
        cases e1
        exact ⟨c0, c1, r', h', ho⟩
    w2 := h.w2
    blk := by
      intro l w hw
      rcases h.blk l w hw with h' | h'
      · rcases hsub' _ _ h' with h'' | h''
        · exact .inl h''
        · exact .inr ⟨rfl, h''⟩
      · exact .inr h'
    mutual_ := by
      intro i a b r1 b0 b1 e' m0 m1
      have e' : upd s.data id (c0 :: c1 :: r') i = a :: b :: r1 := e'
      by_cases hi : i = id
      · subst hi; rw [upd_self] at e'; cases e'; exact h.mutual_ _ _ _ _ _ _ e m0 m1
      · rw [upd_ne _ _ hi] at e'; exact h.mutual_ _ _ _ _ _ _ e' m0 m1
    valid := by
      intro l hl w hw
      obtain ⟨t, ht, htt, hle⟩ := h.valid l hl w hw
      exact ⟨t, htrue _ t ht htt, htt, hle⟩
    cov := by
      intro i hi
      show (_ ∧ ∃ t ∈ upd s.data id (c0 :: c1 :: r') i, _) ∨ ∃ a b r1, upd s.data id (c0 :: c1 :: r') i = a :: b :: r1 ∧ _
      rcases h.cov i hi with ⟨hf, t, ht, htt, h0⟩ | ⟨a, b, r1, e1, m0, m1⟩
      · exact .inl ⟨hf, t, htrue _ t ht htt, htt, h0⟩
      · right
        rcases hd i with h' | ⟨rfl, h'⟩
        · exact ⟨a, b, r1, by rw [h']; exact e1, m0, m1⟩
        · rw [e] at e1
          cases e1
          exact ⟨c0, c1, r', h', m0, m1⟩
    zero := h.zero
    incw := fun e => (nomatch e)
    incr := fun e => (nomatch e)
    incu := fun e => (nomatch e) }

open St

theorem strip_ok (c : Core) (fuel : Nat) : ∀ (k : Nat) (r : List Nat), r.Nodup → (∀ y ∈ strip c fuel k r, y ∈ r) ∧ (strip c fuel k r).Nodup ∧
    ∀ y ∈ r, y ∉ strip c fuel k r → c.value y = some false := by
  induction fuel with
  | zero => intro k r hn; exact ⟨fun _ h => h, hn, fun y h h' => absurd h h'⟩
  | succ fuel ih =>
    intro k r hn
    unfold strip
    split
    · next hk =>
      split
      · next hf =>
        -- the last literal replaces literal `k`
        have hlast : r.length - 1 < r.length := by omega
        have hp : ((r.set k (r.getD (r.length - 1) 0)).dropLast ++ [r.getD k 0]).Perm r := by
          have hg1 : r.getD (r.length - 1) 0 = r[r.length - 1] := by simp [List.getD, hlast]
          have hg2 : r.getD k 0 = r[k] := by simp [List.getD, hk]
          rw [hg1, hg2]
          have h1 := List.set_set_perm hk hlast
          have h2 : (r.set k r[r.length - 1]).set (r.length - 1) r[k] = (r.set k r[r.length - 1]).dropLast ++ [r[k]] := by
            apply List.ext_getElem?
            intro i
            rw [List.getElem?_set]
            simp only [List.length_set]
            by_cases hi : r.length - 1 = i
            · subst hi
              rw [if_pos rfl, if_pos hlast, List.getElem?_append_right (by simp)]
              simp
            · rw [if_neg hi]
              by_cases hi2 : i < r.length - 1
              · rw [List.getElem?_append_left (by simp; exact hi2), List.getElem?_dropLast]
                simp [hi2]
              · rw [List.getElem?_eq_none (by simp; omega), List.getElem?_eq_none (by simp; omega)]
          rw [h2] at h1
          exact h1
        have hn' := hp.nodup_iff.2 hn
        rw [List.nodup_append] at hn'
        obtain ⟨a, b, c'⟩ := ih k _ hn'.1
        refine ⟨fun y hy => hp.mem_iff.1 (List.mem_append_left _ (a y hy)), b, fun y hy hy' => ?_⟩
        rcases List.mem_append.1 (hp.mem_iff.2 hy) with h' | h'
        · exact c' y h' hy'
        · rw [List.mem_singleton.1 h']; exact hf
      · exact ih (k + 1) r hn
    · exact ⟨fun _ h => h, hn, fun y h h' => absurd h h'⟩

end

section
variable {F : Type} [LinearOrder F] [Flt F] {Φ : List (List Nat)} {q : Nat} {s : St F}
open St

theorem dropWatch_ok (s : St F) (id : Nat) (ws : List (Nat × Nat)) :
    (dropWatch s id ws).Sublist ws ∧ ∀ w ∈ ws, w ∈ dropWatch s id ws ∨ sameClause s w.1 id = true := by
  induction ws with
  | nil => exact ⟨.slnil, by simp⟩
  | cons a ws ih =>
    unfold dropWatch
    split
    · next hs =>
      refine ⟨List.sublist_cons_self .., fun w hw => ?_⟩
      rcases List.mem_cons.1 hw with rfl | hw
      · exact .inr hs
      · exact .inl hw
    · refine ⟨ih.1.cons₂ a, fun w hw => ?_⟩
      rcases List.mem_cons.1 hw with rfl | hw
      · exact .inl (List.mem_cons_self ..)
      · exact (ih.2 w hw).imp (List.mem_cons_of_mem _) (fun h => h)

theorem detach_ok (lrn : Bool) {id c0 c1 : Nat} {r : List Nat} (e : s.data id = c0 :: c1 :: r) :
    ∃ (s' : St F) (w' : Nat → List (Nat × Nat)), detach lrn id s = some s' ∧ s'.toCore = { s.toCore with watches := w' } ∧ Keep s s' ∧ s'.heap = s.heap ∧ s'.seen = s.seen ∧
      s'.cact = s.cact ∧ (∀ l, (w' l).Sublist (s.watches l)) ∧ ∀ l w, w ∈ s.watches l → w ∈ w' l ∨ sameClause s w.1 id = true := by
  unfold detach
  rw [e]
  refine ⟨_, _, rfl, rfl, ⟨rfl, rfl, rfl, rfl, rfl, rfl, rfl⟩, rfl, rfl, rfl, fun l => ?_, fun l w hw => ?_⟩
  · unfold upd
    split
    · refine (dropWatch_ok s id _).1.trans ?_
      split
      · next h1 h2 =>
        rw [h1, h2]; exact (dropWatch_ok s id _).1
      · next h1 _ => rw [h1]
    · split
      · next h2 => rw [h2]; exact (dropWatch_ok s id _).1
      · exact .refl _
  · unfold upd
    split
    · next h1 =>
      subst h1
      split
      · next h2 =>
        rcases (dropWatch_ok s id (s.watches (neg c0))).2 w (h2 ▸ hw) with h' | h'
        · exact (dropWatch_ok s id _).2 w h'
        · exact .inr h'
      · exact (dropWatch_ok s id _).2 w hw
    · split
      · next h2 => subst h2; exact (dropWatch_ok s id _).2 w hw
      · exact .inl hw

/-- What the removal of clauses changes. -/
structure Rem (s s' : St F) : Prop where
  core : ∃ d w r, s'.toCore = { s.toCore with data := d, watches := w, reason := r }
  keep : Keep s s'
  heap : s'.heap = s.heap
  seen : s'.seen = s.seen
  sub : ∀ id, ∀ t ∈ s'.data id, t ∈ s.data id
  tru : ∀ id, ∀ t ∈ s.data id, t ∈ s.trail → t ∈ s'.data id

namespace Rem
variable {s' s'' : St F}

theorem refl (s : St F) : Rem s s := ⟨⟨_, _, _, rfl⟩, .refl s, rfl, rfl, fun _ _ h => h, fun _ _ h _ => h⟩

theorem trail (h : Rem s s') : s'.trail = s.trail := by obtain ⟨d, w, r, e⟩ := h.core; rw [e]
theorem lim (h : Rem s s') : s'.lim = s.lim := by obtain ⟨d, w, r, e⟩ := h.core; rw [e]
theorem clauses (h : Rem s s') : s'.clauses = s.clauses := by obtain ⟨d, w, r, e⟩ := h.core; rw [e]
theorem learnts (h : Rem s s') : s'.learnts = s.learnts := by obtain ⟨d, w, r, e⟩ := h.core; rw [e]
theorem units (h : Rem s s') : s'.units = s.units := by obtain ⟨d, w, r, e⟩ := h.core; rw [e]
theorem nvars (h : Rem s s') : s'.nvars = s.nvars := by obtain ⟨d, w, r, e⟩ := h.core; rw [e]
theorem next (h : Rem s s') : s'.next = s.next := by obtain ⟨d, w, r, e⟩ := h.core; rw [e]
theorem ok (h : Rem s s') : s'.ok = s.ok := by obtain ⟨d, w, r, e⟩ := h.core; rw [e]
theorem learnt (h : Rem s s') : s'.learnt = s.learnt := by obtain ⟨d, w, r, e⟩ := h.core; rw [e]
theorem qhead (h : Rem s s') : s'.qhead = s.qhead := by obtain ⟨d, w, r, e⟩ := h.core; rw [e]
theorem asg (h : Rem s s') : s'.asg = s.asg := by obtain ⟨d, w, r, e⟩ := h.core; rw [e]
theorem lv (h : Rem s s') (l : Nat) : s'.lv l = s.lv l := by obtain ⟨d, w, r, e⟩ := h.core; rw [e]; rfl

theorem trans (h : Rem s s') (h' : Rem s' s'') : Rem s s'' where
  core := by
    obtain ⟨d, w, r, e⟩ := h.core
    obtain ⟨d', w', r', e'⟩ := h'.core
    exact ⟨d', w', r', by rw [e', e]⟩
  keep := h.keep.trans h'.keep
  heap := h'.heap.trans h.heap
  seen := h'.seen.trans h.seen
  sub id t ht := h.sub id t (h'.sub id t ht)
  tru id t ht htt := h'.tru id t (h.tru id t ht htt) (by rw [h.trail]; exact htt)

end Rem

theorem Rem.of_core {s' : St F} (e : s'.toCore = s.toCore) (hk : Keep s s') (hh : s'.heap = s.heap) (hs : s'.seen = s.seen) : Rem s s' :=
  ⟨⟨_, _, _, e⟩, hk, hh, hs, by rw [e]; exact fun _ _ h => h, by rw [e]; exact fun _ _ h _ => h⟩

/-- Removing a clause that is true on level 0. -/
theorem removeClause_zero (C : Cfg F) (lrn : Bool) {U : List Nat} (h : Inv Φ false U q s.toCore) (hz : s.lim = []) {id : Nat} (hlive : s.Live id)
    (hsat : ∃ t ∈ s.data id, t ∈ s.trail) : ∃ s', removeClause C lrn id s = some s' ∧ Inv Φ false U q s'.toCore ∧ Rem s s' := by
  have h0 : ∀ x ∈ s.trail, s.lv x = 0 := fun x hx => by have := h.lv_le hx; rw [hz] at this; simpa using this
  unfold removeClause
  simp only
  obtain ⟨s1, hs1⟩ : ∃ s1 : St F, s1 = (if C.proofGen then { s with pgProof := s.pgProof ++ [-1 :: (s.data id).map pgLit] } else s) := ⟨_, rfl⟩
  rw [← hs1]
  have hc1 : s1.toCore = s.toCore := by rw [hs1]; split <;> rfl
  have hr1 : Rem s s1 := .of_core hc1 (by rw [hs1]; split <;> exact ⟨rfl, rfl, rfl, rfl, rfl, rfl, rfl⟩) (by rw [hs1]; split <;> rfl) (by rw [hs1]; split <;> rfl)
  obtain ⟨s2, hs2⟩ : ∃ s2 : St F, s2 = (if locked s1 id then { s1 with reason := upd s1.reason (vr ((s1.data id).headD 0)) none } else s1) := ⟨_, rfl⟩
  rw [← hs2]
  obtain ⟨rs, hc2, hrs⟩ : ∃ rs, s2.toCore = { s.toCore with reason := rs } ∧ ∀ v, rs v = s.reason v ∨ rs v = none := by
    rw [hs2]
    split
    · refine ⟨upd s1.reason (vr ((s1.data id).headD 0)) none, by rw [← hc1], fun v => ?_⟩
      rw [hc1]
      unfold upd
      split
      · exact .inr rfl
      · exact .inl rfl
    · exact ⟨s.reason, hc1, fun _ => .inl rfl⟩
  have hk2 : Keep s s2 := hr1.keep.trans (by rw [hs2]; split <;> exact ⟨rfl, rfl, rfl, rfl, rfl, rfl, rfl⟩)
  have hd2 : s2.data = s.data := by rw [hc2]
  obtain ⟨c0, c1, r, e⟩ : ∃ c0 c1 r, s.data id = c0 :: c1 :: r := by
    have := (h.good id hlive).1.two
    match hdat : s.data id with
    | [] => rw [hdat] at this; simp at this
    | [_] => rw [hdat] at this; simp at this
    | c0 :: c1 :: r => exact ⟨c0, c1, r, rfl⟩
  obtain ⟨s3, w', e3, hc3, hk3, hh3, hs3, _, hsub, hdrop⟩ := detach_ok (s := s2) lrn (e ▸ congrFun hd2 id)
  have hw2 : s2.watches = s.watches := by rw [hc2]
  rw [hw2] at hsub hdrop
  have hi := h.drop (w' := w') (rs := rs) (cs := s.clauses) (ls := s.learnts) hsub
    (fun v => (hrs v).imp (fun h => h) fun h' => ⟨h', fun x hx _ => h0 x hx⟩) (fun _ h => h) (fun _ h => h) (by
      intro i hi
      by_cases hsame : s.data i = s.data id
      · obtain ⟨t, ht, htt⟩ := hsat
        exact .inl ⟨t, by rw [hsame]; exact ht, htt, h0 t htt⟩
      · right
        intro l w hw hwi
        rcases hdrop l w hw with h' | h'
        · exact h'
        · exfalso
          unfold sameClause at h'
          simp only [Bool.and_eq_true, decide_eq_true_eq] at h'
          rw [hd2, hwi] at h'
          exact hsame h'.1.1)
  have hc : s3.toCore = { s.toCore with watches := w', reason := rs } := by rw [hc3, hc2]
  refine ⟨s3, e3, by rw [hc]; exact hi, ⟨s.data, w', rs, hc⟩, hk2.trans hk3, ?_, ?_, ?_, ?_⟩
  · rw [hh3, hs2]; split
    · exact hr1.heap
    · exact hr1.heap
  · rw [hs3, hs2]; split
    · exact hr1.seen
    · exact hr1.seen
  · intro i t ht; rw [hc] at ht; exact ht
  · intro i t ht _; rw [hc]; exact ht

/-- Removing the clauses that are true on level 0. -/
theorem remSatLoop_ok (C : Cfg F) (lrn : Bool) {U : List Nat} (ids : List Nat) : ∀ {s : St F}, Inv Φ false U q s.toCore → s.lim = [] →
    (∀ id ∈ ids, id ∈ s.clauses ∨ id ∈ s.learnts) →
    ∃ s' kept, remSatLoop C lrn ids s = some (s', kept) ∧ Inv Φ false U q s'.toCore ∧ Rem s s' ∧ kept.Sublist ids ∧
      ∀ id ∈ ids, id ∈ kept ∨ ∃ t ∈ s'.data id, t ∈ s.trail := by
  induction ids with
  | nil => intro s h _ _; exact ⟨s, [], rfl, h, .refl s, .slnil, by simp⟩
  | cons id ids ih =>
    intro s h hz hin
    have hlive : s.Live id := (hin id (List.mem_cons_self ..)).elim .inl fun h => .inr (.inl h)
    unfold remSatLoop
    by_cases hs : ((s.data id).any fun l => decide (s.value l = some true)) = true
    · rw [if_pos hs]
      obtain ⟨t, ht, htv⟩ := List.any_eq_true.1 hs
      have htt : t ∈ s.trail := (h.val t).1 (by simpa using htv)
      obtain ⟨s1, e1, h1, r1⟩ := removeClause_zero C lrn h hz hlive ⟨t, ht, htt⟩
      rw [e1]
      simp only
      obtain ⟨s2, kept, e2, h2, r2, hk2, hs2⟩ := ih h1 (by rw [r1.lim]; exact hz) (fun i hi => by
        rw [r1.clauses, r1.learnts]; exact hin i (List.mem_cons_of_mem _ hi))
      refine ⟨s2, kept, e2, h2, r1.trans r2, hk2.cons _, fun i hi => ?_⟩
      rcases List.mem_cons.1 hi with rfl | hi
      · exact .inr ⟨t, (r1.trans r2).tru _ t ht htt, htt⟩
      · rw [r1.trail] at hs2; exact hs2 i hi
    · rw [if_neg hs]
      simp only
      obtain ⟨d, hd⟩ : ∃ d, d = (if C.proofGen then s.data id else shrink s.toCore (s.data id)) := ⟨_, rfl⟩
      rw [← hd]
      obtain ⟨c0, c1, r, e⟩ : ∃ c0 c1 r, s.data id = c0 :: c1 :: r := by
        have := (h.good id hlive).1.two
        match hdat : s.data id with
        | [] => rw [hdat] at this; simp at this
        | [_] => rw [hdat] at this; simp at this
        | c0 :: c1 :: r => exact ⟨c0, c1, r, rfl⟩
      have hnr : r.Nodup := by
        have := (h.good id hlive).1.nodup
        rw [e] at this
        exact (List.nodup_cons.1 (List.nodup_cons.1 this).2).2
      obtain ⟨sa, sb, sc⟩ := strip_ok s.toCore r.length 0 r hnr
      have hst : Inv Φ false U q ({ s with data := upd s.data id d } : St F).toCore ∧ Rem s { s with data := upd s.data id d } := by
        have hd' : d = s.data id ∨ d = c0 :: c1 :: strip s.toCore r.length 0 r := by
          rw [hd]; split
          · exact .inl rfl
          · right; rw [e]; rfl
        rcases hd' with hd' | hd'
        · have : upd s.data id d = s.data := by
            funext i; unfold upd; split
            · next hi => rw [hi, hd']
            · rfl
          rw [this]
          exact ⟨h, .refl s⟩
        · have hrem : ∀ y ∈ r, y ∉ strip s.toCore r.length 0 r → neg y ∈ s.trail ∧ s.lv y = 0 := fun y hy hy' => by
            have h1 := (h.val_false y).1 (sc y hy hy')
            have h2 := h.lv_le h1
            rw [hz, Inv.lv_neg] at h2
            exact ⟨h1, by simpa using h2⟩
          refine ⟨?_, ⟨_, _, _, rfl⟩, ⟨rfl, rfl, rfl, rfl, rfl, rfl, rfl⟩, rfl, rfl, ?_, ?_⟩
          · rw [hd']; exact h.strip e hlive sa sb hrem
          · intro i t ht
            have ht : t ∈ upd s.data id d i := ht
            unfold upd at ht
            split at ht
            · next hi =>
              rw [hd'] at ht
              rw [hi, e]
              simp only [List.mem_cons] at ht ⊢
              exact ht.imp (fun h => h) (Or.imp (fun h => h) (sa t))
            · exact ht
          · intro i t ht htt
            show t ∈ upd s.data id d i
            unfold upd
            split
            · next hi =>
              rw [hd']
              rw [hi, e] at ht
              simp only [List.mem_cons] at ht ⊢
              refine ht.imp (fun h => h) (Or.imp (fun h => h) fun hr => ?_)
              by_contra hc
              exact h.not_both htt (hrem t hr hc).1
            · exact ht
      obtain ⟨s2, kept, e2, h2, r2, hk2, hs2⟩ := ih hst.1 hz (fun i hi => hin i (List.mem_cons_of_mem _ hi))
      rw [e2]
      refine ⟨s2, id :: kept, rfl, h2, hst.2.trans r2, hk2.cons₂ _, fun i hi => ?_⟩
      rcases List.mem_cons.1 hi with rfl | hi
      · exact .inl (List.mem_cons_self ..)
      · exact (hs2 i hi).imp (List.mem_cons_of_mem _) (fun h => h)

/-- Fewer learnt clauses in another order, and fewer clauses as long as the missing ones are true on level 0. -/
theorem SInv.remove (h : SInv Φ false q s) {s' : St F} (hr : Rem s s') (hi : Inv Φ false s.units q s'.toCore)
    {s'' : St F} {cs ls : List Nat} (e : s''.toCore = { s'.toCore with clauses := cs, learnts := ls }) (hk : Keep s' s'')
    (hh : HInv s'') (hsn : s''.seen = s'.seen)
    (hcs : cs.Sublist s.clauses) (hls : ls.Subperm s.learnts) (hsat : ∀ id ∈ s.clauses, id ∈ cs ∨ ∃ t ∈ s'.data id, t ∈ s.trail ∧ s.lv t = 0)
    (hzero : s.lim = [] ∨ s'.reason = s.reason) : SInv Φ false q s'' ∧ Grow false s s'' := by
  have h2 := hi.drop (w' := s'.watches) (rs := s'.reason) (cs := cs) (ls := ls) (fun _ => .refl _) (fun _ => .inl rfl)
    (fun id hid => by rw [hr.clauses]; exact hcs.subset hid) (fun id hid => by rw [hr.learnts]; exact hls.subset hid) (fun _ _ => .inr fun _ _ h _ => h)
  have ht : s''.trail = s.trail := by rw [e]; exact hr.trail
  have hl : s''.lim = s.lim := by rw [e]; exact hr.lim
  have hlv : ∀ l, s''.lv l = s.lv l := fun l => by rw [e]; exact hr.lv l
  have hd : s''.data = s'.data := by rw [e]
  have hc : s''.clauses = cs := by rw [e]
  have hn : s''.nvars = s.nvars := by rw [e]; exact hr.nvars
  have hle : s''.learnts = ls := by rw [e]
  have hu : s''.units = s.units := by rw [e]; exact hr.units
  have hfl : s''.learnt = s.learnt := by rw [e]; exact hr.learnt
  have hasm : s''.assumptions = s.assumptions := by rw [hk.assumptions, hr.keep.assumptions]
  constructor
  · exact
    { inv := by rw [hu, e]; exact h2
      heap := hh
      seen := by rw [hsn, hr.seen]; exact h.seen
      eqv := by
        intro ho ρ h1 h3
        rw [hc, hd] at h1
        rw [ht] at h3
        refine h.eqv (by rw [e] at ho; exact hr.ok.symm.trans ho) ρ (fun id hid => ?_) (fun x hx h0 => h3 x hx (by rw [hlv]; exact h0))
        rcases hsat id hid with h' | ⟨t, ht', htt, h0⟩
        · obtain ⟨t, ht', htl⟩ := h1 id h'
          exact ⟨t, hr.sub id t ht', htl⟩
        · exact ⟨t, hr.sub id t ht', h3 t htt (by rw [hlv]; exact h0)⟩
      uent := by rw [hu]; exact h.uent
      cnod := by
        rw [hc, hle]
        have hp : (cs ++ ls).Subperm (s.clauses ++ s.learnts) := hcs.subperm.append hls
        obtain ⟨l, hp1, hp2⟩ := hp
        exact hp1.nodup_iff.1 (h.cnod.sublist hp2)
      flag := by
        rw [hc, hle, hfl]
        exact ⟨fun id hid => h.flag.1 id (hcs.subset hid), fun id hid => h.flag.2 id (hls.subset hid)⟩
      sel := by rw [hk.sel, hr.keep.sel, hn]; exact h.sel
      arng := by rw [hasm, hn]; exact h.arng
      apos := by
        rw [hasm, hl, ht]
        intro i p hi hp
        rw [hlv]
        exact h.apos i p hi hp
      adec := by
        rw [hasm, ht]
        intro x hx hrx h0 hle
        rw [hlv] at h0 hle
        rcases hzero with hz | hz
        · have := h.inv.lv_le hx
          rw [hz] at this
          simp at this
          omega
        · rw [e] at hrx
          have hrx : s'.reason (vr x) = none := hrx
          rw [hz] at hrx
          exact h.adec x hx hrx h0 hle }
  · refine ⟨hr.keep.trans hk, hn, by rw [e]; exact hr.ok, by rw [e]; exact Nat.le_of_eq hr.next.symm, fun e => (nomatch e), fun e => (nomatch e), ⟨[], by rw [hu]; simp⟩, fun e => (nomatch e), fun e => (nomatch e), fun e => (nomatch e)⟩


theorem Rem.hinv {s' : St F} (hr : Rem s s') (h : HInv s) : HInv s' :=
  h.congr hr.nvars hr.heap hr.keep.decision fun v _ hv => by rw [hr.asg] at hv; exact hv

theorem remSat_ok (C : Cfg F) (h : SInv Φ false q s) (hz : s.lim = []) :
    ∃ s', remSat C s = some s' ∧ SInv Φ false q s' ∧ Grow false s s' ∧ s'.lim = [] ∧ s'.trail = s.trail ∧ s'.qhead = s.qhead := by
  unfold remSat
  obtain ⟨s1, ls, e1, h1, r1, hk1, _⟩ := remSatLoop_ok C true s.learnts h.inv hz fun id hid => .inr hid
  rw [e1]
  simp only
  obtain ⟨s2, hs2⟩ : ∃ s2 : St F, s2 = { s1 with learnts := ls } := ⟨_, rfl⟩
  rw [← hs2]
  have hc2 : s2.toCore = { s1.toCore with clauses := s.clauses, learnts := ls } := by rw [hs2, ← r1.clauses]
  obtain ⟨h2, g2⟩ := h.remove r1 h1 hc2 (by rw [hs2]; exact ⟨rfl, rfl, rfl, rfl, rfl, rfl, rfl⟩) (by rw [hs2]; exact { r1.hinv h.heap with })
    (by rw [hs2]) (.refl _) hk1.subperm (fun id hid => .inl hid) (.inl hz)
  have hl2 : s2.lim = [] := by rw [hc2]; show s1.lim = []; rw [r1.lim]; exact hz
  have ht2 : s2.trail = s.trail := by rw [hc2]; exact r1.trail
  have hq2 : s2.qhead = s.qhead := by rw [hc2]; exact r1.qhead
  split
  · obtain ⟨s3, cs, e3, h3, r3, hk3, hsat⟩ := remSatLoop_ok C false s2.clauses h2.inv hl2 fun id hid => .inl hid
    rw [show s1.clauses = s2.clauses by rw [hs2], e3]
    obtain ⟨s4, hs4⟩ : ∃ s4 : St F, s4 = { s3 with clauses := cs } := ⟨_, rfl⟩
    have hc4 : s4.toCore = { s3.toCore with clauses := cs, learnts := s2.learnts } := by rw [hs4, ← r3.learnts]
    obtain ⟨h4, g4⟩ := h2.remove r3 h3 hc4 (by rw [hs4]; exact ⟨rfl, rfl, rfl, rfl, rfl, rfl, rfl⟩) (by rw [hs4]; exact { r3.hinv h2.heap with })
      (by rw [hs4]) hk3 (.refl _) (fun id hid => (hsat id hid).imp (fun h => h) fun ⟨t, ht, htt⟩ => ⟨t, ht, htt, by
        have := h2.inv.lv_le htt
        rw [hl2] at this
        simpa using this⟩) (.inl hl2)
    refine ⟨s4, by rw [hs4]; rfl, h4, g2.trans g4, ?_, ?_, ?_⟩
    · rw [hc4]; show s3.lim = []; rw [r3.lim]; exact hl2
    · rw [hc4]; show s3.trail = _; rw [r3.trail]; exact ht2
    · rw [hc4]; show s3.qhead = _; rw [r3.qhead]; exact hq2
  · exact ⟨s2, rfl, h2, g2, hl2, ht2, hq2⟩

theorem prop_done (hq : s.qhead = s.trail.length) : prop s = some ({ s with simpProps := s.simpProps - 0 }, none) := by
  unfold prop propagate propLoop
  rw [if_neg (by omega)]
  rfl

/-- `simplify` on level 0 succeeds and keeps the invariant. -/
theorem simplify_ok (C : Cfg F) (h : SInv Φ false s.qhead s) (hq : s.qhead = s.trail.length) (hz : s.lim = []) (hok : s.ok = true) :
    ∃ s', simplify C s = some (s', true) ∧ SInv Φ false s'.qhead s' ∧ Grow false s s' ∧ s'.lim = [] ∧ s'.qhead = s'.trail.length := by
  unfold simplify
  rw [if_neg (by rw [hok]; simp), prop_done hq]
  simp only
  obtain ⟨s1, hs1⟩ : ∃ s1 : St F, s1 = { s with simpProps := s.simpProps - 0 } := ⟨_, rfl⟩
  have hc1 : s1.toCore = s.toCore := by rw [hs1]
  have hk1 : Keep s s1 := by rw [hs1]; exact ⟨rfl, rfl, rfl, rfl, rfl, rfl, rfl⟩
  have h1 : SInv Φ false s.qhead s1 := h.congr hc1 hk1 (by rw [hs1]; exact { h.heap with }) (by rw [hs1]; exact h.seen)
  have g1 : Grow false s s1 := .of_eq hk1 hc1
  rw [← hs1]
  have hz1 : s1.lim = [] := by rw [hc1]; exact hz
  unfold simplifyDb
  split
  · refine ⟨s1, rfl, by rw [hc1]; exact h1, g1, hz1, by rw [hc1]; exact hq⟩
  · obtain ⟨s2, e2, h2, g2, hl2, ht2, hq2⟩ := remSat_ok C h1 hz1
    rw [e2]
    simp only
    obtain ⟨hp, e3, c3, l3, m3, _⟩ := Heap.build_ok (act := s2.act) (s := s2.heap)
      (ns := (List.range s2.nvars).filter fun v => s2.decision v && (s2.asg v).isNone) h2.heap.cons
      (List.nodup_range.filter _) (fun n hn => by
        have := List.mem_range.1 (List.mem_filter.1 hn).1
        have := h2.heap.len
        omega)
    rw [e3]
    simp only
    have hh : HInv ({ s2 with
              heap := hp
              simpAssigns := s2.trail.length
              simpProps := (s2.clauseLits + s2.learntLits : Nat) } : St F) :=
      { cons := c3
        rng := fun v hv => List.mem_range.1 (List.mem_filter.1 ((m3 v).1 hv)).1
        dec := h2.heap.dec
        mem := fun v hv ha => (m3 v).2 (List.mem_filter.2 ⟨List.mem_range.2 hv, by
          have h1 : s2.decision v = true := h2.heap.dec v hv
          have h2 : s2.asg v = none := ha
          simp [h1, h2]⟩)
        len := by show s2.nvars ≤ hp.idx.length; rw [l3]; exact h2.heap.len }
    refine ⟨_, rfl, ?_, (g1.trans g2).trans (.of_eq ⟨rfl, rfl, rfl, rfl, rfl, rfl, rfl⟩ rfl), hl2, ?_⟩
    · have : s2.qhead = s.qhead := by rw [hq2, hc1]
      show SInv Φ false s2.qhead _
      rw [this]
      exact h2.congr rfl ⟨rfl, rfl, rfl, rfl, rfl, rfl, rfl⟩ hh h2.seen
    · show s2.qhead = s2.trail.length
      rw [hq2, ht2, hc1]; exact hq

/-- Removing a learnt clause that is not the reason of its first literal. -/
theorem removeClause_learnt (C : Cfg F) (h : SInv Φ false q s) {s1 : St F} (h1 : Inv Φ false s.units q s1.toCore) (hr : Rem s s1) (hcr : s1.reason = s.reason)
    {id : Nat} (hid : id ∈ s.learnts) (hlock : locked s1 id = false) :
    ∃ s', removeClause C true id s1 = some s' ∧ Inv Φ false s.units q s'.toCore ∧ Rem s s' ∧ s'.reason = s.reason := by
  unfold removeClause
  simp only
  obtain ⟨s2, hs2⟩ : ∃ s2 : St F, s2 = (if C.proofGen then { s1 with pgProof := s1.pgProof ++ [-1 :: (s1.data id).map pgLit] } else s1) := ⟨_, rfl⟩
  rw [← hs2]
  have hc2 : s2.toCore = s1.toCore := by rw [hs2]; split <;> rfl
  have hr2 : Rem s1 s2 := .of_core hc2 (by rw [hs2]; split <;> exact ⟨rfl, rfl, rfl, rfl, rfl, rfl, rfl⟩) (by rw [hs2]; split <;> rfl) (by rw [hs2]; split <;> rfl)
  have hlock2 : locked s2 id = false := by
    rw [hs2]; split
    · exact hlock
    · exact hlock
  rw [if_neg (by rw [hlock2]; simp)]
  have hlive : s1.Live id := .inr (.inl (by rw [hr.learnts]; exact hid))
  obtain ⟨c0, c1, r, e⟩ : ∃ c0 c1 r, s1.data id = c0 :: c1 :: r := by
    have := (h1.good id hlive).1.two
    match hdat : s1.data id with
    | [] => rw [hdat] at this; simp at this
    | [_] => rw [hdat] at this; simp at this
    | c0 :: c1 :: r => exact ⟨c0, c1, r, rfl⟩
  have hd2 : s2.data = s1.data := by rw [hc2]
  obtain ⟨s3, w', e3, hc3, hk3, hh3, hs3, _, hsub, hdrop⟩ := detach_ok (s := s2) true (e ▸ congrFun hd2 id)
  have hw2 : s2.watches = s1.watches := by rw [hc2]
  rw [hw2] at hsub hdrop
  have hi := h1.drop (w' := w') (rs := s1.reason) (cs := s1.clauses) (ls := s1.learnts) hsub (fun v => .inl rfl) (fun _ h => h) (fun _ h => h) (by
      intro i hi
      right
      intro l w hw hwi
      rcases hdrop l w hw with h' | h'
      · exact h'
      · exfalso
        unfold sameClause at h'
        simp only [Bool.and_eq_true, decide_eq_true_eq, beq_iff_eq] at h'
        have hl := h'.1.2
        rw [hwi, hc2, hr.learnt, h.flag.1 i (by rw [← hr.clauses]; exact hi), h.flag.2 id hid] at hl
        cases hl)
  have hc : s3.toCore = { s1.toCore with watches := w' } := by rw [hc3, hc2]
  have hr3 : Rem s1 s3 := by
    refine ⟨⟨s1.data, w', s1.reason, hc⟩, hr2.keep.trans hk3, hh3.trans hr2.heap, hs3.trans hr2.seen, ?_, ?_⟩
    · intro i t ht; rw [hc] at ht; exact ht
    · intro i t ht _; rw [hc]; exact ht
  exact ⟨s3, e3, by rw [hc]; exact hi, hr.trans hr3, by rw [hc]; exact hcr⟩

theorem reduceLoop_ok (C : Cfg F) (h : SInv Φ false q s) (half : Nat) (extra : F) (ids : List Nat) : ∀ (i : Nat) {s1 : St F}, Inv Φ false s.units q s1.toCore → Rem s s1 →
    s1.reason = s.reason → (∀ id ∈ ids, id ∈ s.learnts) →
    ∃ s' kept, reduceLoop C half extra ids i s1 = some (s', kept) ∧ Inv Φ false s.units q s'.toCore ∧ Rem s s' ∧ s'.reason = s.reason ∧ kept.Sublist ids := by
  induction ids with
  | nil => intro i s1 h1 hr hcr _; exact ⟨s1, [], rfl, h1, hr, hcr, .slnil⟩
  | cons id ids ih =>
    intro i s1 h1 hr hcr hin
    unfold reduceLoop
    split
    · next hcond =>
      simp only [Bool.and_eq_true, Bool.not_eq_true'] at hcond
      obtain ⟨s2, e2, h2, r2, hc2⟩ := removeClause_learnt C h h1 hr hcr (hin id (List.mem_cons_self ..)) hcond.1.2
      rw [e2]
      simp only
      obtain ⟨s3, kept, e3, h3, r3, hc3, hk⟩ := ih (i + 1) h2 r2 hc2 (fun j hj => hin j (List.mem_cons_of_mem _ hj))
      exact ⟨s3, kept, e3, h3, r3, hc3, hk.cons _⟩
    · obtain ⟨s3, kept, e3, h3, r3, hc3, hk⟩ := ih (i + 1) h1 hr hcr (fun j hj => hin j (List.mem_cons_of_mem _ hj))
      rw [e3]
      exact ⟨s3, id :: kept, rfl, h3, r3, hc3, hk.cons₂ _⟩

theorem verifyWatches_ok {U : List Nat} {inc : Bool} {c : Core} (h : Inv Φ inc U q c) : verifyWatches c = true := by
  unfold verifyWatches
  rw [List.all_eq_true]
  intro l _
  rw [List.all_eq_true]
  intro w hw
  obtain ⟨c0, c1, r, e, ho⟩ := h.w1 l w hw
  rw [e]
  simp only [decide_eq_true_eq]
  exact ho.imp Eq.symm Eq.symm

theorem learntLess_irrefl (s : St F) (x : Nat) : learntLess s x x = false := by
  unfold learntLess
  by_cases h : (s.data x).length > 2
  · have : (s.data x).length ≠ 2 := by omega
    simp [this]
  · simp [h]

/-- `reduce_db` succeeds and keeps the invariant. -/
theorem reduceDb_ok (C : Cfg F) (h : SInv Φ false q s) :
    ∃ s', reduceDb C s = some s' ∧ SInv Φ false q s' ∧ Grow false s s' ∧ s'.trail = s.trail ∧ s'.lim = s.lim ∧ s'.qhead = s.qhead := by
  unfold reduceDb
  rw [if_pos (verifyWatches_ok h.inv)]
  obtain ⟨ls, e1, hp⟩ := sortRec_ok (learntLess s) (learntLess_irrefl s) (s.learnts.length + 1) 0 s.learnts.length s.learnts (Nat.zero_le _) (Nat.le_refl _) (by omega)
  simp only
  rw [e1]
  simp only
  obtain ⟨s1, hs1⟩ : ∃ s1 : St F, s1 = { s with learnts := ls } := ⟨_, rfl⟩
  rw [← hs1]
  have hc1 : s1.toCore = { s.toCore with clauses := s.clauses, learnts := ls } := by rw [hs1]
  obtain ⟨h1, g1⟩ := h.remove (.refl s) h.inv hc1 (by rw [hs1]; exact ⟨rfl, rfl, rfl, rfl, rfl, rfl, rfl⟩) (by rw [hs1]; exact { h.heap with })
    (by rw [hs1]) (.refl _) hp.subperm (fun id hid => .inl hid) (.inr rfl)
  rw [if_pos (show verifyWatches ({ s with learnts := ls } : St F).toCore = true by rw [← hs1]; exact verifyWatches_ok h1.inv)]
  have hls : s1.learnts = ls := by rw [hs1]
  rw [← hls]
  obtain ⟨s2, kept, e2, h2, r2, hcr2, hk2⟩ := reduceLoop_ok C h1 (s1.learnts.length / 2) (Flt.div s.claInc (Flt.ofInt s.learnts.length)) s1.learnts 0 h1.inv (.refl s1) rfl (fun _ h => h)
  rw [e2]
  obtain ⟨s3, hs3⟩ : ∃ s3 : St F, s3 = { s2 with learnts := kept } := ⟨_, rfl⟩
  have hc3 : s3.toCore = { s2.toCore with clauses := s1.clauses, learnts := kept } := by rw [hs3, ← r2.clauses]
  obtain ⟨h3, g3⟩ := h1.remove r2 h2 hc3 (by rw [hs3]; exact ⟨rfl, rfl, rfl, rfl, rfl, rfl, rfl⟩) (by rw [hs3]; exact { r2.hinv h1.heap with })
    (by rw [hs3]) (.refl _) hk2.subperm (fun id hid => .inl hid) (.inr hcr2)
  refine ⟨s3, by rw [hs3]; rfl, h3, g1.trans g3, ?_, ?_, ?_⟩
  · rw [hc3]; show s2.trail = _; rw [r2.trail, hc1]
  · rw [hc3]; show s2.lim = _; rw [r2.lim, hc1]
  · rw [hc3]; show s2.qhead = _; rw [r2.qhead, hc1]

end
end Verif.Sat
