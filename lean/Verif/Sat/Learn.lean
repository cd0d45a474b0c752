import Verif.Sat.Minimize
/-
The invariant of the whole solver state, attaching a new clause, and learning from a conflict.
-/
namespace Verif.Sat
open Core

section
variable {Φ : List (List Nat)} {inc : Bool} {U : List Nat} {q : Nat} {s : Core}

/-- The watch lists after attaching clause `id` with the first literals `c0`, `c1`. -/
def attachW (s : Core) (id c0 c1 : Nat) : Nat → List (Nat × Nat) :=
  ((s.pushW (neg c0) (id, c1)).pushW (neg c1) (id, c0)).watches

theorem attachW_eq (s : Core) {id c0 c1 : Nat} (hne : c0 ≠ c1) (l : Nat) :
    attachW s id c0 c1 l = s.watches l ++ (if l = neg c0 then [(id, c1)] else if l = neg c1 then [(id, c0)] else []) := by
  have hne' : neg c0 ≠ neg c1 := fun e => hne (neg_inj.1 e)
  unfold attachW pushW
  simp only
  by_cases h0 : l = neg c0
  · subst h0
    rw [if_pos rfl, upd_ne _ _ hne', upd_self]
  · rw [if_neg h0]
    by_cases h1 : l = neg c1
    · subst h1
      rw [if_pos rfl, upd_self, upd_ne _ _ (Ne.symm hne')]
    · rw [if_neg h1, upd_ne _ _ h1, upd_ne _ _ h0, List.append_nil]

theorem mem_attachW {s : Core} {id c0 c1 : Nat} (hne : c0 ≠ c1) {l : Nat} {w : Nat × Nat} :
    w ∈ attachW s id c0 c1 l ↔ w ∈ s.watches l ∨ (l = neg c0 ∧ w = (id, c1)) ∨ (l = neg c1 ∧ w = (id, c0)) := by
  have hne' : neg c0 ≠ neg c1 := fun e => hne (neg_inj.1 e)
  rw [attachW_eq s hne, List.mem_append]
  by_cases h0 : l = neg c0
  · subst h0
    rw [if_pos rfl]
    constructor
    · rintro (h | h)
      · exact .inl h
      · exact .inr (.inl ⟨rfl, List.mem_singleton.1 h⟩)
    · rintro (h | ⟨_, h⟩ | ⟨h, _⟩)
      · exact .inl h
      · exact .inr (List.mem_singleton.2 h)
      · exact absurd h hne'
  · rw [if_neg h0]
    by_cases h1 : l = neg c1
    · subst h1
      rw [if_pos rfl]
      constructor
      · rintro (h | h)
        · exact .inl h
        · exact .inr (.inr ⟨rfl, List.mem_singleton.1 h⟩)
      · rintro (h | ⟨h, _⟩ | ⟨_, h⟩)
        · exact .inl h
        · exact absurd h h0
        · exact .inr (List.mem_singleton.2 h)
    · rw [if_neg h1]
      constructor
      · rintro (h | h)
        · exact .inl h
        · simp at h
      · rintro (h | ⟨h, _⟩ | ⟨h, _⟩)
        · exact .inl h
        · exact absurd h h0
        · exact absurd h h1

/-- The core with a new clause. -/
def withClause (s : Core) (c0 c1 : Nat) (r : List Nat) (lrn : Bool) (cs ls : List Nat) : Core :=
  { s with
    data := upd s.data s.next (c0 :: c1 :: r)
    learnt := upd s.learnt s.next lrn
    next := s.next + 1
    watches := attachW s s.next c0 c1
    clauses := cs
    learnts := ls }

/-- A new clause whose first two literals are not known to be false can be attached. -/
theorem Inv.withClause (h : Inv Φ inc U q s) {c0 c1 : Nat} {r : List Nat} (hg : Good Φ s.nvars (c0 :: c1 :: r))
    (hn0 : neg c0 ∉ s.done q) (hn1 : neg c1 ∉ s.done q) (lrn : Bool) {cs ls : List Nat}
    (hcs : ∀ id ∈ cs, id ∈ s.clauses ∨ id = s.next) (hls : ∀ id ∈ ls, id ∈ s.learnts ∨ id = s.next)
    (hcs' : ∀ id ∈ s.clauses, id ∈ cs) (hls' : ∀ id ∈ s.learnts, id ∈ ls) (hnew : s.next ∈ cs ∨ s.next ∈ ls) :
    Inv Φ inc U q (Sat.withClause s c0 c1 r lrn cs ls) := by
  have hne : c0 ≠ c1 := by
    have := hg.nodup
    simp only [List.nodup_cons, List.mem_cons, not_or] at this
    exact this.1.1
  have hold : ∀ id, s.Live id → upd s.data s.next (c0 :: c1 :: r) id = s.data id := fun id hid =>
    upd_ne _ _ (Nat.ne_of_lt (h.good id hid).2)
  have hlw : ∀ {l : Nat} {w : Nat × Nat}, w ∈ s.watches l → s.Live w.1 := fun {l w} hw => .inr (.inr (.inl ⟨l, w, hw, rfl⟩))
  have hlr : ∀ {x id : Nat}, x ∈ s.trail → s.reason (vr x) = some id → s.Live id := fun {x id} hx hr => .inr (.inr (.inr ⟨x, hx, hr⟩))
  exact
  { twf := h.twf
    val := h.val
    nodup := h.nodup
    rng := h.rng
    rsn := by
      intro t1 x t2 id ht hr
      obtain ⟨r', e, hy⟩ := h.rsn t1 x t2 id ht hr
      have hx : x ∈ s.trail := by rw [show s.trail = t1 ++ x :: t2 from ht]; simp
      exact ⟨r', (hold id (hlr hx hr)).trans e, hy⟩
    dec := h.dec
    limq := h.limq
    qle := h.qle
    good := by
      intro id hid
      show Good Φ s.nvars (upd s.data s.next (c0 :: c1 :: r) id) ∧ id < s.next + 1
      have : s.Live id ∨ id = s.next := by
        rcases hid with h' | h' | ⟨l, w, hw, rfl⟩ | h'
        · exact (hcs id h').imp .inl (fun h => h)
        · exact (hls id h').imp (fun h => .inr (.inl h)) (fun h => h)
        · rcases (mem_attachW hne).1 hw with h' | ⟨_, rfl⟩ | ⟨_, rfl⟩
          · exact .inl (hlw h')
          · exact .inr rfl
          · exact .inr rfl
        · exact .inl (.inr (.inr (.inr h')))
      rcases this with h' | rfl
      · obtain ⟨g, n⟩ := h.good id h'
        rw [hold id h']
        exact ⟨g, by omega⟩
      · rw [upd_self]
        exact ⟨hg, by omega⟩
    w1 := by
      intro l w hw
      show ∃ a b r', upd s.data s.next (c0 :: c1 :: r) w.1 = a :: b :: r' ∧ _
      rcases (mem_attachW hne).1 hw with h' | ⟨rfl, rfl⟩ | ⟨rfl, rfl⟩
      · rw [hold _ (hlw h')]; exact h.w1 l w h'
      · refine ⟨c0, c1, r, upd_self .., .inl (neg_neg _)⟩
      · refine ⟨c0, c1, r, upd_self .., .inr (neg_neg _)⟩
    w2 := by
      intro l
      show ((attachW s s.next c0 c1 l).map Prod.fst).Nodup
      have hno : s.next ∉ (s.watches l).map Prod.fst := by
        intro hm
        obtain ⟨w, hw, e⟩ := List.mem_map.1 hm
        exact absurd e (Nat.ne_of_lt (h.good _ (hlw hw)).2)
      rw [attachW_eq s hne, List.map_append]
      have h2 := h.w2 l
      have h3 : ((s.watches l).map Prod.fst ++ [s.next]).Nodup := by
        rw [List.nodup_append]
        refine ⟨h2, by simp, ?_⟩
        intro a ha b hb e
        rw [List.mem_singleton.1 hb] at e
        subst e
        exact hno ha
      split
      · exact h3
      · split
        · exact h3
        · simpa using h2
    blk := by
      intro l w hw
      show w.2 ∈ upd s.data s.next (c0 :: c1 :: r) w.1 ∨ _
      rcases (mem_attachW hne).1 hw with h' | ⟨rfl, rfl⟩ | ⟨rfl, rfl⟩
      · rw [hold _ (hlw h')]; exact h.blk l w h'
      · left; show c1 ∈ upd s.data s.next (c0 :: c1 :: r) s.next; rw [upd_self]; simp
      · left; show c0 ∈ upd s.data s.next (c0 :: c1 :: r) s.next; rw [upd_self]; simp
    mutual_ := by
      intro i a b r' b0 b1 e' m0 m1
      have e' : upd s.data s.next (c0 :: c1 :: r) i = a :: b :: r' := e'
      by_cases hi : i = s.next
      · subst hi
        rw [upd_self] at e'; cases e'
        rcases (mem_attachW hne).1 m0 with h' | ⟨_, h'⟩ | ⟨h', _⟩
        · exact absurd (h.good _ (hlw h')).2 (Nat.lt_irrefl _)
        · cases h'; exact .inl rfl
        · exact absurd (neg_inj.1 h') hne
      · rw [upd_ne _ _ hi] at e'
        refine h.mutual_ _ _ _ _ _ _ e' ?_ ?_
        · rcases (mem_attachW hne).1 m0 with h' | ⟨_, h'⟩ | ⟨_, h'⟩
          · exact h'
          · cases h'; exact absurd rfl hi
          · cases h'; exact absurd rfl hi
        · rcases (mem_attachW hne).1 m1 with h' | ⟨_, h'⟩ | ⟨_, h'⟩
          · exact h'
          · cases h'; exact absurd rfl hi
          · cases h'; exact absurd rfl hi
    valid := by
      intro l hl w hw
      rcases (mem_attachW hne).1 hw with h' | ⟨rfl, rfl⟩ | ⟨rfl, rfl⟩
      · obtain ⟨t, ht, htt⟩ := h.valid l hl w h'
        exact ⟨t, by show t ∈ upd s.data s.next _ w.1; rw [hold _ (hlw h')]; exact ht, htt⟩
      · exact absurd hl hn0
      · exact absurd hl hn1
    cov := by
      intro id hid
      show (inc = false ∧ ∃ t ∈ upd s.data s.next (c0 :: c1 :: r) id, t ∈ s.trail ∧ s.lv t = 0) ∨
        ∃ a b r', upd s.data s.next (c0 :: c1 :: r) id = a :: b :: r' ∧ id ∈ (attachW s s.next c0 c1 (neg a)).map Prod.fst ∧ id ∈ (attachW s s.next c0 c1 (neg b)).map Prod.fst
      have : id ∈ s.db inc ∨ id = s.next := by
        have hid : id ∈ cs ++ (if inc then ls else []) := hid
        rcases List.mem_append.1 hid with h' | h'
        · exact (hcs id h').imp (fun h => List.mem_append_left _ h) (fun h => h)
        · cases inc with
          | false => simp at h'
          | true => exact (hls id h').imp (fun h => List.mem_append_right _ h) (fun h => h)
      rcases this with h' | rfl
      · have hlive : s.Live id := by
          rcases List.mem_append.1 h' with h'' | h''
          · exact .inl h''
          · cases inc with
            | false => simp at h''
            | true => exact .inr (.inl h'')
        rw [hold _ hlive]
        refine (h.cov id h').imp (fun h => h) ?_
        rintro ⟨a, b, r', e, ha, hb⟩
        refine ⟨a, b, r', e, ?_, ?_⟩
        · rw [attachW_eq s hne, List.map_append]; exact List.mem_append_left _ ha
        · rw [attachW_eq s hne, List.map_append]; exact List.mem_append_left _ hb
      · right
        refine ⟨c0, c1, r, upd_self .., ?_, ?_⟩
        · exact List.mem_map.2 ⟨(s.next, c1), (mem_attachW hne).2 (.inr (.inl ⟨rfl, rfl⟩)), rfl⟩
        · exact List.mem_map.2 ⟨(s.next, c0), (mem_attachW hne).2 (.inr (.inr ⟨rfl, rfl⟩)), rfl⟩
    zero := h.zero
    incw := by
      intro hi l w hw
      show w.1 ∈ cs ∨ w.1 ∈ ls
      rcases (mem_attachW hne).1 hw with h' | ⟨_, rfl⟩ | ⟨_, rfl⟩
      · exact (h.incw hi l w h').imp (hcs' _) (hls' _)
      · exact hnew
      · exact hnew
    incr := fun hi x hx id hr => (h.incr hi x hx id hr).imp (hcs' _) (hls' _)
    incu := h.incu }

/-- More literals count as done when their watch lists are in order. -/
theorem Inv.raise (h : Inv Φ inc U q s) {q' : Nat} (hq : q ≤ q') (hle : q' ≤ s.trail.length)
    (hv : ∀ l ∈ s.done q', ∀ w ∈ s.watches l, s.ValidW l w) : Inv Φ inc U q' s :=
  { h with
    limq := fun n hn => Nat.le_trans (h.limq n hn) hq
    qle := hle
    valid := hv }

end

/-- The invariant of the solver during a search with the current assumptions.  `q` is as in `Inv`. -/
structure SInv {F : Type} (Φ : List (List Nat)) (inc : Bool) (q : Nat) (s : St F) : Prop where
  inv : Inv Φ inc s.units q s.toCore
  heap : HInv s
  seen : ∀ v, s.seen v = false
  eqv : s.ok = true → ∀ ρ, (∀ id ∈ s.clauses, clT ρ (s.data id)) → (∀ x ∈ s.trail, s.lv x = 0 → litT ρ x) → Models ρ Φ
  uent : ∀ u ∈ s.units, Ent Φ [u]
  cnod : (s.clauses ++ s.learnts).Nodup
  flag : (∀ id ∈ s.clauses, s.learnt id = false) ∧ ∀ id ∈ s.learnts, s.learnt id = true
  sel : ∀ l ∈ s.sel, l < 2 * s.nvars
  arng : ∀ p ∈ s.assumptions, p < 2 * s.nvars
  apos : ∀ i p, i < s.lim.length → s.assumptions[i]? = some p → p ∈ s.trail ∧ s.lv p ≤ i + 1
  adec : ∀ x ∈ s.trail, s.reason (vr x) = none → 0 < s.lv x → s.lv x ≤ s.assumptions.length → x ∈ s.assumptions

/-- A set of literals closed under unit propagation with the clauses of the solver. -/
def Closed (c : Core) (A : Nat → Prop) : Prop :=
  ∀ id, id ∈ c.clauses ∨ id ∈ c.learnts → ∀ l ∈ c.data id, (∀ y ∈ c.data id, y ≠ l → A (neg y)) → A l

/-- No two clauses of a list have the same literals. -/
def NoTw (d : Nat → List Nat) (ids : List Nat) : Prop := ∀ i ∈ ids, ∀ j ∈ ids, (d i).Perm (d j) → i = j

/-- The unit clauses can be put back one after the other: none of them (and none of their complements) follows from the
earlier ones by unit propagation.  Learnt clauses are pairwise different. -/
structure RInv (c : Core) : Prop where
  ind : ∀ k u, c.units[k]? = some u → ∃ A : Nat → Prop, (∀ x ∈ c.units.take k, A x) ∧ Closed c A ∧
    (c.ok = true → ∀ x, A x → x ∈ c.trail ∧ c.lv x = 0) ∧ ¬ A u ∧ ¬ A (neg u)
  pres : c.ok = true → ∀ u ∈ c.units, u ∈ c.trail ∧ c.lv u = 0
  tw : NoTw c.data c.learnts

theorem Closed.mono {c c' : Core} {A : Nat → Prop} (h : Closed c A) (hcl : ∀ id, id ∈ c'.clauses ∨ id ∈ c'.learnts → id ∈ c.clauses ∨ id ∈ c.learnts)
    (hp : ∀ id, id ∈ c'.clauses ∨ id ∈ c'.learnts → (c'.data id).Perm (c.data id)) : Closed c' A := by
  intro id hid l hl hall
  have hp := hp id hid
  exact h id (hcl id hid) l (hp.mem_iff.1 hl) fun y hy hne => hall y (hp.mem_iff.2 hy) hne

theorem RInv.mono {c c' : Core} (h : RInv c) (hu : c'.units = c.units) (ho : c'.ok = true → c.ok = true)
    (hcl : ∀ id ∈ c'.clauses, id ∈ c.clauses) (hle : ∀ id ∈ c'.learnts, id ∈ c.learnts)
    (hp : ∀ id, id ∈ c'.clauses ∨ id ∈ c'.learnts → (c'.data id).Perm (c.data id))
    (ht : ∀ x ∈ c.trail, c.lv x = 0 → x ∈ c'.trail ∧ c'.lv x = 0) : RInv c' where
  ind k u e := by
    rw [hu] at e ⊢
    obtain ⟨A, h1, h2, h3, h4⟩ := h.ind k u e
    exact ⟨A, h1, h2.mono (fun id h => h.imp (hcl id) (hle id)) hp, fun hk x hx => ht x (h3 (ho hk) x hx).1 (h3 (ho hk) x hx).2, h4⟩
  pres hk u hm := by
    rw [hu] at hm
    obtain ⟨a, b⟩ := h.pres (ho hk) u hm
    exact ht u a b
  tw i hi j hj hij := h.tw i (hle i hi) j (hle j hj) (((hp i (.inr hi)).symm.trans hij).trans (hp j (.inr hj)))

theorem NoTw.mono {d d' : Nat → List Nat} {ids ids' : List Nat} (h : NoTw d ids) (hs : ∀ i ∈ ids', i ∈ ids) (hp : ∀ i ∈ ids', (d' i).Perm (d i)) : NoTw d' ids' :=
  fun i hi j hj hij => h i (hs i hi) j (hs j hj) (((hp i hi).symm.trans hij).trans (hp j hj))

theorem NoTw.snoc {d : Nat → List Nat} {ids : List Nat} (h : NoTw d ids) {n : Nat} {c : List Nat} (hn : ∀ i ∈ ids, i ≠ n) (hc : ∀ i ∈ ids, ¬ (d i).Perm c) :
    NoTw (upd d n c) (ids ++ [n]) := by
  intro i hi j hj hp
  rcases List.mem_append.1 hi with hi | hi <;> rcases List.mem_append.1 hj with hj | hj
  · rw [upd_ne _ _ (hn i hi), upd_ne _ _ (hn j hj)] at hp
    exact h i hi j hj hp
  · rw [List.mem_singleton.1 hj, upd_self, upd_ne _ _ (hn i hi)] at hp
    exact absurd hp (hc i hi)
  · rw [List.mem_singleton.1 hi, upd_self, upd_ne _ _ (hn j hj)] at hp
    exact absurd hp.symm (hc j hj)
  · rw [List.mem_singleton.1 hi, List.mem_singleton.1 hj]

/-- A fully propagated level zero is closed under unit propagation. -/
theorem Inv.closed {Φ : List (List Nat)} {U : List Nat} {q : Nat} {c : Core} (h : Inv Φ true U q c) (hq : q = c.trail.length) : Closed c (· ∈ c.trail) := by
  intro id hid l hl hall
  have key : ∀ c0, c0 ∈ c.data id → id ∈ (c.watches (neg c0)).map Prod.fst → c0 ≠ l → l ∈ c.trail := by
    intro c0 hm hw hne
    obtain ⟨w, hw, ew⟩ := List.mem_map.1 hw
    obtain ⟨t, ht, htt, _⟩ := h.valid (neg c0) (by unfold Core.done; rw [hq]; simpa using hall c0 hm hne) w hw
    rw [ew] at ht
    by_cases e : t = l
    · rw [← e]; exact htt
    · exact absurd (hall t ht e) fun hn => h.not_both htt hn
  have hdb : id ∈ c.db true := by
    unfold Core.db
    rcases hid with h' | h' <;> simp [h']
  rcases h.cov id hdb with ⟨hf, _⟩ | ⟨c0, c1, r, e, m0, m1⟩
  · cases hf
  · by_cases e0 : c0 = l
    · refine key c1 (by rw [e]; simp) m1 fun e1 => ?_
      have := (h.good id (hid.elim .inl fun h => .inr (.inl h))).1.nodup
      rw [e, e0, e1] at this
      simp at this
    · exact key c0 (by rw [e]; simp) m0 e0

/-- A clause without literals false on level zero keeps the unit clauses replayable. -/
theorem RInv.withClause {s : Core} (h : RInv s) {c0 c1 : Nat} {r : List Nat} {lrn : Bool} (hne : c0 ≠ c1)
    (hz : ∀ l ∈ c0 :: c1 :: r, neg l ∈ s.trail → s.lv l ≠ 0) (ho : s.ok = true) (hn : lrn = true → ∀ id ∈ s.learnts, ¬ (s.data id).Perm (c0 :: c1 :: r)) (hid : ∀ id, id ∈ s.clauses ∨ id ∈ s.learnts → id < s.next) :
    RInv (withClause s c0 c1 r lrn (if lrn then s.clauses else s.clauses ++ [s.next]) (if lrn then s.learnts ++ [s.next] else s.learnts)) where
  ind k u e := by
    obtain ⟨A, h1, h2, h3, h4⟩ := h.ind k u e
    refine ⟨A, h1, ?_, fun _ x hx => h3 ho x hx, h4⟩
    intro id hm l hl hall
    have hm : id ∈ (if lrn then s.clauses else s.clauses ++ [s.next]) ∨ id ∈ (if lrn then s.learnts ++ [s.next] else s.learnts) := hm
    have hl : l ∈ upd s.data s.next (c0 :: c1 :: r) id := hl
    have hall : ∀ y ∈ upd s.data s.next (c0 :: c1 :: r) id, y ≠ l → A (neg y) := hall
    by_cases hx : id = s.next
    · subst hx
      rw [upd_self] at hl hall
      have key : ∀ y ∈ c0 :: c1 :: r, y ≠ l → False := fun y hy hn => by
        obtain ⟨a, b⟩ := h3 ho _ (hall y hy hn)
        exact hz y hy a (by rw [Inv.lv_neg] at b; exact b)
      by_cases e : c0 = l
      · exact (key c1 (by simp) fun e1 => hne (e.trans e1.symm)).elim
      · exact (key c0 (by simp) e).elim
    · rw [upd_ne _ _ hx] at hl hall
      refine h2 id ?_ l hl hall
      cases lrn with
      | true =>
        rcases hm with h' | h'
        · exact .inl h'
        · rcases List.mem_append.1 h' with h' | h'
          · exact .inr h'
          · exact absurd (List.mem_singleton.1 h') hx
      | false =>
        rcases hm with h' | h'
        · rcases List.mem_append.1 h' with h' | h'
          · exact .inl h'
          · exact absurd (List.mem_singleton.1 h') hx
        · exact .inr h'
  pres := h.pres
  tw := by
    show NoTw (upd s.data s.next (c0 :: c1 :: r)) (if lrn then s.learnts ++ [s.next] else s.learnts)
    have hl : ∀ i ∈ s.learnts, i ≠ s.next := fun i hi => Nat.ne_of_lt (hid i (.inr hi))
    split
    · next e => exact h.tw.snoc hl (hn e)
    · exact h.tw.mono (fun _ h => h) fun i hi => by rw [upd_ne _ _ (hl i hi)]

/-- Adding a unit clause on a fully propagated level zero. -/
theorem RInv.unit {Φ : List (List Nat)} {U : List Nat} {q : Nat} {s : Core} (h : RInv s) (hi : Inv Φ true U q s) (hq : q = s.trail.length) (hl : s.lim = []) {l : Nat} (h1 : l ∉ s.trail)
    (h2 : neg l ∉ s.trail) (ho : s.ok = true) : RInv (({ s with units := s.units ++ [l] } : Core).enqueue l none) where
  ind k u e := by
    have hlv : ∀ y ∈ s.trail, (({ s with units := s.units ++ [l] } : Core).enqueue l none).lv y = s.lv y := fun y hy => hi.enqueue_lv (r := none) h1 h2 (.inl hy)
    have e : (s.units ++ [l])[k]? = some u := e
    by_cases hk : k < s.units.length
    · rw [List.getElem?_append_left hk] at e
      obtain ⟨A, a1, a2, a3, a4⟩ := h.ind k u e
      refine ⟨A, ?_, a2, fun _ x hx => ?_, a4⟩
      · show ∀ x ∈ (s.units ++ [l]).take k, A x
        rw [List.take_append_of_le_length (Nat.le_of_lt hk)]; exact a1
      · obtain ⟨b1, b2⟩ := a3 ho x hx
        exact ⟨List.mem_cons_of_mem _ b1, by rw [hlv x b1]; exact b2⟩
    · have hk' : k = s.units.length := by
        have := (List.getElem?_eq_some_iff.1 e).1
        simp at this
        omega
      subst hk'
      rw [List.getElem?_append_right (Nat.le_refl _), Nat.sub_self] at e
      cases e
      refine ⟨(· ∈ s.trail), ?_, hi.closed hq, fun _ x hx => ⟨List.mem_cons_of_mem _ hx, ?_⟩, h1, h2⟩
      · show ∀ x ∈ (s.units ++ [l]).take s.units.length, x ∈ s.trail
        rw [List.take_append_of_le_length (Nat.le_refl _), List.take_length]
        exact fun x hx => (h.pres ho x hx).1
      · rw [hlv x hx]
        have := hi.lv_le hx
        rw [hl] at this
        simpa using this
  pres _ u hu := by
    have hu : u ∈ s.units ++ [l] := hu
    rcases List.mem_append.1 hu with h' | h'
    · obtain ⟨a, b⟩ := h.pres ho u h'
      refine ⟨List.mem_cons_of_mem _ a, ?_⟩
      have : (({ s with units := s.units ++ [l] } : Core).enqueue l none).lv u = s.lv u := hi.enqueue_lv (r := none) h1 h2 (.inl a)
      rw [this]; exact b
    · rw [List.mem_singleton.1 h']
      refine ⟨List.mem_cons_self .., ?_⟩
      rw [Inv.enqueue_lv_self]
      show s.lim.length = 0
      rw [hl]; rfl
  tw := h.tw

/-- What a step of the search does to the clause lists. -/
structure Grow {F : Type} (inc : Bool) (s s' : St F) : Prop where
  keep : Keep s s'
  nvars : s'.nvars = s.nvars
  ok : s'.ok = s.ok
  next : s.next ≤ s'.next
  clauses : inc = true → s'.clauses = s.clauses
  learnts : inc = true → ∃ r, s'.learnts = s.learnts ++ r ∧ ∀ id ∈ r, s.next ≤ id
  units : ∃ r, s'.units = s.units ++ r
  perm : inc = true → ∀ i < s.next, (s'.data i).Perm (s.data i)
  flag : inc = true → ∀ i < s.next, s'.learnt i = s.learnt i
  rep : inc = true → s.ok = true → RInv s.toCore → RInv s'.toCore

namespace Grow
variable {F : Type} {inc : Bool} {s s' s'' : St F}

theorem refl (s : St F) : Grow inc s s := ⟨.refl s, rfl, rfl, Nat.le_refl _, fun _ => rfl, fun _ => ⟨[], by simp, by simp⟩, ⟨[], by simp⟩, fun _ _ _ => .refl _, fun _ _ _ => rfl, fun _ _ h => h⟩

theorem trans (h : Grow inc s s') (h' : Grow inc s' s'') : Grow inc s s'' where
  keep := h.keep.trans h'.keep
  nvars := h'.nvars.trans h.nvars
  ok := h'.ok.trans h.ok
  next := Nat.le_trans h.next h'.next
  clauses hi := (h'.clauses hi).trans (h.clauses hi)
  learnts hi := by
    obtain ⟨r, e, hr⟩ := h.learnts hi
    obtain ⟨r', e', hr'⟩ := h'.learnts hi
    refine ⟨r ++ r', by rw [e', e, List.append_assoc], fun id hid => ?_⟩
    rcases List.mem_append.1 hid with h1 | h1
    · exact hr id h1
    · exact Nat.le_trans h.next (hr' id h1)
  units := by
    obtain ⟨r, e⟩ := h.units
    obtain ⟨r', e'⟩ := h'.units
    exact ⟨r ++ r', by rw [e', e, List.append_assoc]⟩
  perm hi i hn := (h'.perm hi i (Nat.lt_of_lt_of_le hn h.next)).trans (h.perm hi i hn)
  flag hi i hn := (h'.flag hi i (Nat.lt_of_lt_of_le hn h.next)).trans (h.flag hi i hn)
  rep hi ho hr := h'.rep hi (h.ok.trans ho) (h.rep hi ho hr)

theorem of_eq (hk : Keep s s') (hc : s'.toCore = s.toCore) : Grow inc s s' := by
  refine ⟨hk, ?_, ?_, ?_, ?_, ?_, ?_, ?_, ?_, ?_⟩
  · rw [hc]
  · rw [hc]
  · rw [hc]; exact Nat.le_refl _
  · intro _; rw [hc]
  · intro _; exact ⟨[], by rw [hc]; simp, by simp⟩
  · exact ⟨[], by rw [hc]; simp⟩
  · intro _ i _; rw [hc]
  · intro _ i _; rw [hc]
  · intro _ _ h; rw [hc]; exact h

/-- A step that only reorders clauses and changes the trail above level zero. -/
theorem step (hk : Keep s s') (hn : s'.nvars = s.nvars) (ho : s'.ok = s.ok) (hx : s'.next = s.next) (hcl : s'.clauses = s.clauses) (hle : s'.learnts = s.learnts)
    (hu : s'.units = s.units) (hp : ∀ i, (s'.data i).Perm (s.data i)) (hf : s'.learnt = s.learnt)
    (ht : ∀ x ∈ s.trail, s.lv x = 0 → x ∈ s'.trail ∧ s'.lv x = 0) : Grow inc s s' :=
  ⟨hk, hn, ho, Nat.le_of_eq hx.symm, fun _ => hcl, fun _ => ⟨[], by rw [hle]; simp, by simp⟩, ⟨[], by rw [hu]; simp⟩, fun _ i _ => hp i, fun _ i _ => by rw [hf],
    fun _ _ h => h.mono hu (fun e => ho ▸ e) (by rw [hcl]; exact fun _ h => h) (by rw [hle]; exact fun _ h => h) (fun id _ => hp id) ht⟩

end Grow

section
variable {F : Type} [LinearOrder F] [Flt F] {Φ : List (List Nat)} {inc : Bool} {q : Nat} {s : St F}
open St

theorem SInv.congr {s' : St F} (h : SInv Φ inc q s) (hc : s'.toCore = s.toCore) (hk : Keep s s') (hh : HInv s') (hs : ∀ v, s'.seen v = false) :
    SInv Φ inc q s' where
  inv := by rw [hc]; exact h.inv
  heap := hh
  seen := hs
  eqv := by rw [hc]; exact h.eqv
  uent := by rw [hc]; exact h.uent
  cnod := by rw [hc]; exact h.cnod
  flag := by rw [hc]; exact h.flag
  sel := by rw [hc, hk.sel]; exact h.sel
  arng := by rw [hc, hk.assumptions]; exact h.arng
  apos := by rw [hc, hk.assumptions]; exact h.apos
  adec := by rw [hc, hk.assumptions]; exact h.adec

theorem clT_perm {ρ : Nat → Bool} {c d : List Nat} (h : c.Perm d) : clT ρ c ↔ clT ρ d :=
  ⟨fun ⟨l, hl, ht⟩ => ⟨l, h.mem_iff.1 hl, ht⟩, fun ⟨l, hl, ht⟩ => ⟨l, h.mem_iff.2 hl, ht⟩⟩

theorem SInv.frame {s' : St F} (h : SInv Φ inc q s) {q' : Nat} (hk : Keep s s') (hf : Frame s.toCore s'.toCore) (hh : HInv s')
    (hs : s'.seen = s.seen) (hi : Inv Φ inc s.units q' s'.toCore) : SInv Φ inc q' s' ∧ Grow inc s s' := by
  have hlv : ∀ l ∈ s.trail, s'.lv l = s.lv l := fun l hl => by unfold Core.lv; rw [hf.lev l hl]
  have hmem : ∀ l ∈ s.trail, l ∈ s'.trail := fun l hl => by obtain ⟨n, e⟩ := hf.ext; rw [e]; simp [hl]
  constructor
  · exact
    { inv := by rw [hf.units]; exact hi
      heap := hh
      seen := by rw [hs]; exact h.seen
      eqv := by
        intro ho ρ h1 h2
        rw [hf.clauses] at h1
        exact h.eqv (hf.ok.symm.trans ho) ρ (fun id hid => (clT_perm (hf.perm id)).1 (h1 id hid)) fun x hx h0 => h2 x (hmem x hx) (by rw [hlv x hx]; exact h0)
      uent := by rw [hf.units]; exact h.uent
      cnod := by rw [hf.clauses, hf.learnts]; exact h.cnod
      flag := by rw [hf.clauses, hf.learnts, hf.learnt]; exact h.flag
      sel := by rw [hk.sel, hf.nvars]; exact h.sel
      arng := by rw [hk.assumptions, hf.nvars]; exact h.arng
      apos := by
        intro i p hi hp
        rw [hf.lim] at hi; rw [hk.assumptions] at hp
        obtain ⟨h1, h2⟩ := h.apos i p hi hp
        exact ⟨hmem p h1, by rw [hlv p h1]; exact h2⟩
      adec := by
        intro x hx hr h0 hle
        rw [hk.assumptions] at hle ⊢
        by_cases hx' : x ∈ s.trail
        · rw [hf.rsn x hx'] at hr
          rw [hlv x hx'] at h0 hle
          exact h.adec x hx' hr h0 hle
        · have := hf.newr x hx hx'
          rw [hr] at this; cases this }
  · exact .step hk hf.nvars hf.ok hf.next hf.clauses hf.learnts hf.units hf.perm hf.learnt fun x hx h0 => ⟨hmem x hx, by rw [hlv x hx]; exact h0⟩

theorem SInv.cancel {s' : St F} (h : SInv Φ inc q s) {L : Nat} (hL : L < s.lim.length) (hc : CancelOk Φ inc s.units L s s') :
    SInv Φ inc s'.qhead s' ∧ Grow inc s s' := by
  have hlv : ∀ l, s'.lv l = s.lv l := fun l => by unfold Core.lv; rw [hc.level]
  constructor
  · exact
    { inv := by rw [hc.units]; exact hc.inv
      heap := hc.heap
      seen := by rw [hc.seen]; exact h.seen
      eqv := by
        intro ho ρ h1 h2
        rw [hc.clauses, hc.data] at h1
        exact h.eqv (hc.ok.symm.trans ho) ρ h1 fun x hx h0 => h2 x (hc.mem x hx (by omega)) (by rw [hlv x]; exact h0)
      uent := by rw [hc.units]; exact h.uent
      cnod := by rw [hc.clauses, hc.learnts]; exact h.cnod
      flag := by rw [hc.clauses, hc.learnts, hc.learnt]; exact h.flag
      sel := by rw [hc.keep.sel, hc.nvars]; exact h.sel
      arng := by rw [hc.keep.assumptions, hc.nvars]; exact h.arng
      apos := by
        intro i p hi hp
        rw [hc.lim, List.length_drop] at hi; rw [hc.keep.assumptions] at hp
        obtain ⟨h1, h2⟩ := h.apos i p (by omega) hp
        exact ⟨hc.mem p h1 (by omega), by rw [hlv p]; exact h2⟩
      adec := by
        intro x hx hr h0 hle
        rw [hc.keep.assumptions] at hle ⊢
        rw [hc.reason] at hr
        rw [hlv x] at h0 hle
        exact h.adec x (hc.sub x hx).1 hr h0 hle }
  · exact .step hc.keep hc.nvars hc.ok hc.next hc.clauses hc.learnts hc.units (fun i => by rw [hc.data]) hc.learnt fun x hx h0 =>
      ⟨hc.mem x hx (by omega), by rw [hlv x]; exact h0⟩

theorem install_eq {c0 c1 : Nat} {r : List Nat} (lrn : Bool) :
    ∃ s' : St F, install (c0 :: c1 :: r) lrn s = some s' ∧
      s'.toCore = withClause s.toCore c0 c1 r lrn s.clauses s.learnts ∧ Keep s s' ∧ s'.heap = s.heap ∧ s'.seen = s.seen ∧
      s'.pgProof = s.pgProof ∧ s'.cact = upd s.cact s.next (Flt.ofInt 0) ∧ s'.claInc = s.claInc ∧ s'.bt = s.bt := by
  unfold install attach
  have e : (s.toCore.alloc (c0 :: c1 :: r) lrn).data s.next = c0 :: c1 :: r := upd_self ..
  rw [e]
  exact ⟨_, rfl, rfl, ⟨rfl, rfl, rfl, rfl, rfl, rfl, rfl⟩, rfl, rfl, rfl, rfl, rfl, rfl⟩


theorem SInv.enq (h : SInv Φ inc q s) {q' l : Nat} {r : Option Nat} (h1 : l ∉ s.trail) (h2 : neg l ∉ s.trail)
    (hi : Inv Φ inc s.units q' (s.toCore.enqueue l r))
    (hr : r = none → 0 < s.lim.length → s.lim.length ≤ s.assumptions.length → l ∈ s.assumptions) :
    SInv Φ inc q' { s with toCore := s.toCore.enqueue l r } := by
  have hlv : ∀ y ∈ s.trail, (s.toCore.enqueue l r).lv y = s.lv y := fun y hy => h.inv.enqueue_lv h1 h2 (.inl hy)
  exact
  { inv := hi
    heap := h.heap.congr rfl rfl rfl (fun v _ hv => by
      have hv : upd s.asg (vr l) (some (!sgn l)) v = none := hv
      by_cases e : v = vr l
      · subst e; rw [upd_self] at hv; cases hv
      · rwa [upd_ne _ _ e] at hv)
    seen := h.seen
    eqv := fun ho ρ hc ht => h.eqv ho ρ hc fun x hx h0 => ht x (List.mem_cons_of_mem _ hx) (by
      show (s.toCore.enqueue l r).lv x = 0
      rw [hlv x hx]; exact h0)
    uent := h.uent
    cnod := h.cnod
    flag := h.flag
    sel := h.sel
    arng := h.arng
    apos := fun i p hi hp => by
      obtain ⟨a, b⟩ := h.apos i p hi hp
      exact ⟨List.mem_cons_of_mem _ a, by show (s.toCore.enqueue l r).lv p ≤ i + 1; rw [hlv p a]; exact b⟩
    adec := by
      intro x hx hrx h0 hle
      have hrx : upd s.reason (vr l) r (vr x) = none := hrx
      have h0 : 0 < (s.toCore.enqueue l r).lv x := h0
      have hle : (s.toCore.enqueue l r).lv x ≤ s.assumptions.length := hle
      rcases List.mem_cons.1 hx with rfl | hx
      · rw [Inv.enqueue_lv_self] at h0 hle
        rw [upd_self] at hrx
        exact hr hrx h0 hle
      · rw [upd_ne _ _ (h.inv.vr_ne h1 h2 hx)] at hrx
        rw [hlv x hx] at h0 hle
        exact h.adec x hx hrx h0 hle }

theorem SInv.unit (h : SInv Φ inc q s) {l : Nat} (hl : Ent Φ [l]) : SInv Φ inc q { s with units := s.units ++ [l] } :=
  { h with
    inv := by
      have hm := h.inv.mono_U (U' := s.units ++ [l]) (fun u hu => List.mem_append_left _ hu)
      exact { hm with }
    heap := { h.heap with }
    uent := fun u hu => by
      rcases List.mem_append.1 hu with h' | h'
      · exact h.uent u h'
      · rw [List.mem_singleton.1 h']; exact hl }

theorem SInv.withClause (h : SInv Φ inc q s) {Ψ : List (List Nat)} {s' : St F} {c0 c1 : Nat} {r : List Nat} {lrn : Bool}
    (hc : s'.toCore = withClause s.toCore c0 c1 r lrn (if lrn then s.clauses else s.clauses ++ [s.next]) (if lrn then s.learnts ++ [s.next] else s.learnts))
    (hk : Keep s s') (hh : s'.heap = s.heap) (hs : s'.seen = s.seen) (hi : Inv Ψ inc s.units q s'.toCore) (hsub : ∀ c ∈ Φ, c ∈ Ψ)
    (he : ∀ ρ, Models ρ Φ → (∀ x ∈ s.trail, s.lv x = 0 → litT ρ x) → (lrn = false → clT ρ (c0 :: c1 :: r)) → Models ρ Ψ)
    (hne : c0 ≠ c1) (hz : lrn = true → inc = true → ∀ l ∈ c0 :: c1 :: r, neg l ∈ s.trail → s.lv l ≠ 0)
    (hntw : lrn = true → inc = true → ∀ id ∈ s.learnts, ¬ (s.data id).Perm (c0 :: c1 :: r)) :
    SInv Ψ inc q s' ∧ (lrn = true → Grow inc s s') := by
  have hid : ∀ id, id ∈ s.clauses ∨ id ∈ s.learnts → id < s.next := fun id hid =>
    (h.inv.good id (hid.elim .inl fun h => .inr (.inl h))).2
  constructor
  · exact
    { inv := by rw [hc]; rw [hc] at hi; exact hi
      heap := h.heap.congr (by rw [hc]; rfl) hh hk.decision (fun v _ hv => by rw [hc] at hv; exact hv)
      seen := by rw [hs]; exact h.seen
      eqv := by
        rw [hc]
        intro ho ρ h1 h2
        refine he ρ (h.eqv ho ρ (fun id hm => ?_) h2) h2 (fun hl => ?_)
        rotate_left
        · subst hl
          have := h1 s.next (by show s.next ∈ s.clauses ++ [s.next]; simp)
          have : clT ρ (upd s.data s.next (c0 :: c1 :: r) s.next) := this
          rwa [upd_self] at this
        have : clT ρ (upd s.data s.next (c0 :: c1 :: r) id) := h1 id (by
          show id ∈ (if lrn then s.clauses else s.clauses ++ [s.next])
          split
          · exact hm
          · exact List.mem_append_left _ hm)
        rwa [upd_ne _ _ (Nat.ne_of_lt (hid id (.inl hm)))] at this
      uent := by rw [hc]; exact fun u hu => (h.uent u hu).mono hsub
      cnod := by
        rw [hc]
        show ((if lrn then s.clauses else s.clauses ++ [s.next]) ++ (if lrn then s.learnts ++ [s.next] else s.learnts)).Nodup
        have hn : s.next ∉ s.clauses ++ s.learnts := fun hm => Nat.lt_irrefl _ (hid _ (List.mem_append.1 hm))
        have hp : (s.next :: (s.clauses ++ s.learnts)).Nodup := List.nodup_cons.2 ⟨hn, h.cnod⟩
        cases lrn with
        | true =>
          simp only [if_true]
          rw [← List.append_assoc]
          exact (List.perm_append_singleton _ _).nodup_iff.2 hp
        | false =>
          simp only [Bool.false_eq_true, if_false]
          rw [List.append_assoc]
          exact (List.perm_middle).nodup_iff.2 hp
      flag := by
        rw [hc]
        show (∀ id ∈ (if lrn then s.clauses else s.clauses ++ [s.next]), upd s.learnt s.next lrn id = false) ∧
          ∀ id ∈ (if lrn then s.learnts ++ [s.next] else s.learnts), upd s.learnt s.next lrn id = true
        have h1 : ∀ id ∈ s.clauses, upd s.learnt s.next lrn id = false := fun id hm => by
          rw [upd_ne _ _ (Nat.ne_of_lt (hid id (.inl hm)))]; exact h.flag.1 id hm
        have h2 : ∀ id ∈ s.learnts, upd s.learnt s.next lrn id = true := fun id hm => by
          rw [upd_ne _ _ (Nat.ne_of_lt (hid id (.inr hm)))]; exact h.flag.2 id hm
        cases lrn with
        | true =>
          refine ⟨h1, fun id hm => ?_⟩
          rcases List.mem_append.1 hm with h' | h'
          · exact h2 id h'
          · rw [List.mem_singleton.1 h', upd_self]
        | false =>
          refine ⟨fun id hm => ?_, h2⟩
          rcases List.mem_append.1 hm with h' | h'
          · exact h1 id h'
          · rw [List.mem_singleton.1 h', upd_self]
      sel := by rw [hk.sel, hc]; exact h.sel
      arng := by rw [hk.assumptions, hc]; exact h.arng
      apos := by rw [hk.assumptions, hc]; exact h.apos
      adec := by rw [hk.assumptions, hc]; exact h.adec }
  · rintro rfl
    refine ⟨hk, by rw [hc]; rfl, by rw [hc]; rfl, by rw [hc]; exact Nat.le_succ _, fun _ => ?_, fun _ => ?_, ⟨[], by rw [hc]; simp [Sat.withClause]⟩, fun _ i hn => ?_, fun _ i hn => ?_,
      fun hinc ho hrp => ?_⟩
    · rw [hc]; rfl
    · rw [hc]
      exact ⟨[s.next], rfl, by simp⟩
    · rw [hc]
      show (upd s.data s.next _ i).Perm _
      rw [upd_ne _ _ (Nat.ne_of_lt hn)]
    · rw [hc]
      show upd s.learnt s.next _ i = _
      rw [upd_ne _ _ (Nat.ne_of_lt hn)]
    · rw [hc]
      exact hrp.withClause hne (hz rfl hinc) ho (fun _ => hntw rfl hinc) hid

theorem decay_sinv (C : Cfg F) (h : SInv Φ inc q s) : SInv Φ inc q (decay C s) ∧ Grow inc s (decay C s) ∧ (decay C s).qhead = s.qhead := by
  obtain ⟨hu, hs⟩ := decay_ok C s
  exact ⟨h.congr hu.core hu.keep (hu.heap h.heap) (by rw [hs]; exact h.seen), .of_eq hu.keep hu.core, by rw [hu.core]⟩

/-- Adding the learnt clause keeps the invariant. -/
theorem record_ok (C : Cfg F) (h : SInv Φ C.incremental s.qhead s) (hq : s.qhead = s.trail.length) {x : Nat} {ls : List Nat}
    (hx : x ∉ s.trail) (hnx : neg x ∉ s.trail) (hxr : x < 2 * s.nvars) (hlow : ∀ l ∈ ls, neg l ∈ s.trail ∧ 0 < s.lv l)
    (hhd : ∀ l r, ls = l :: r → s.lv l = s.lim.length) (hnil : ls = [] → s.lim = []) (hnod : (ls.map vr).Nodup) (hent : Ent Φ (neg x :: ls)) :
    ∃ s', record C (neg x :: ls) s = some s' ∧ SInv Φ C.incremental s'.qhead s' ∧ Grow C.incremental s s' := by
  have hnx' : neg (neg x) ∉ s.trail := by rw [neg_neg]; exact hx
  cases ls with
  | nil =>
    unfold record
    simp only
    have hlim : s.lim = [] := hnil rfl
    have h4 := h.unit hent
    have h5 := h4.enq (l := neg x) (r := none) hnx hnx'
      (h4.inv.enqueue hnx hnx' (neg_lt.2 hxr) (by intro id e; cases e)
        (fun _ => .inl ⟨hlim, fun _ => by simp⟩) (fun _ => hent)) (fun _ h0 => by
          have h0 : 0 < s.lim.length := h0
          rw [hlim] at h0; simp at h0)
    obtain ⟨h6, g6, hq6⟩ := decay_sinv C h5
    refine ⟨_, rfl, ?_, ?_⟩
    · exact hq6.symm ▸ h6
    · refine Grow.trans ?_ g6
      exact ⟨⟨rfl, rfl, rfl, rfl, rfl, rfl, rfl⟩, rfl, rfl, Nat.le_refl _, fun _ => rfl, fun _ => ⟨[], by simp [Core.enqueue], by simp⟩, ⟨[neg x], rfl⟩, fun _ _ _ => .refl _, fun _ _ _ => rfl,
        fun hinc ho hr => by
          have hi := h.inv
          rw [hinc] at hi
          exact hr.unit hi hq hlim hnx hnx' ho⟩
  | cons c1 r =>
    unfold record
    simp only
    obtain ⟨hc1, hc1p⟩ := hlow c1 (List.mem_cons_self ..)
    have hc1l : s.lv c1 = s.lim.length := hhd c1 r rfl
    have hL : s.lim.length - 1 < s.lim.length := by omega
    obtain ⟨hcut1, _, _, hcut4, hcut5⟩ := h.inv.twf.cut hL
    have e0 : s.lim.length - 1 - (s.lim.length - 1) = 0 := by omega
    rw [e0] at hcut1 hcut4 hcut5
    -- the number of literals below the current level
    generalize hq0 : s.lim.getD 0 0 = q0 at hcut1 hcut4 hcut5
    have hdone : ∀ l ∈ s.done q0, s.lv l < s.lim.length := by
      intro l hl
      have := hcut4 l hl
      have : s.lv l ≤ s.lim.length - 1 := this
      omega
    have hlimq : ∀ n ∈ s.lim, n ≤ q0 := by
      intro n hn
      have hsplit : s.lim = q0 :: s.lim.tail := by
        cases hl : s.lim with
        | nil => rw [hl] at hL; simp at hL
        | cons a t => rw [hl] at hq0; simp at hq0; rw [← hq0]; rfl
      rw [hsplit] at hn
      rcases List.mem_cons.1 hn with rfl | hn
      · exact Nat.le_refl _
      · apply hcut5 n
        have : s.lim.length - (s.lim.length - 1) = 1 := by omega
        rw [this, List.drop_one]; exact hn
    have hlow0 := h.inv.mono_q (q' := q0) (by rw [hq]; exact hcut1) hlimq
    have hg : Good Φ s.nvars (neg x :: c1 :: r) := by
      refine ⟨by simp, ?_, ?_, hent⟩
      · refine List.nodup_cons.2 ⟨fun hm => hx ?_, List.Nodup.of_map _ hnod⟩
        have := (hlow _ hm).1
        rwa [neg_neg] at this
      · intro l hl
        rcases List.mem_cons.1 hl with rfl | hl
        · exact neg_lt.2 hxr
        · exact neg_lt.1 (h.inv.rng _ (hlow l hl).1)
    obtain ⟨s4, e4, hc4, hk4, hh4, hs4, _, _, _, _⟩ := install_eq (s := s) (c0 := neg x) (c1 := c1) (r := r) true
    rw [e4]
    simp only
    have hne : neg x ≠ c1 := by
      intro e; subst e
      rw [neg_neg] at hc1; exact hx hc1
    -- the state with the clause
    have hi5 := hlow0.withClause (lrn := true) (cs := s.clauses) (ls := s.learnts ++ [s.next]) hg
      (by rw [neg_neg]; exact fun hm => hx (List.mem_of_mem_drop hm))
      (fun hm => by have := hdone _ hm; rw [Inv.lv_neg] at this; omega)
      (fun id hid => .inl hid) (fun id hid => by
        rcases List.mem_append.1 hid with h' | h'
        · exact .inl h'
        · exact .inr (List.mem_singleton.1 h')) (fun _ h => h) (fun id hid => List.mem_append_left _ hid) (.inr (by simp))
    have hs5 : ∃ s5 : St F, s5 = { s4 with
        learnts := s4.learnts ++ [s.next]
        cact := if C.incremental then s4.cact else upd s4.cact s.next (Flt.add (s4.cact s.next) s4.claInc) } := ⟨_, rfl⟩
    obtain ⟨s5, hs5⟩ := hs5
    have hc5 : s5.toCore = withClause s.toCore (neg x) c1 r true s.clauses (s.learnts ++ [s.next]) := by
      rw [hs5]
      show ({ s4.toCore with learnts := s4.learnts ++ [s.next] } : Core) = _
      rw [hc4]; rfl
    obtain ⟨h5, g5⟩ := (SInv.mk hlow0 h.heap h.seen h.eqv h.uent h.cnod h.flag h.sel h.arng h.apos h.adec : SInv Φ C.incremental q0 s).withClause
      (s' := s5) (c0 := neg x) (c1 := c1) (r := r) (lrn := true) hc5 (by rw [hs5]; exact ⟨hk4.1, hk4.2, hk4.3, hk4.4, hk4.5, hk4.6, hk4.7⟩)
      (by rw [hs5]; exact hh4) (by rw [hs5]; exact hs4) (by rw [hc5]; exact hi5) (fun _ h => h) (fun _ h _ _ => h) hne
      (fun _ _ l hl hn h0 => by
        rcases List.mem_cons.1 hl with rfl | hl
        · exact hnx' hn
        · have := (hlow l hl).2; omega)
      (fun _ hinc id hid hp => by
        have hi := h.inv
        rw [hinc] at hi
        have hm := hi.closed hq id (.inr hid) (neg x) (hp.mem_iff.2 (by simp)) fun y hy hne => by
          rcases List.mem_cons.1 (hp.mem_iff.1 hy) with rfl | hy
          · exact absurd rfl hne
          · exact (hlow y hy).1
        exact hnx hm)
    have ht5 : s5.trail = s.trail := by rw [hc5]; rfl
    have hl5 : s5.lim = s.lim := by rw [hc5]; rfl
    have hlv5 : ∀ l, s5.lv l = s.lv l := fun l => by rw [hc5]; rfl
    have hd5 : s5.data s.next = neg x :: c1 :: r := by rw [hc5]; exact upd_self ..
    have hnx5 : neg x ∉ s5.trail := by rw [ht5]; exact hnx
    have hnx5' : neg (neg x) ∉ s5.trail := by rw [ht5]; exact hnx'
    have hu5 : s5.units = s.units := by rw [hc5]; rfl
    have hi6 : Inv Φ C.incremental s5.units q0 (s5.toCore.enqueue (neg x) (some s.next)) := by
      refine h5.inv.enqueue hnx5 hnx5' (by rw [hc5]; exact neg_lt.2 hxr) ?_ (fun e => by cases e) ?_
      · intro id e
        cases e
        have hin : s.next ∈ s5.learnts := by rw [hc5]; show s.next ∈ s.learnts ++ [s.next]; simp
        refine ⟨.inr (.inl hin), fun _ => .inr hin, c1 :: r, hd5, fun y hy => ?_⟩
        rw [ht5]; exact (hlow y hy).1
      · intro e
        rw [hl5] at e
        rw [e] at hL; simp at hL
    have hlv6 : ∀ l, l ∈ s.trail ∨ neg l ∈ s.trail → (s5.toCore.enqueue (neg x) (some s.next)).lv l = s.lv l := fun l hl => by
      rw [h5.inv.enqueue_lv hnx5 hnx5' (by rw [ht5]; exact hl)]; exact hlv5 l
    have hi7 : Inv Φ C.incremental s5.units s.trail.length (s5.toCore.enqueue (neg x) (some s.next)) := by
      refine hi6.raise hcut1 (by show s.trail.length ≤ (neg x :: s5.trail).length; rw [ht5, List.length_cons]; omega) ?_
      intro l hl w hw
      have hl : l ∈ s.trail := by
        unfold Core.done at hl
        have : (s5.toCore.enqueue (neg x) (some s.next)).trail = neg x :: s.trail := by show neg x :: s5.trail = _; rw [ht5]
        rw [this, List.length_cons, Nat.add_sub_cancel_left] at hl
        exact hl
      have hw : w ∈ s5.watches l := hw
      rw [hc5] at hw
      show ∃ t ∈ s5.data w.1, t ∈ neg x :: s5.trail ∧ _
      rcases (mem_attachW hne).1 hw with h' | ⟨hlx, _⟩ | ⟨hlc, e⟩
      · obtain ⟨t, ht, htt, hle⟩ := h.inv.valid l (by unfold Core.done; rw [hq]; simpa using hl) w h'
        refine ⟨t, ?_, by rw [ht5]; exact List.mem_cons_of_mem _ htt, ?_⟩
        · rw [hc5]
          show t ∈ upd s.data s.next _ w.1
          rw [upd_ne _ _ (Nat.ne_of_lt (h.inv.good w.1 (.inr (.inr (.inl ⟨l, w, h', rfl⟩)))).2)]
          exact ht
        · rw [hlv6 t (.inl htt), hlv6 l (.inl hl)]; exact hle
      · rw [neg_neg] at hlx
        rw [hlx] at hl
        exact absurd hl hx
      · refine ⟨neg x, ?_, List.mem_cons_self .., ?_⟩
        · rw [e, hd5]; simp
        · rw [Inv.enqueue_lv_self, hl5, hlv6 l (.inl hl), hlc, Inv.lv_neg, hc1l]; exact ⟨Nat.le_refl _, by rw [e]⟩
    have h7 := h5.enq hnx5 hnx5' hi7 (fun e => by cases e)
    obtain ⟨h8, g8, hq8⟩ := decay_sinv C h7
    have est : ({ s4 with
        toCore := { s4.toCore.enqueue (neg x) (some s.next) with learnts := s4.learnts ++ [s.next] }
        cact := if C.incremental then s4.cact else upd s4.cact s.next (Flt.add (s4.cact s.next) s4.claInc) } : St F) =
        { s5 with toCore := s5.toCore.enqueue (neg x) (some s.next) } := by rw [hs5]; rfl
    refine ⟨_, rfl, ?_, ?_⟩
    · rw [est, hq8]
      show SInv Φ C.incremental s5.qhead _
      rw [show s5.qhead = s.trail.length by rw [hc5]; exact hq]
      exact h8
    · rw [est]
      refine ((g5 rfl).trans ?_).trans g8
      exact ⟨⟨rfl, rfl, rfl, rfl, rfl, rfl, rfl⟩, rfl, rfl, Nat.le_refl _, fun _ => rfl, fun _ => ⟨[], by simp [Core.enqueue], by simp⟩, ⟨[], by simp [Core.enqueue]⟩, fun _ _ _ => .refl _, fun _ _ _ => rfl,
        fun _ _ hr => hr.mono rfl (fun e => e) (fun _ h => h) (fun _ h => h) (fun _ _ => .refl _) fun y hy h0 =>
          ⟨List.mem_cons_of_mem _ hy, by rw [show ({ s5 with toCore := s5.toCore.enqueue (neg x) (some s.next) } : St F).toCore.lv y = s5.lv y from h5.inv.enqueue_lv hnx5 hnx5' (.inl hy)]; exact h0⟩⟩

/-- Learning succeeds and keeps the invariant. -/
theorem learn_ok (C : Cfg F) (hm : C.clauseMin ≠ .none) (h : SInv Φ C.incremental q s) (hd : s.lim ≠ []) {id : Nat} (hc : Conflict s.toCore id) :
    ∃ s', learn C id s = some s' ∧ SInv Φ C.incremental s'.qhead s' ∧ Grow C.incremental s s' := by
  obtain ⟨s1, x, ls, e1, hu1, hs1, hl⟩ := analyze_ok C hm h.inv h.heap h.seen hd hc
  have h1 : SInv Φ C.incremental q s1 := h.congr hu1.core hu1.keep (hu1.heap h.heap) hs1
  have g1 : Grow C.incremental s s1 := .of_eq hu1.keep hu1.core
  rw [← hu1.core] at hl hd
  obtain ⟨s2, e2, hc2⟩ := cancelUntil_ok h1.inv h1.heap hl.lt
  obtain ⟨h2, g2⟩ := h1.cancel hl.lt hc2
  have hlv : ∀ l, s2.lv l = s1.lv l := fun l => by unfold Core.lv; rw [hc2.level]
  have hll : s2.lim.length = s1.bt := by
    have := hl.lt
    rw [hc2.lim, List.length_drop]; omega
  unfold learn
  rw [e1]
  simp only
  rw [e2]
  simp only
  obtain ⟨s3, hs3⟩ : ∃ s3 : St F, s3 = { s2 with
      selIdx := if s2.bt < s2.sel.length then s2.bt else s2.selIdx
      pgProof := if C.proofGen then s2.pgProof ++ [1 :: (neg x :: ls).map pgLit] else s2.pgProof } := ⟨_, rfl⟩
  have hc3 : s3.toCore = s2.toCore := by subst hs3; rfl
  have hk3 : Keep s2 s3 := by subst hs3; exact ⟨rfl, rfl, rfl, rfl, rfl, rfl, rfl⟩
  have h3 : SInv Φ C.incremental s3.qhead s3 := by
    rw [hc3]
    exact h2.congr hc3 hk3 (by subst hs3; exact { h2.heap with }) (by subst hs3; exact h2.seen)
  obtain ⟨s4, e4, h4, g4⟩ := record_ok C h3 (by rw [hc3]; exact hc2.qh) (x := x) (ls := ls)
    (by
      rw [hc3]
      intro hx
      have := (hc2.sub x hx).2
      have := hl.cur
      have := hl.lt
      omega)
    (by rw [hc3]; exact fun hx => h1.inv.not_both hl.mem (hc2.sub _ hx).1)
    (by rw [hc3, hc2.nvars]; exact h1.inv.rng x hl.mem)
    (by
      intro l hm
      obtain ⟨a, b, c⟩ := hl.low l hm
      rw [hc3, hlv]
      exact ⟨hc2.mem _ a (by rw [Inv.lv_neg]; exact c), b⟩)
    (by
      intro l r e
      rw [hc3, hlv, hll]; exact hl.hd l r e)
    (by
      intro e
      rw [hc3]
      apply List.length_eq_zero_iff.1
      rw [hll]; exact hl.nil e) hl.nod hl.ent
  rw [hs3] at e4
  exact ⟨s4, e4, h4, (((g1.trans g2).trans (.of_eq hk3 hc3))).trans g4⟩

end
end Verif.Sat
