import Verif.Sat.Sem
/-
The invariant of the solver's core, and its elementary steps: enqueueing a literal and rewiring a watched clause.
-/
namespace Verif.Sat
namespace Core

/-- The first `q` literals that were put on the trail. -/
def done (s : Core) (q : Nat) : List Nat := s.trail.drop (s.trail.length - q)

/-- A clause that the solver can still use. -/
def Live (s : Core) (id : Nat) : Prop :=
  id ∈ s.clauses ∨ id ∈ s.learnts ∨ (∃ l w, w ∈ s.watches l ∧ w.1 = id) ∨ (∃ x ∈ s.trail, s.reason (vr x) = some id)

/-- The blocking literal is a true literal of the watched clause, from a level not above that of the watching literal. -/
def ValidW (s : Core) (l : Nat) (w : Nat × Nat) : Prop := ∃ t ∈ s.data w.1, t ∈ s.trail ∧ s.lv t ≤ s.lv l ∧ w.2 = t

/-- The clauses that must be kept: the given ones and, in incremental mode, the learnt ones. -/
def db (s : Core) (inc : Bool) : List Nat := s.clauses ++ (if inc then s.learnts else [])

end Core

/-- Of the two watchers of a clause, one has the other watched literal as blocking literal. -/
def Mutual (d : Nat → List Nat) (w : Nat → List (Nat × Nat)) : Prop :=
  ∀ id c0 c1 r b0 b1, d id = c0 :: c1 :: r → (id, b0) ∈ w (neg c0) → (id, b1) ∈ w (neg c1) → b0 = c1 ∨ b1 = c0

/-- A clause in use: at least two different literals of known variables, implied by `Φ`. -/
structure Good (Φ : List (List Nat)) (n : Nat) (d : List Nat) : Prop where
  two : 2 ≤ d.length
  nodup : d.Nodup
  rng : ∀ l ∈ d, l < 2 * n
  ent : Ent Φ d

theorem Good.perm {Φ n d d'} (h : Good Φ n d) (hp : d'.Perm d) : Good Φ n d' where
  two := by rw [hp.length_eq]; exact h.two
  nodup := hp.nodup_iff.2 h.nodup
  rng l hl := h.rng l (hp.mem_iff.1 hl)
  ent := h.ent.perm fun l hl => hp.mem_iff.2 hl

/-- The invariant.  `Φ` is the list of all clauses added, `inc` the incremental mode, `U` the unit clauses known,
`q` the number of trail literals whose watch lists have been gone through. -/
structure Inv (Φ : List (List Nat)) (inc : Bool) (U : List Nat) (q : Nat) (s : Core) : Prop where
  twf : TWf s.level s.trail s.lim
  val : ∀ l, s.value l = some true ↔ l ∈ s.trail
  nodup : s.trail.Nodup
  rng : ∀ l ∈ s.trail, l < 2 * s.nvars
  rsn : ∀ t1 x t2 id, s.trail = t1 ++ x :: t2 → s.reason (vr x) = some id → ∃ r, s.data id = x :: r ∧ ∀ y ∈ r, neg y ∈ t2
  dec : ∀ t1 x t2, s.trail = t1 ++ x :: t2 → s.reason (vr x) = none → s.lv x = 0 ∨ t2.length ∈ s.lim
  limq : ∀ n ∈ s.lim, n ≤ q
  qle : q ≤ s.trail.length
  good : ∀ id, s.Live id → Good Φ s.nvars (s.data id) ∧ id < s.next
  w1 : ∀ l w, w ∈ s.watches l → ∃ c0 c1 r, s.data w.1 = c0 :: c1 :: r ∧ (neg l = c0 ∨ neg l = c1)
  w2 : ∀ l, ((s.watches l).map Prod.fst).Nodup
  blk : ∀ l w, w ∈ s.watches l → w.2 ∈ s.data w.1 ∨ (inc = false ∧ neg w.2 ∈ s.trail ∧ s.lv w.2 = 0)
  mutual_ : Mutual s.data s.watches
  valid : ∀ l ∈ s.done q, ∀ w ∈ s.watches l, s.ValidW l w
  cov : ∀ id ∈ s.db inc, (inc = false ∧ ∃ t ∈ s.data id, t ∈ s.trail ∧ s.lv t = 0) ∨
    ∃ c0 c1 r, s.data id = c0 :: c1 :: r ∧ id ∈ (s.watches (neg c0)).map Prod.fst ∧ id ∈ (s.watches (neg c1)).map Prod.fst
  zero : ∀ x ∈ s.trail, s.lv x = 0 → Ent Φ [x]
  incw : inc = true → ∀ l w, w ∈ s.watches l → w.1 ∈ s.clauses ∨ w.1 ∈ s.learnts
  incr : inc = true → ∀ x ∈ s.trail, ∀ id, s.reason (vr x) = some id → id ∈ s.clauses ∨ id ∈ s.learnts
  incu : inc = true → ∀ x ∈ s.trail, s.lv x = 0 → s.reason (vr x) = none → x ∈ U

namespace Inv
variable {Φ : List (List Nat)} {inc : Bool} {U : List Nat} {q : Nat} {s : Core}

theorem value_neg (s : Core) (l : Nat) : s.value (neg l) = (s.value l).map (!·) := by
  unfold Core.value
  rw [vr_neg, sgn_neg]
  cases s.asg (vr l) with
  | none => rfl
  | some b => cases b <;> cases sgn l <;> rfl

theorem val_false (h : Inv Φ inc U q s) (l : Nat) : s.value l = some false ↔ neg l ∈ s.trail := by
  rw [← h.val, value_neg]
  cases s.value l with
  | none => simp
  | some b => cases b <;> simp

theorem not_both (h : Inv Φ inc U q s) {l : Nat} (h1 : l ∈ s.trail) (h2 : neg l ∈ s.trail) : False := by
  rw [← h.val] at h1
  rw [← h.val_false, h1] at h2
  cases h2

theorem val_none (h : Inv Φ inc U q s) (l : Nat) : s.value l = none ↔ l ∉ s.trail ∧ neg l ∉ s.trail := by
  rw [← h.val, ← h.val_false]
  cases s.value l with
  | none => simp
  | some b => cases b <;> simp

/-- Literals of the trail with the same variable are equal. -/
theorem trail_inj (h : Inv Φ inc U q s) {a b : Nat} (ha : a ∈ s.trail) (hb : b ∈ s.trail) (he : vr a = vr b) : a = b := by
  rcases vr_eq he with h1 | h1
  · exact h1
  · rw [h1] at ha; exact (h.not_both hb ha).elim

theorem lv_le (h : Inv Φ inc U q s) {l : Nat} (hl : l ∈ s.trail) : s.lv l ≤ s.lim.length := by
  obtain ⟨k, h1, h2⟩ := h.twf.le l hl
  simp [Core.lv, h1]; exact h2

theorem lv_neg (s : Core) (l : Nat) : s.lv (neg l) = s.lv l := by simp [Core.lv, vr_neg]

theorem length_le (h : Inv Φ inc U q s) : s.trail.length ≤ s.nvars := by
  have h1 : (s.trail.map vr).Nodup := List.Nodup.map_on (fun a ha b hb he => h.trail_inj ha hb he) h.nodup
  have h2 : s.trail.map vr ⊆ List.range s.nvars := by
    intro v hv
    obtain ⟨l, hl, rfl⟩ := List.mem_map.1 hv
    exact List.mem_range.2 (vr_lt.2 (h.rng l hl))
  simpa using (List.subperm_of_subset h1 h2).length_le

theorem mono_q (h : Inv Φ inc U q s) {q' : Nat} (hq : q' ≤ q) (hl : ∀ n ∈ s.lim, n ≤ q') : Inv Φ inc U q' s :=
  { h with
    limq := hl
    qle := Nat.le_trans hq h.qle
    valid := fun l hm => h.valid l (by
      have : s.done q' = (s.done q).drop (q - q') := by
        unfold Core.done
        rw [List.drop_drop]
        congr 1
        have := h.qle
        omega
      rw [this] at hm
      exact List.mem_of_mem_drop hm) }

theorem mono_U (h : Inv Φ inc U q s) {U' : List Nat} (hU : ∀ u ∈ U, u ∈ U') : Inv Φ inc U' q s :=
  { h with incu := fun hi x hx h0 hr => hU x (h.incu hi x hx h0 hr) }

theorem mono_Φ (h : Inv Φ inc U q s) {Ψ : List (List Nat)} (hs : ∀ c ∈ Φ, c ∈ Ψ) : Inv Ψ inc U q s :=
  { h with
    good := fun id hid => ⟨{ (h.good id hid).1 with ent := (h.good id hid).1.ent.mono hs }, (h.good id hid).2⟩
    zero := fun x hx h0 => (h.zero x hx h0).mono hs }

/-- Changing the order of literals in clauses and the watch lists. -/
theorem rewire (h : Inv Φ inc U q s) {d' : Nat → List Nat} {w' : Nat → List (Nat × Nat)}
    (hp : ∀ i, (d' i).Perm (s.data i))
    (hh : ∀ i x r, s.data i = x :: r → x ∈ s.trail → d' i = s.data i)
    (hl : ∀ l w, w ∈ w' l → ∃ l2 w2, w2 ∈ s.watches l2 ∧ w2.1 = w.1)
    (h1 : ∀ l w, w ∈ w' l → ∃ c0 c1 r, d' w.1 = c0 :: c1 :: r ∧ (neg l = c0 ∨ neg l = c1))
    (h2 : ∀ l, ((w' l).map Prod.fst).Nodup)
    (hb : ∀ l w, w ∈ w' l → w.2 ∈ s.data w.1 ∨ ∃ l2, w ∈ s.watches l2)
    (hv : ∀ l ∈ s.done q, ∀ w ∈ w' l, w ∈ s.watches l) (hmu : Mutual d' w')
    (hc : ∀ id c0 c1 r, s.data id = c0 :: c1 :: r → id ∈ (s.watches (neg c0)).map Prod.fst → id ∈ (s.watches (neg c1)).map Prod.fst →
      ∃ c0 c1 r, d' id = c0 :: c1 :: r ∧ id ∈ (w' (neg c0)).map Prod.fst ∧ id ∈ (w' (neg c1)).map Prod.fst) :
    Inv Φ inc U q { s with data := d', watches := w' } where
  twf := h.twf
  val := h.val
  nodup := h.nodup
  rng := h.rng
  rsn t1 x t2 id ht hr := by
    obtain ⟨r, e, hy⟩ := h.rsn t1 x t2 id ht hr
    refine ⟨r, ?_, hy⟩
    have : x ∈ s.trail := by rw [show s.trail = t1 ++ x :: t2 from ht]; simp
    exact (hh id x r e this).trans e
  dec := h.dec
  limq := h.limq
  qle := h.qle
  good id hid := by
    have : s.Live id := by
      rcases hid with h' | h' | ⟨l, w, hw, rfl⟩ | h'
      · exact .inl h'
      · exact .inr (.inl h')
      · exact .inr (.inr (.inl (hl l w hw)))
      · exact .inr (.inr (.inr h'))
    obtain ⟨g, n⟩ := h.good id this
    exact ⟨g.perm (hp id), n⟩
  w1 := h1
  w2 := h2
  blk l w hw := by
    rcases hb l w hw with h' | ⟨l2, h'⟩
    · exact .inl ((hp w.1).mem_iff.2 h')
    · rcases h.blk l2 w h' with h' | h'
      · exact .inl ((hp w.1).mem_iff.2 h')
      · exact .inr h'
  mutual_ := hmu
  valid l hld w hw := by
    obtain ⟨t, ht, htt⟩ := h.valid l hld w (hv l hld w hw)
    exact ⟨t, (hp _).mem_iff.2 ht, htt⟩
  cov id hid := by
    rcases h.cov id hid with ⟨hi, t, ht, htt⟩ | ⟨c0, c1, r, e, m0, m1⟩
    · exact .inl ⟨hi, t, (hp _).mem_iff.2 ht, htt⟩
    · exact .inr (hc id c0 c1 r e m0 m1)
  zero := h.zero
  incw hi l w hw := by
    obtain ⟨l2, w2, h', e⟩ := hl l w hw
    exact e ▸ h.incw hi l2 w2 h'
  incr := h.incr
  incu := h.incu

/-- Exchanging the two watched literals; the first is not true. -/
theorem swap (h : Inv Φ inc U q s) {id c0 c1 : Nat} {r : List Nat} (e : s.data id = c0 :: c1 :: r) (hf : c0 ∉ s.trail) :
    Inv Φ inc U q { s with data := upd s.data id (c1 :: c0 :: r) } := by
  have hp : ∀ i, (upd s.data id (c1 :: c0 :: r) i).Perm (s.data i) := by
    intro i
    unfold upd
    split
    · next hi => subst hi; rw [e]; exact .swap _ _ _
    · exact .refl _
  refine h.rewire (w' := s.watches) hp ?_ (fun l w hw => ⟨l, w, hw, rfl⟩) ?_ h.w2 (fun l w hw => .inr ⟨l, hw⟩) (fun l _ w hw => hw) ?_ ?_
  · intro i x r' e' hx
    unfold upd
    split
    · next hi => subst hi; rw [e] at e'; cases e'; exact absurd hx hf
    · rfl
  · intro l w hw
    obtain ⟨a, b, r', e', ho⟩ := h.w1 l w hw
    unfold upd
    split
    · next hi => rw [hi, e] at e'; cases e'; exact ⟨_, _, _, rfl, ho.symm⟩
    · exact ⟨a, b, r', e', ho⟩
  · intro i a b r' b0 b1 e' m0 m1
    unfold upd at e'
    split at e'
    · next hi => subst hi; cases e'; exact (h.mutual_ _ _ _ _ _ _ e m1 m0).symm
    · exact h.mutual_ _ _ _ _ _ _ e' m0 m1
  · intro i a b r' e' m0 m1
    unfold upd
    split
    · next hi => subst hi; rw [e] at e'; cases e'; exact ⟨_, _, _, rfl, m1, m0⟩
    · exact ⟨a, b, r', e', m0, m1⟩

theorem map_fst_set {L : List (Nat × Nat)} {j id b b' : Nat} (hj : L[j]? = some (id, b)) : (L.set j (id, b')).map Prod.fst = L.map Prod.fst := by
  rw [List.map_set]
  apply List.ext_getElem?
  intro i
  rw [List.getElem?_set]
  split
  · next hij =>
    subst hij
    obtain ⟨hl, he⟩ := List.getElem?_eq_some_iff.1 hj
    simp [hl, he]
  · rfl

theorem fst_inj {L : List (Nat × Nat)} (hn : (L.map Prod.fst).Nodup) {i a b : Nat} (ha : (i, a) ∈ L) (hb : (i, b) ∈ L) : a = b := by
  have := List.inj_on_of_nodup_map hn ha hb rfl
  cases this
  rfl

/-- The first literal becomes the blocking literal of the watcher of the second. -/
theorem setBlocker (h : Inv Φ inc U q s) {p j id b c : Nat} {r : List Nat} (hj : (s.watches p)[j]? = some (id, b))
    (ed : s.data id = c :: neg p :: r) (hpd : p ∉ s.done q) :
    Inv Φ inc U q { s with watches := upd s.watches p ((s.watches p).set j (id, c)) } := by
  have key : ∀ l w, w ∈ upd s.watches p ((s.watches p).set j (id, c)) l → w ∈ s.watches l ∨ (l = p ∧ w = (id, c)) := by
    intro l w
    unfold upd
    split
    · next hl =>
      subst hl
      intro hw
      rcases List.mem_or_eq_of_mem_set hw with h' | h'
      · exact .inl h'
      · exact .inr ⟨rfl, h'⟩
    · exact .inl
  have hfst : ∀ l, (upd s.watches p ((s.watches p).set j (id, c)) l).map Prod.fst = (s.watches l).map Prod.fst := by
    intro l
    unfold upd
    split
    · next hl => subst hl; exact map_fst_set hj
    · rfl
  have hm := List.mem_of_getElem? hj
  have hc : c ∈ s.data id := by rw [ed]; simp
  have hjl := (List.getElem?_eq_some_iff.1 hj).1
  refine h.rewire (d' := s.data) (fun i => .refl _) (fun _ _ _ _ _ => rfl) ?_ ?_ ?_ ?_ ?_ ?_ ?_
  · intro l w hw
    rcases key l w hw with h' | ⟨rfl, rfl⟩
    · exact ⟨l, w, h', rfl⟩
    · exact ⟨l, (id, b), hm, rfl⟩
  · intro l w hw
    rcases key l w hw with h' | ⟨rfl, rfl⟩
    · exact h.w1 l w h'
    · exact h.w1 l (id, b) hm
  · intro l; rw [hfst]; exact h.w2 l
  · intro l w hw
    rcases key l w hw with h' | ⟨rfl, rfl⟩
    · exact .inr ⟨l, h'⟩
    · exact .inl hc
  · intro l hl w hw
    rcases key l w hw with h' | ⟨rfl, rfl⟩
    · exact h'
    · exact absurd hl hpd
  · intro i a b' r' b0 b1 e m0 m1
    by_cases hi : i = id
    · subst hi
      rw [ed] at e; cases e
      right
      have hs : (i, c) ∈ upd s.watches p ((s.watches p).set j (i, c)) p := by rw [upd_self]; exact List.mem_set hjl ..
      rw [neg_neg] at m1
      exact fst_inj (by rw [hfst]; exact h.w2 p) m1 hs
    · refine h.mutual_ _ _ _ _ _ _ e ?_ ?_
      · rcases key _ _ m0 with h' | ⟨_, h'⟩
        · exact h'
        · cases h'; exact absurd rfl hi
      · rcases key _ _ m1 with h' | ⟨_, h'⟩
        · exact h'
        · cases h'; exact absurd rfl hi
  · intro i a b r e m0 m1
    refine ⟨a, b, r, e, ?_, ?_⟩ <;> rw [hfst] <;> assumption

theorem mem_eraseIdx' {L : List (Nat × Nat)} {j id b : Nat} (hj : L[j]? = some (id, b)) (hn : (L.map Prod.fst).Nodup) (w : Nat × Nat) :
    w ∈ L.eraseIdx j ↔ w ∈ L ∧ w.1 ≠ id := by
  induction L generalizing j with
  | nil => simp at hj
  | cons x L ih =>
    simp only [List.map_cons, List.nodup_cons] at hn
    cases j with
    | zero =>
      simp only [List.getElem?_cons_zero, Option.some.injEq] at hj
      subst hj
      simp only [List.eraseIdx_zero, List.tail_cons, List.mem_cons]
      constructor
      · intro hw
        exact ⟨.inr hw, fun e => hn.1 (e ▸ List.mem_map.2 ⟨w, hw, rfl⟩)⟩
      · rintro ⟨rfl | hw, hne⟩
        · exact absurd rfl hne
        · exact hw
    | succ j =>
      simp only [List.getElem?_cons_succ] at hj
      simp only [List.eraseIdx_cons_succ, List.mem_cons, ih hj hn.2]
      constructor
      · rintro (rfl | ⟨hw, hne⟩)
        · exact ⟨.inl rfl, fun e => hn.1 (by rw [e]; exact List.mem_map_of_mem (f := Prod.fst) (List.mem_of_getElem? hj))⟩
        · exact ⟨.inr hw, hne⟩
      · rintro ⟨rfl | hw, hne⟩
        · exact .inl rfl
        · exact .inr ⟨hw, hne⟩

/-- The second watch moves from the false literal `neg p` to another literal that is not false. -/
theorem move (h : Inv Φ inc U q s) {p j id b c0 ck k : Nat} {r : List Nat} (hpt : p ∈ s.trail) (e : s.data id = c0 :: neg p :: r)
    (hj : (s.watches p)[j]? = some (id, b)) (hf : c0 ∉ s.trail) (hk : r[k]? = some ck) (hck : neg ck ∉ s.trail) :
    Inv Φ inc U q (({ s with
      data := upd s.data id (c0 :: ck :: r.set k (neg p))
      watches := upd s.watches p ((s.watches p).eraseIdx j) } : Core).pushW (neg ck) (id, c0)) := by
  have hm := List.mem_of_getElem? hj
  have hgood := (h.good id (.inr (.inr (.inl ⟨p, _, hm, rfl⟩)))).1
  have hnd := hgood.nodup
  rw [e] at hnd
  have hckr : ck ∈ r := List.mem_of_getElem? hk
  simp only [List.nodup_cons, List.mem_cons, not_or] at hnd
  have hc0k : c0 ≠ ck := fun e => hnd.1.2 (e ▸ hckr)
  have hc1k : neg p ≠ ck := fun e => hnd.2.1 (e ▸ hckr)
  have hpk : neg ck ≠ p := fun e => hck (e ▸ hpt)
  have hp : ∀ i, (upd s.data id (c0 :: ck :: r.set k (neg p)) i).Perm (s.data i) := by
    intro i
    unfold upd
    split
    · next hi => subst hi; rw [e]; exact (perm_set hk (neg p)).cons c0
    · exact .refl _
  have key : ∀ l w, w ∈ (upd (upd s.watches p ((s.watches p).eraseIdx j)) (neg ck) ((upd s.watches p ((s.watches p).eraseIdx j)) (neg ck) ++ [(id, c0)])) l →
      (w ∈ s.watches l ∧ (l = p → w.1 ≠ id)) ∨ (l = neg ck ∧ w = (id, c0)) := by
    intro l w
    unfold upd
    split
    · next hl =>
      subst hl
      rw [List.mem_append, List.mem_singleton]
      rintro (hw | hw)
      · exact .inl ⟨hw, fun e => absurd e hpk⟩
      · exact .inr ⟨rfl, hw⟩
    · split
      · next hl =>
        subst hl
        rw [mem_eraseIdx' hj (h.w2 l)]
        exact fun hw => .inl ⟨hw.1, fun _ => hw.2⟩
      · next hl => exact fun hw => .inl ⟨hw, fun e => absurd e hl⟩
  have hmem : ∀ l i, i ∈ (s.watches l).map Prod.fst → (i ≠ id ∨ l ≠ p) →
      i ∈ ((upd (upd s.watches p ((s.watches p).eraseIdx j)) (neg ck) ((upd s.watches p ((s.watches p).eraseIdx j)) (neg ck) ++ [(id, c0)])) l).map Prod.fst := by
    intro l i hi ho
    unfold upd
    split
    · next hl =>
      subst hl
      rw [List.map_append, List.mem_append]
      exact .inl hi
    · split
      · next hl =>
        subst hl
        have ho : i ≠ id := by rcases ho with h | h; exact h; exact absurd rfl h
        obtain ⟨w, hw, rfl⟩ := List.mem_map.1 hi
        exact List.mem_map_of_mem ((mem_eraseIdx' hj (h.w2 l) w).2 ⟨hw, ho⟩)
      · exact hi
  refine h.rewire (d' := upd s.data id (c0 :: ck :: r.set k (neg p)))
    (w' := upd (upd s.watches p ((s.watches p).eraseIdx j)) (neg ck) ((upd s.watches p ((s.watches p).eraseIdx j)) (neg ck) ++ [(id, c0)]))
    hp ?_ ?_ ?_ ?_ ?_ ?_ ?_ ?_
  · intro i x r' e' hx
    unfold upd
    split
    · next hi => subst hi; rw [e] at e'; cases e'; exact absurd hx hf
    · rfl
  · intro l w hw
    rcases key l w hw with h' | ⟨_, rfl⟩
    · exact ⟨l, w, h'.1, rfl⟩
    · exact ⟨p, (id, b), hm, rfl⟩
  · intro l w hw
    rcases key l w hw with ⟨h', hlp⟩ | ⟨rfl, rfl⟩
    · obtain ⟨a, b', r', e', ho⟩ := h.w1 l w h'
      unfold upd
      split
      · next hi =>
        rw [hi, e] at e'; cases e'
        refine ⟨_, _, _, rfl, ?_⟩
        rcases ho with ho | ho
        · exact .inl ho
        · exact absurd hi (hlp (neg_inj.1 ho))
      · exact ⟨a, b', r', e', ho⟩
    · exact ⟨c0, ck, _, upd_self .., .inr (neg_neg ck)⟩
  · intro l
    by_cases hl : l = neg ck
    · subst hl
      rw [upd_self, upd_ne _ _ hpk, List.map_append, List.map_cons, List.map_nil]
      rw [List.nodup_append]
      refine ⟨h.w2 _, by simp, ?_⟩
      intro i hi b' hb' hib
      simp at hb'
      subst hb'; subst hib
      obtain ⟨w, hw, rfl⟩ := List.mem_map.1 hi
      obtain ⟨a, b', r', e', ho⟩ := h.w1 _ w hw
      rw [e] at e'; cases e'
      rw [neg_neg] at ho
      rcases ho with ho | ho
      · exact hc0k ho.symm
      · exact hc1k ho.symm
    · rw [upd_ne _ _ hl]
      unfold upd
      split
      · next hlp =>
        subst hlp
        exact (h.w2 l).sublist ((List.eraseIdx_sublist ..).map _)
      · exact h.w2 l
  · intro l w hw
    rcases key l w hw with h' | ⟨_, rfl⟩
    · exact .inr ⟨l, h'.1⟩
    · exact .inl (by rw [e]; simp)
  · intro l hl w hw
    rcases key l w hw with h' | ⟨rfl, rfl⟩
    · exact h'.1
    · exact absurd (List.mem_of_mem_drop hl) hck
  · intro i a b' r' b0 b1 e' m0 m1
    by_cases hi : i = id
    · subst hi
      rw [upd_self] at e'; cases e'
      right
      rcases key _ _ m1 with h' | ⟨_, h'⟩
      · obtain ⟨a', b', r', e', ho⟩ := h.w1 _ _ h'.1
        rw [e] at e'; cases e'
        rw [neg_neg] at ho
        rcases ho with ho | ho
        · exact absurd ho.symm hc0k
        · exact absurd ho.symm hc1k
      · cases h'; rfl
    · rw [upd_ne _ _ hi] at e'
      refine h.mutual_ _ _ _ _ _ _ e' ?_ ?_
      · rcases key _ _ m0 with h' | ⟨_, h'⟩
        · exact h'.1
        · cases h'; exact absurd rfl hi
      · rcases key _ _ m1 with h' | ⟨_, h'⟩
        · exact h'.1
        · cases h'; exact absurd rfl hi
  · intro i a b' r' e' m0 m1
    by_cases hi : i = id
    · subst hi
      rw [e] at e'; cases e'
      refine ⟨c0, ck, _, upd_self .., hmem _ _ m0 (.inr fun hh => ?_), ?_⟩
      · exact hnd.1.1 (by rw [← hh, neg_neg])
      · rw [upd_self, List.map_append, List.mem_append]
        exact .inr (by simp)
    · refine ⟨a, b', r', by rw [upd_ne _ _ hi]; exact e', hmem _ _ m0 (.inl hi), hmem _ _ m1 (.inl hi)⟩

/-- Levels of the trail literals are not touched by enqueueing an unassigned literal. -/
theorem vr_ne (h : Inv Φ inc U q s) {l y : Nat} (h1 : l ∉ s.trail) (h2 : neg l ∉ s.trail) (hy : y ∈ s.trail) : vr y ≠ vr l := by
  intro e
  rcases vr_eq e with rfl | rfl
  · exact h1 hy
  · exact h2 hy

theorem enqueue_lv (h : Inv Φ inc U q s) {l y : Nat} {r : Option Nat} (h1 : l ∉ s.trail) (h2 : neg l ∉ s.trail) (hy : y ∈ s.trail ∨ neg y ∈ s.trail) :
    (s.enqueue l r).lv y = s.lv y := by
  have : vr y ≠ vr l := by
    rcases hy with hy | hy
    · exact h.vr_ne h1 h2 hy
    · rw [← vr_neg y]; exact h.vr_ne h1 h2 hy
  simp [Core.lv, Core.enqueue, upd_ne _ _ this]

theorem enqueue_lv_self (s : Core) (l : Nat) (r : Option Nat) : (s.enqueue l r).lv l = s.lim.length := by
  simp [Core.lv, Core.enqueue, upd_self]

/-- Putting an unassigned literal on the trail. -/
theorem enqueue (h : Inv Φ inc U q s) {l : Nat} {r : Option Nat} (h1 : l ∉ s.trail) (h2 : neg l ∉ s.trail) (hl : l < 2 * s.nvars)
    (hr : ∀ id, r = some id → s.Live id ∧ (inc = true → id ∈ s.clauses ∨ id ∈ s.learnts) ∧ ∃ d, s.data id = l :: d ∧ ∀ y ∈ d, neg y ∈ s.trail)
    (hn : r = none → (s.lim = [] ∧ (inc = true → l ∈ U)) ∨ (s.trail.length ∈ s.lim ∧ s.lim ≠ []))
    (h0 : s.lim = [] → Ent Φ [l]) : Inv Φ inc U q (s.enqueue l r) := by
  have hvr : ∀ y ∈ s.trail, vr y ≠ vr l := fun y hy => h.vr_ne h1 h2 hy
  have hval : ∀ y, (s.enqueue l r).value y = some true ↔ y = l ∨ y ∈ s.trail := by
    intro y
    by_cases hy : vr y = vr l
    · have : (s.enqueue l r).value y = some (!sgn l != sgn y) := by simp [Core.value, Core.enqueue, hy, upd_self]
      rw [this]
      rcases vr_eq hy with rfl | rfl
      · simp
      · simp only [sgn_neg, neg_ne, h2, or_self, iff_false]
        cases sgn l <;> simp
    · have : (s.enqueue l r).value y = s.value y := by simp [Core.value, Core.enqueue, upd_ne _ _ hy]
      rw [this, h.val]
      constructor
      · exact .inr
      · rintro (rfl | h')
        · exact absurd rfl hy
        · exact h'
  have hlvt : ∀ y ∈ s.trail, (s.enqueue l r).lv y = s.lv y := fun y hy => h.enqueue_lv h1 h2 (.inl hy)
  have hrt : ∀ y ∈ s.trail, (s.enqueue l r).reason (vr y) = s.reason (vr y) := fun y hy => upd_ne _ _ (hvr y hy)
  have hrl : (s.enqueue l r).reason (vr l) = r := upd_self ..
  exact
  { twf := by
      refine .push l (h.twf.congr fun y hy => ?_) (by simp [Core.enqueue, upd_self])
      exact upd_ne _ _ (hvr y hy)
    val := fun y => by rw [hval]; simp [Core.enqueue]
    nodup := List.nodup_cons.2 ⟨h1, h.nodup⟩
    rng := by
      intro y hy
      rcases List.mem_cons.1 hy with rfl | hy
      · exact hl
      · exact h.rng y hy
    rsn := by
      intro t1 x t2 id ht hid
      cases t1 with
      | nil =>
        obtain ⟨rfl, rfl⟩ : l = x ∧ s.trail = t2 := by simpa [Core.enqueue] using ht
        rw [hrl] at hid
        exact (hr id hid).2.2
      | cons y t1 =>
        obtain ⟨rfl, ht'⟩ : l = y ∧ s.trail = t1 ++ x :: t2 := by simpa [Core.enqueue] using ht
        rw [hrt x (by rw [ht']; simp)] at hid
        exact h.rsn t1 x t2 id ht' hid
    dec := by
      intro t1 x t2 ht hid
      cases t1 with
      | nil =>
        obtain ⟨rfl, rfl⟩ : l = x ∧ s.trail = t2 := by simpa [Core.enqueue] using ht
        rw [hrl] at hid
        rcases hn hid with h' | h'
        · left; rw [enqueue_lv_self, h'.1]; rfl
        · exact .inr h'.1
      | cons y t1 =>
        obtain ⟨rfl, ht'⟩ : l = y ∧ s.trail = t1 ++ x :: t2 := by simpa [Core.enqueue] using ht
        have hx : x ∈ s.trail := by rw [ht']; simp
        rw [hrt x hx] at hid
        rw [hlvt x hx]
        exact h.dec t1 x t2 ht' hid
    limq := h.limq
    qle := Nat.le_succ_of_le h.qle
    good := by
      intro id hid
      refine h.good id ?_
      rcases hid with h' | h' | h' | ⟨x, hx, h'⟩
      · exact .inl h'
      · exact .inr (.inl h')
      · exact .inr (.inr (.inl h'))
      · rcases List.mem_cons.1 hx with rfl | hx
        · rw [hrl] at h'; exact (hr id h').1
        · rw [hrt x hx] at h'; exact .inr (.inr (.inr ⟨x, hx, h'⟩))
    w1 := h.w1
    w2 := h.w2
    blk := by
      intro y w hw
      rcases h.blk y w hw with h' | ⟨hi, h', h''⟩
      · exact .inl h'
      · refine .inr ⟨hi, List.mem_cons_of_mem _ h', ?_⟩
        rw [h.enqueue_lv h1 h2 (.inr h')]; exact h''
    mutual_ := h.mutual_
    valid := by
      intro y hy w hw
      have e : (s.enqueue l r).done q = s.done q := by
        have := h.qle
        unfold Core.done
        have : (s.enqueue l r).trail.length - q = (s.trail.length - q) + 1 := by simp [Core.enqueue]; omega
        rw [this]; rfl
      rw [e] at hy
      obtain ⟨t, ht, htt, hle⟩ := h.valid y hy w hw
      exact ⟨t, ht, List.mem_cons_of_mem _ htt, by rw [hlvt t htt, hlvt y (List.mem_of_mem_drop hy)]; exact hle.1, hle.2⟩
    cov := by
      intro id hid
      rcases h.cov id hid with ⟨hi, t, ht, htt, h'⟩ | h'
      · exact .inl ⟨hi, t, ht, List.mem_cons_of_mem _ htt, by rw [hlvt t htt]; exact h'⟩
      · exact .inr h'
    zero := by
      intro x hx hx0
      rcases List.mem_cons.1 hx with rfl | hx
      · rw [enqueue_lv_self] at hx0
        exact h0 (List.length_eq_zero_iff.1 hx0)
      · rw [hlvt x hx] at hx0; exact h.zero x hx hx0
    incw := h.incw
    incr := by
      intro hi x hx id hid
      rcases List.mem_cons.1 hx with rfl | hx
      · rw [hrl] at hid; exact (hr id hid).2.1 hi
      · rw [hrt x hx] at hid; exact h.incr hi x hx id hid
    incu := by
      intro hi x hx hx0 hid
      rcases List.mem_cons.1 hx with rfl | hx
      · rw [hrl] at hid
        rw [enqueue_lv_self] at hx0
        rcases hn hid with h' | h'
        · exact h'.2 hi
        · exact absurd (List.length_eq_zero_iff.1 hx0) h'.2
      · rw [hrt x hx] at hid
        rw [hlvt x hx] at hx0
        exact h.incu hi x hx hx0 hid }

end Inv
end Verif.Sat
