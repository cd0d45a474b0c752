import Verif.Sat.Inv
/-
Unit propagation keeps the invariant, always finishes, and reports only falsified clauses.
-/
namespace Verif.Sat

/-- What propagation leaves alone: it only reorders clauses, rewires watches and appends to the trail. -/
structure Frame (s s' : Core) : Prop where
  ok : s'.ok = s.ok
  nvars : s'.nvars = s.nvars
  learnt : s'.learnt = s.learnt
  next : s'.next = s.next
  clauses : s'.clauses = s.clauses
  learnts : s'.learnts = s.learnts
  units : s'.units = s.units
  lim : s'.lim = s.lim
  perm : ∀ i, (s'.data i).Perm (s.data i)
  ext : ∃ new, s'.trail = new ++ s.trail
  lev : ∀ l ∈ s.trail, s'.level (vr l) = s.level (vr l)
  rsn : ∀ l ∈ s.trail, s'.reason (vr l) = s.reason (vr l)
  newr : ∀ l ∈ s'.trail, l ∉ s.trail → (s'.reason (vr l)).isSome

namespace Frame
variable {s s' s'' : Core}

theorem refl (s : Core) : Frame s s := ⟨rfl, rfl, rfl, rfl, rfl, rfl, rfl, rfl, fun _ => .refl _, ⟨[], rfl⟩, fun _ _ => rfl, fun _ _ => rfl,
  fun _ h h' => absurd h h'⟩

theorem mem (h : Frame s s') {l : Nat} (hl : l ∈ s.trail) : l ∈ s'.trail := by
  obtain ⟨new, e⟩ := h.ext
  rw [e]; exact List.mem_append_right _ hl

theorem trans (h : Frame s s') (h' : Frame s' s'') : Frame s s'' where
  ok := h'.ok.trans h.ok
  nvars := h'.nvars.trans h.nvars
  learnt := h'.learnt.trans h.learnt
  next := h'.next.trans h.next
  clauses := h'.clauses.trans h.clauses
  learnts := h'.learnts.trans h.learnts
  units := h'.units.trans h.units
  lim := h'.lim.trans h.lim
  perm i := (h'.perm i).trans (h.perm i)
  ext := by
    obtain ⟨n1, e1⟩ := h.ext
    obtain ⟨n2, e2⟩ := h'.ext
    exact ⟨n2 ++ n1, by rw [e2, e1, List.append_assoc]⟩
  lev l hl := (h'.lev l (h.mem hl)).trans (h.lev l hl)
  rsn l hl := (h'.rsn l (h.mem hl)).trans (h.rsn l hl)
  newr l hl hn := by
    by_cases hm : l ∈ s'.trail
    · rw [h'.rsn l hm]; exact h.newr l hm hn
    · exact h'.newr l hl hm

theorem lv (h : Frame s s') {l : Nat} (hl : l ∈ s.trail) : s'.lv l = s.lv l := by simp [Core.lv, h.lev l hl]

theorem validW (h : Frame s s') {l : Nat} {w : Nat × Nat} (hl : l ∈ s.trail) (hv : s.ValidW l w) : s'.ValidW l w := by
  obtain ⟨t, ht, htt, hle⟩ := hv
  exact ⟨t, (h.perm _).mem_iff.2 ht, h.mem htt, by rw [h.lv htt, h.lv hl]; exact hle.1, hle.2⟩

theorem rewire {d : Nat → List Nat} {w : Nat → List (Nat × Nat)} {qh : Nat} (hp : ∀ i, (d i).Perm (s.data i)) :
    Frame s { s with data := d, watches := w, qhead := qh } :=
  ⟨rfl, rfl, rfl, rfl, rfl, rfl, rfl, rfl, hp, ⟨[], rfl⟩, fun _ _ => rfl, fun _ _ => rfl, fun _ h h' => absurd h h'⟩

theorem enqueue {Φ inc U q} (h : Inv Φ inc U q s) {l r : Nat} (h1 : l ∉ s.trail) (h2 : neg l ∉ s.trail) :
    Frame s (s.enqueue l (some r)) where
  ok := rfl
  nvars := rfl
  learnt := rfl
  next := rfl
  clauses := rfl
  learnts := rfl
  units := rfl
  lim := rfl
  perm _ := .refl _
  ext := ⟨[l], rfl⟩
  lev _ hy := upd_ne _ _ (h.vr_ne h1 h2 hy)
  rsn _ hy := upd_ne _ _ (h.vr_ne h1 h2 hy)
  newr y hy hn := by
    rcases List.mem_cons.1 hy with rfl | hy
    · show (upd s.reason (vr y) (some r) (vr y)).isSome = true
      rw [upd_self]; rfl
    · exact absurd hy hn

theorem done (h : Frame s s') {q : Nat} (hq : q ≤ s.trail.length) : s'.done q = s.done q := by
  obtain ⟨new, e⟩ := h.ext
  unfold Core.done
  rw [e, List.length_append, show new.length + s.trail.length - q = new.length + (s.trail.length - q) by omega, List.drop_length_add_append]

end Frame

theorem Inv.qh {Φ inc U q} {s : Core} (h : Inv Φ inc U q s) (n : Nat) : Inv Φ inc U q { s with qhead := n } :=
  ⟨h.twf, h.val, h.nodup, h.rng, h.rsn, h.dec, h.limq, h.qle, h.good, h.w1, h.w2, h.blk, h.mutual_, h.valid, h.cov, h.zero, h.incw, h.incr, h.incu⟩

/-- A falsified clause with a literal of the current level. -/
structure Conflict (s : Core) (id : Nat) : Prop where
  live : ∃ l w, w ∈ s.watches l ∧ w.1 = id
  fls : ∀ l ∈ s.data id, neg l ∈ s.trail
  cur : ∃ l ∈ s.data id, s.lv l = s.lim.length

section
variable {Φ : List (List Nat)} {inc : Bool} {U : List Nat} {q : Nat} {s : Core}
open Core

/-- What one watcher visit achieves. -/
def VisitOk (Φ : List (List Nat)) (inc : Bool) (U : List Nat) (q p j : Nat) (s : Core) : Visit → Prop
  | .next j' s' => Inv Φ inc U q s' ∧ Frame s s' ∧ s'.qhead = s.qhead ∧
      (∀ i < j', ∀ w, (s'.watches p)[i]? = some w → s'.ValidW p w) ∧ j' ≤ (s'.watches p).length ∧
      (s'.watches p).length - j' + 1 = (s.watches p).length - j
  | .confl id s' => Inv Φ inc U q s' ∧ Frame s s' ∧ s'.qhead = s'.trail.length ∧ Conflict s' id

theorem visit_ok (h : Inv Φ inc U q s) {p j id b c0 : Nat} {r : List Nat} (hpt : p ∈ s.trail) (hpl : s.lv p = s.lim.length)
    (hpd : p ∉ s.done q) (hj : (s.watches p)[j]? = some (id, b)) (hb : s.value b ≠ some true) (e : s.data id = c0 :: neg p :: r)
    (hpv : ∀ i < j, ∀ w, (s.watches p)[i]? = some w → s.ValidW p w) : VisitOk Φ inc U q p j s (visit p j id b c0 (neg p) r s) := by
  have hjl : j < (s.watches p).length := (List.getElem?_eq_some_iff.1 hj).1
  have hm := List.mem_of_getElem? hj
  have hgood := (h.good id (.inr (.inr (.inl ⟨p, _, hm, rfl⟩)))).1
  have hs1 : upd s.data id (c0 :: neg p :: r) = s.data := by rw [← e, upd_same]
  have hc0d : c0 ∈ s.data id := by rw [e]; simp
  have hkeep := h.setBlocker hj e hpd
  have fkeep : Frame s { s with watches := upd s.watches p ((s.watches p).set j (id, c0)) } := Frame.rewire (qh := s.qhead) fun _ => .refl _
  have hwk : (upd s.watches p ((s.watches p).set j (id, c0))) p = (s.watches p).set j (id, c0) := upd_self ..
  unfold visit
  simp only [hs1]
  split
  · next hc =>
    refine ⟨hkeep, fkeep, rfl, ?_, ?_, ?_⟩
    · intro i hi w hw
      simp only [hwk, List.getElem?_set] at hw
      split at hw
      · next hij =>
        subst hij
        simp only [hjl, ↓reduceIte, Option.some.injEq] at hw
        subst hw
        have := (h.val c0).1 hc.2
        exact ⟨c0, hc0d, this, by show s.lv c0 ≤ s.lv p; rw [hpl]; exact h.lv_le this, rfl⟩
      · exact fkeep.validW hpt (hpv i (by omega) w hw)
    · simp only [hwk, List.length_set]; omega
    · simp only [hwk, List.length_set]; omega
  · next hc =>
    have hf : c0 ∉ s.trail := by
      intro hc0
      have hc0 := (h.val c0).2 hc0
      exact hc ⟨fun e => hb (e ▸ hc0), hc0⟩
    split
    · next k hk =>
      obtain ⟨hkl, hkv, -⟩ := List.findIdx?_eq_some_iff_getElem.1 hk
      have hk' : r[k]? = some r[k] := List.getElem?_eq_getElem hkl
      have hgd : r.getD k 0 = r[k] := by simp [List.getD, hk']
      rw [hgd]
      generalize r[k] = ck at *
      have hck : neg ck ∉ s.trail := by
        rw [← h.val_false]
        simpa using hkv
      have hpk : p ≠ neg ck := fun e => hck (e ▸ hpt)
      have hw : ((({ s with
          data := upd s.data id (c0 :: ck :: r.set k (neg p))
          watches := upd s.watches p ((s.watches p).eraseIdx j) } : Core).pushW (neg ck) (id, c0)).watches p) = (s.watches p).eraseIdx j := by
        simp [pushW, upd_ne _ _ hpk, upd_self]
      have hfr : Frame s (({ s with
          data := upd s.data id (c0 :: ck :: r.set k (neg p))
          watches := upd s.watches p ((s.watches p).eraseIdx j) } : Core).pushW (neg ck) (id, c0)) := by
        refine Frame.rewire (qh := s.qhead) (d := upd s.data id (c0 :: ck :: r.set k (neg p))) ?_
        intro i
        unfold upd
        split
        · next hi => subst hi; rw [e]; exact (perm_set hk' (neg p)).cons c0
        · exact .refl _
      refine ⟨h.move hpt e hj hf hk' hck, hfr, rfl, ?_, ?_, ?_⟩
      · intro i hi w hiw
        rw [hw, List.getElem?_eraseIdx_of_lt hi] at hiw
        exact hfr.validW hpt (hpv i hi w hiw)
      · rw [hw, List.length_eraseIdx_of_lt hjl]; omega
      · rw [hw, List.length_eraseIdx_of_lt hjl]; omega
    · next hk =>
      have hrf : ∀ y ∈ r, neg y ∈ s.trail := by
        intro y hy
        have := List.findIdx?_eq_none_iff.1 hk y hy
        rw [← h.val_false]
        simpa using this
      split
      · next hc0 =>
        refine ⟨hkeep.qh _, Frame.rewire fun _ => .refl _, rfl, ?_⟩
        refine ⟨⟨p, (id, c0), ?_, rfl⟩, ?_, ?_⟩
        · show (id, c0) ∈ upd s.watches p ((s.watches p).set j (id, c0)) p
          rw [hwk]; exact List.mem_set hjl ..
        · intro l hl
          show neg l ∈ s.trail
          have hl : l ∈ s.data id := hl
          rw [e] at hl
          rcases List.mem_cons.1 hl with rfl | hl
          · exact (h.val_false _).1 hc0
          · rcases List.mem_cons.1 hl with rfl | hl
            · rw [neg_neg]; exact hpt
            · exact hrf l hl
        · exact ⟨neg p, by show neg p ∈ s.data id; rw [e]; simp, by show s.lv (neg p) = _; rw [Inv.lv_neg]; exact hpl⟩
      · next hc0 =>
        have hc0' : neg c0 ∉ s.trail := fun hh => hc0 ((h.val_false _).2 hh)
        have hall : ∀ y ∈ neg p :: r, neg y ∈ s.trail := by
          intro y hy
          rcases List.mem_cons.1 hy with rfl | hy
          · rw [neg_neg]; exact hpt
          · exact hrf y hy
        have fr := fkeep.trans (Frame.enqueue hkeep (l := c0) (r := id) hf hc0')
        refine ⟨hkeep.enqueue hf hc0' (hgood.rng c0 hc0d) ?_ (fun hh => (nomatch hh)) ?_, fr, rfl, ?_, ?_, ?_⟩
        · rintro id' hid
          cases hid
          have hin : (id, c0) ∈ upd s.watches p ((s.watches p).set j (id, c0)) p := by rw [hwk]; exact List.mem_set hjl ..
          exact ⟨.inr (.inr (.inl ⟨p, (id, c0), hin, rfl⟩)), fun hi => h.incw hi p _ hm, neg p :: r, e, hall⟩
        · intro hl ρ hρ
          obtain ⟨l, hl', ht⟩ := hgood.ent ρ hρ
          rw [e] at hl'
          rcases List.mem_cons.1 hl' with rfl | hl'
          · exact clT_single.2 ht
          · have h1 := hall l hl'
            have h2 : s.lv (neg l) = 0 := by
              have := h.lv_le h1
              rw [show s.lim = [] from hl] at this
              simpa using this
            exact absurd ht (litT_neg.1 ((h.zero _ h1 h2).lit hρ))
        · intro i hi w hw
          have hw' : (upd s.watches p ((s.watches p).set j (id, c0)) p)[i]? = some w := hw
          rw [hwk, List.getElem?_set] at hw'
          split at hw'
          · next hij =>
            subst hij
            simp only [hjl, ↓reduceIte, Option.some.injEq] at hw'
            subst hw'
            refine ⟨c0, hc0d, List.mem_cons_self .., ?_, rfl⟩
            rw [Inv.enqueue_lv_self, fr.lv hpt, hpl]
            exact Nat.le_refl _
          · exact fr.validW hpt (hpv i (by omega) w hw')
        · show j + 1 ≤ (upd s.watches p ((s.watches p).set j (id, c0)) p).length
          rw [hwk, List.length_set]; omega
        · show (upd s.watches p ((s.watches p).set j (id, c0)) p).length - (j + 1) + 1 = _
          rw [hwk, List.length_set]; omega

theorem visit_eq (p j id b c0 c1 : Nat) (r : List Nat) (s : Core) :
    visit p j id b c0 c1 r s = visit p j id b c0 c1 r { s with data := upd s.data id (c0 :: c1 :: r) } := by
  unfold visit
  simp only [upd_upd]
  rfl

/-- Result of going through one watch list. -/
structure ScanOk (Φ : List (List Nat)) (inc : Bool) (U : List Nat) (q p : Nat) (s : Core) (x : Core × Option Nat) : Prop where
  inv : Inv Φ inc U q x.1
  frame : Frame s x.1
  valid : x.2 = none → x.1.qhead = s.qhead ∧ ∀ w ∈ x.1.watches p, x.1.ValidW p w
  confl : ∀ id, x.2 = some id → x.1.qhead = x.1.trail.length ∧ Conflict x.1 id

theorem scan_ok {p : Nat} (fuel : Nat) : ∀ {j : Nat} {s : Core}, Inv Φ inc U q s → p ∈ s.trail → s.lv p = s.lim.length → p ∉ s.done q →
    (∀ i < j, ∀ w, (s.watches p)[i]? = some w → s.ValidW p w) → j ≤ (s.watches p).length → (s.watches p).length - j < fuel →
    ∃ x, scan p fuel j s = some x ∧ ScanOk Φ inc U q p s x := by
  induction fuel with
  | zero => intro j s _ _ _ _ _ _ hf; omega
  | succ fuel ih =>
    intro j s h hpt hpl hpd hpv hjl hf
    unfold scan
    split
    · next hj =>
      refine ⟨_, rfl, h, .refl _, fun _ => ⟨rfl, ?_⟩, fun id hid => (nomatch hid)⟩
      intro w hw
      have hw : w ∈ s.watches p := hw
      obtain ⟨i, hi⟩ := List.mem_iff_getElem?.1 hw
      refine hpv i ?_ w hi
      have := (List.getElem?_eq_some_iff.1 hi).1
      have := List.getElem?_eq_none_iff.1 hj
      omega
    · next id b hj =>
      have hjl : j < (s.watches p).length := (List.getElem?_eq_some_iff.1 hj).1
      have hm := List.mem_of_getElem? hj
      split
      · next hb =>
        refine ih h hpt hpl hpd ?_ (by omega) (by omega)
        intro i hi w hw
        by_cases hij : i = j
        · subst hij
          rw [hj] at hw
          cases hw
          have hbt := (h.val b).1 hb
          rcases h.blk p _ hm with h' | ⟨-, h', -⟩
          · exact ⟨b, h', hbt, by rw [hpl]; exact h.lv_le hbt, rfl⟩
          · exact (h.not_both hbt h').elim
        · exact hpv i (by omega) w hw
      · next hb =>
        obtain ⟨c0, c1, r, e, ho⟩ := h.w1 p _ hm
        simp only [e]
        suffices hv : VisitOk Φ inc U q p j s (if c0 = neg p then visit p j id b c1 c0 r s else visit p j id b c0 c1 r s) by
          generalize (if c0 = neg p then visit p j id b c1 c0 r s else visit p j id b c0 c1 r s) = v at hv
          cases v with
          | next j' s' =>
            obtain ⟨hi, hfr, hq, hpv', hjl', hlen⟩ := hv
            obtain ⟨x, ex, hx⟩ := ih hi (hfr.mem hpt) (by rw [hfr.lv hpt, hpl, hfr.lim]) (by rw [hfr.done h.qle]; exact hpd) hpv' hjl' (by omega)
            exact ⟨x, ex, hx.inv, hfr.trans hx.frame, fun hn => ⟨(hx.valid hn).1.trans hq, (hx.valid hn).2⟩, hx.confl⟩
          | confl id s' =>
            obtain ⟨hi, hfr, hq, hcf⟩ := hv
            exact ⟨_, rfl, hi, hfr, fun hn => (nomatch hn), fun id' hid => by cases hid; exact ⟨hq, hcf⟩⟩
        split
        · next hc0 =>
          have hc0f : c0 ∉ s.trail := fun hh => h.not_both hpt (hc0 ▸ hh)
          have h' := h.swap e hc0f
          have hfr : Frame s { s with data := upd s.data id (c1 :: c0 :: r) } := by
            refine Frame.rewire (qh := s.qhead) (d := upd s.data id (c1 :: c0 :: r)) ?_
            intro i
            unfold upd
            split
            · next hi => subst hi; rw [e]; exact .swap _ _ _
            · exact .refl _
          rw [visit_eq]
          have := visit_ok h' (p := p) (j := j) (id := id) (b := b) (c0 := c1) (r := r) hpt hpl hpd hj hb (by simp [upd_self, hc0])
            (fun i hi w hw => hfr.validW hpt (hpv i hi w hw))
          rw [← hc0] at this
          generalize visit p j id b c1 c0 r _ = v at this
          cases v with
          | next j' s' => exact ⟨this.1, hfr.trans this.2.1, this.2.2⟩
          | confl id' s' => exact ⟨this.1, hfr.trans this.2.1, this.2.2⟩
        · next hc0 =>
          have hc1 : neg p = c1 := by
            rcases ho with ho | ho
            · exact absurd ho.symm hc0
            · exact ho
          subst hc1
          exact visit_ok h hpt hpl hpd hj hb e hpv

/-- Result of propagation: the invariant with everything processed, or a falsified clause. -/
structure PropOk (Φ : List (List Nat)) (inc : Bool) (U : List Nat) (s : Core) (x : Core × Option Nat × Nat) : Prop where
  frame : Frame s x.1
  inv : x.2.1 = none → x.1.qhead = x.1.trail.length ∧ Inv Φ inc U x.1.qhead x.1
  confl : ∀ id, x.2.1 = some id → Conflict x.1 id ∧ ∃ q, Inv Φ inc U q x.1

theorem propLoop_ok (fuel : Nat) : ∀ {n : Nat} {s : Core}, Inv Φ inc U s.qhead s → s.nvars - s.qhead < fuel →
    ∃ x, propLoop fuel n s = some x ∧ PropOk Φ inc U s x := by
  induction fuel with
  | zero => intro n s _ hf; omega
  | succ fuel ih =>
    intro n s h hf
    unfold propLoop
    split
    · next hq =>
      simp only
      have hlen := h.length_le
      have hp' : s.trail[s.trail.length - 1 - s.qhead]? = some (s.trail[s.trail.length - 1 - s.qhead]'(by omega)) := List.getElem?_eq_getElem (by omega)
      have hpd : s.trail.getD (s.trail.length - 1 - s.qhead) 0 = s.trail[s.trail.length - 1 - s.qhead]'(by omega) := by simp [List.getD, hp']
      rw [hpd]
      generalize s.trail[s.trail.length - 1 - s.qhead]'(by omega) = p at hp'
      obtain ⟨hpl', hpe⟩ := List.getElem?_eq_some_iff.1 hp'
      have hpt : p ∈ s.trail := List.mem_of_getElem? hp'
      have hsplit : s.trail = s.trail.take (s.trail.length - 1 - s.qhead) ++ p :: s.trail.drop (s.trail.length - 1 - s.qhead + 1) := by
        rw [← hpe, List.getElem_cons_drop, List.take_append_drop]
      have hlv : s.level (vr p) = some s.lim.length := h.twf.current hsplit (fun n hn => by
        have := h.limq n hn
        rw [List.length_drop]; omega)
      have hpl : s.lv p = s.lim.length := by simp [lv, hlv]
      have hpd : p ∉ s.done s.qhead := by
        intro hm
        have e4 : s.done s.qhead = s.trail.drop (s.trail.length - 1 - s.qhead + 1) := by
          unfold done
          congr 1
          omega
        have hn := h.nodup
        rw [hsplit, List.nodup_append] at hn
        exact (List.nodup_cons.1 hn.2.1).1 (e4 ▸ hm)
      have hfr0 : Frame s { s with qhead := s.qhead + 1 } := Frame.rewire fun _ => .refl _
      obtain ⟨x, ex, hx⟩ := scan_ok (p := p) ((s.watches p).length + 1) (j := 0) (h.qh (s.qhead + 1)) hpt hpl hpd (fun i hi => by omega) (Nat.zero_le _)
        (by show (s.watches p).length - 0 < _; omega)
      rw [ex]
      obtain ⟨s', o⟩ := x
      cases o with
      | some id =>
        exact ⟨_, rfl, hfr0.trans hx.frame, fun hn => (nomatch hn), fun id' hid => by cases hid; exact ⟨(hx.confl id rfl).2, _, hx.inv⟩⟩
      | none =>
        obtain ⟨hq', hv⟩ := hx.valid rfl
        have hq' : s'.qhead = s.qhead + 1 := hq'
        obtain ⟨new, hnew⟩ := hx.frame.ext
        have hnew : s'.trail = new ++ s.trail := hnew
        have hinv : Inv Φ inc U s'.qhead s' :=
          { hx.inv with
            limq := fun n hn => by rw [hq']; exact Nat.le_succ_of_le (hx.inv.limq n hn)
            qle := by rw [hq', hnew, List.length_append]; omega
            valid := by
              intro l hl w hw
              have e1 : s'.done s'.qhead = p :: s'.done s.qhead := by
                unfold done
                rw [hq', hnew, List.length_append]
                have e2 : new.length + s.trail.length - (s.qhead + 1) = new.length + (s.trail.length - 1 - s.qhead) := by omega
                have e3 : new.length + s.trail.length - s.qhead = new.length + (s.trail.length - 1 - s.qhead + 1) := by omega
                rw [e2, e3, List.drop_length_add_append, List.drop_length_add_append, List.drop_eq_getElem_cons hpl', hpe]
              rw [e1] at hl
              rcases List.mem_cons.1 hl with rfl | hl
              · exact hv w hw
              · exact hx.inv.valid l hl w hw }
        have hnv : s'.nvars = s.nvars := hx.frame.nvars
        obtain ⟨y, ey, hy⟩ := ih (n := n + 1) hinv (by rw [hnv, hq']; omega)
        exact ⟨y, ey, (hfr0.trans hx.frame).trans hy.frame, hy.inv, hy.confl⟩
    · next hq =>
      refine ⟨_, rfl, .refl _, fun _ => ⟨?_, h⟩, fun id hid => (nomatch hid)⟩
      have := h.qle
      show s.qhead = s.trail.length
      omega

/-- Propagation never gets stuck and keeps the invariant. -/
theorem propagate_ok (h : Inv Φ inc U s.qhead s) : ∃ x, s.propagate = some x ∧ PropOk Φ inc U s x :=
  propLoop_ok (s.nvars + 1) h (by omega)

end
end Verif.Sat
