import Verif.F.FactoryIns

namespace Verif
open Formula (Norm mkNot mkNary mkNeg mkImpl mkEquiv AccOk)

/-- The formula type of a tree. -/
def Formula.fty : Formula → FTy
  | .tru => .tru
  | .fls => .fls
  | .lit l => match l.v with
    | .named _ => .lit l.pos .ff
    | .aux t _ => .lit l.pos (.aux t)
  | .not _ => .not
  | .impl _ _ => .impl
  | .equiv _ _ => .equiv
  | .nary o _ => o.fty
  | .cc _ => .cc
  | .pbc _ => .pbc

theorem den_ty {s : FF} (w : s.Wf) {h : H} {f : Formula} (hd : Den s h f) : h.ty = f.fty := by
  cases f <;> simp only [Den] at hd
  · subst hd; rfl
  · subst hd; rfl
  · rename_i l; subst hd; rcases l with ⟨v, p⟩; cases v <;> rfl
  · obtain ⟨g, hg, _⟩ := hd; exact ((FF.unpack_not_iff w _ _).1 hg).1
  · obtain ⟨g, k, hg, _⟩ := hd; exact ((FF.unpack_impl_iff w _ _ _).1 hg).1
  · obtain ⟨g, k, hg, _⟩ := hd; exact ((FF.unpack_equiv_iff w _ _ _).1 hg).1
  · obtain ⟨g, hg, _⟩ := hd; exact ((FF.unpack_nary_iff w _ _ _).1 hg).1
  · exact ((FF.unpack_cc_iff _ _).1 hd).1
  · exact ((FF.unpack_pbc_iff _ _).1 hd).1

theorem fty_nary {f : Formula} {o : Op} : f.fty = o.fty ↔ ∃ fs, f = .nary o fs := by
  constructor
  · intro h
    cases f with
    | nary o' fs => cases o <;> cases o' <;> simp_all [Formula.fty, Op.fty]
    | lit l => rcases l with ⟨v, p⟩; cases v <;> cases o <;> simp [Formula.fty, Op.fty] at h
    | _ => cases o <;> simp [Formula.fty, Op.fty] at h
  · rintro ⟨fs, rfl⟩; rfl

theorem fty_tru {f : Formula} : f.fty = .tru ↔ f = .tru := by
  cases f with
  | nary o fs => cases o <;> simp [Formula.fty, Op.fty]
  | lit l => rcases l with ⟨v, p⟩; cases v <;> simp [Formula.fty]
  | _ => simp [Formula.fty]

theorem fty_fls {f : Formula} : f.fty = .fls ↔ f = .fls := by
  cases f with
  | nary o fs => cases o <;> simp [Formula.fty, Op.fty]
  | lit l => rcases l with ⟨v, p⟩; cases v <;> simp [Formula.fty]
  | _ => simp [Formula.fty]

/-- What the flag of `filter_flatten` tests for each operand. -/
def Formula.cnfOp (o : Op) (f : Formula) : Bool :=
  match o with
  | .conj => f.isCnfF
  | .disj => f.isLit || f.isConst

theorem isCnfH_eq {s : FF} (w : s.Wf) {h : H} {f : Formula} (hd : Den s h f) : s.isCnfH h = f.isCnfF := by
  have ht := den_ty w hd
  unfold FF.isCnfH
  cases f with
  | nary o fs =>
    have hc := w.cnf h o fs hd
    cases o <;> rw [ht] <;> simp only [Formula.fty, Op.fty] <;> rw [Bool.eq_iff_iff, decide_eq_true_iff] <;> exact hc
  | lit l => rcases l with ⟨v, p⟩; cases v <;> rw [ht] <;> simp [Formula.fty, Formula.isCnfF]
  | _ => rw [ht]; simp [Formula.fty, Formula.isCnfF]

theorem cnfFlag_eq {s : FF} (w : s.Wf) {h : H} {f : Formula} (hd : Den s h f) (o : Op) (b : Bool) :
    s.cnfFlag o h b = (b && f.cnfOp o) := by
  have ht := den_ty w hd
  unfold FF.cnfFlag Formula.cnfOp
  cases b
  · rfl
  cases o
  · simp [isCnfH_eq w hd]
  · cases f with
    | nary o fs => cases o <;> rw [ht] <;> simp [Formula.fty, Op.fty, Formula.isLit, Formula.isConst]
    | lit l => rcases l with ⟨v, p⟩; cases v <;> rw [ht] <;> simp [Formula.fty, Formula.isLit]
    | _ => rw [ht]; simp [Formula.fty, Formula.isLit, Formula.isConst]

/-- Relation between the accumulator of handles and the accumulator of trees. -/
structure AccR (s : FF) (o : Op) (a : FF.Acc) (acc : List Formula) : Prop where
  big : a.r64 = []
  den : Dens s a.r32 acc
  idx : ∀ h ∈ a.r32, h.idx < 2 ^ 26
  flag : a.isCnf = acc.all (Formula.cnfOp o)

theorem AccR.inAcc {s : FF} (w : s.Wf) {o a acc} (r : AccR s o a acc) {h : H} {f : Formula} (hd : Den s h f)
    (hi : h.idx < 2 ^ 26) : FF.inAcc a h = decide (f ∈ acc) := by
  unfold FF.inAcc
  rw [r.big, as32_of_lt hi, Bool.eq_iff_iff]
  simp [w.mem_iff r.den hd]

theorem ofLit_idx (l : Lit) : (H.ofLit l.neg).idx = (H.ofLit l).idx := by
  rcases l with ⟨v, p⟩; cases v <;> rfl

theorem mem_of_getElem? {α} {l : List α} {i : Nat} {a : α} (h : l[i]? = some a) : a ∈ l :=
  List.mem_iff_getElem?.2 ⟨i, h⟩

theorem some_decide_congr {p q : Prop} {i : Decidable p} {j : Decidable q} (h : p ↔ q) : some (decide p) = some (decide q) := by
  congr 1; rw [Bool.eq_iff_iff, decide_eq_true_iff, decide_eq_true_iff]; exact h

/-- The complement check on handles is the complement check on trees. -/
theorem containsComplement_den {s : FF} (w : s.Wf) (sm : SmallFF s) {o a acc} (r : AccR s o a acc) {h : H} {f : Formula}
    (hd : Den s h f) (hi : h.idx < 2 ^ 26) (hc : f.isConst = false) :
    s.containsComplement a h = some (Formula.containsComplement acc f) := by
  rw [Formula.containsComplement_eq]
  have hlook : (match s.lookupNot h with
      | none => some false
      | some n => some (FF.inAcc a n)) = some (decide (Formula.not f ∈ acc)) := by
    unfold FF.lookupNot
    rw [isLarge_of_lt hi, as32_of_lt hi]
    simp only [Bool.false_eq_true, if_false]
    cases hl : s.nots.small.find (fun a b => a == b) h with
    | some n =>
      obtain ⟨i, b, hv, hb, rfl⟩ := (w.nots.find_iff isEqv_beq h n).1 hl
      obtain rfl : b = h := by simpa using hb
      have hdn : Den s ⟨.not, i, false⟩ (.not f) := by
        simp only [Den]
        exact ⟨b, (FF.unpack_not_iff w _ _).2 ⟨rfl, rfl, hv⟩, hd⟩
      simp only
      rw [r.inAcc w hdn (lt_of_getElem? hv sm.nots)]
    | none =>
      simp only [Option.some.injEq]
      symm
      rw [decide_eq_false_iff_not]
      intro hm
      obtain ⟨y, _, hy⟩ := dens_mem' r.den _ hm
      simp only [Den] at hy
      obtain ⟨g, hg, hgd⟩ := hy
      obtain rfl := w.den_inj hgd hd
      obtain ⟨_, _, hv⟩ := (FF.unpack_not_iff w _ _).1 hg
      have := w.nots.find_some isEqv_beq (e := g) hv (by simp)
      rw [this] at hl
      simp at hl
  unfold FF.containsComplement
  cases f with
  | tru => simp [Formula.isConst] at hc
  | fls => simp [Formula.isConst] at hc
  | lit l =>
    simp only [Den] at hd
    subst hd
    rw [unpack_ofLit]
    simp only [mkNot]
    rw [r.inAcc w (f := .lit l.neg) (by simp [Den]) (by rw [ofLit_idx]; exact hi)]
    exact some_decide_congr Iff.rfl
  | not f =>
    simp only [Den] at hd
    obtain ⟨g, hg, hgd⟩ := hd
    rw [hg]
    simp only [mkNot]
    rw [r.inAcc w hgd (w.idxNot _ (mem_of_getElem? ((FF.unpack_not_iff w _ _).1 hg).2.2))]
    exact some_decide_congr Iff.rfl
  | impl a b =>
    obtain ⟨x, y, hu, _⟩ : ∃ x y, s.unpack h = some (.impl x y) ∧ _ := by simpa only [Den] using hd
    rw [hu]; exact hlook.trans (some_decide_congr Iff.rfl)
  | equiv a b =>
    obtain ⟨x, y, hu, _⟩ : ∃ x y, s.unpack h = some (.equiv x y) ∧ _ := by simpa only [Den] using hd
    rw [hu]; exact hlook.trans (some_decide_congr Iff.rfl)
  | nary o fs =>
    obtain ⟨hs, hu, _⟩ : ∃ hs, s.unpack h = some (.nary o hs) ∧ _ := by simpa only [Den] using hd
    rw [hu]; exact hlook.trans (some_decide_congr Iff.rfl)
  | cc c =>
    have hu : s.unpack h = some (.cc c) := by simpa only [Den] using hd
    rw [hu]; exact hlook.trans (some_decide_congr Iff.rfl)
  | pbc c =>
    have hu : s.unpack h = some (.pbc c) := by simpa only [Den] using hd
    rw [hu]; exact hlook.trans (some_decide_congr Iff.rfl)

/-- One operand that is not flattened. -/
theorem flattenLoop_add {s : FF} (w : s.Wf) (sm : SmallFF s) {o a acc} (r : AccR s o a acc) {h : H} {f : Formula}
    (hd : Den s h f) (hi : h.idx < 2 ^ 26) (hn : ∀ fs, f ≠ .nary o fs) (rec) (hs : List H) :
    match Formula.addOp o f acc with
    | none => s.flattenLoop o rec (h :: hs) false a = some none
    | some acc' => ∃ a', AccR s o a' acc' ∧ s.flattenLoop o rec (h :: hs) false a = s.flattenLoop o rec hs false a' := by
  have ht := den_ty w hd
  have hno : h.ty ≠ o.fty := by
    rw [ht]; intro h'; obtain ⟨fs, e⟩ := fty_nary.1 h'; exact hn fs e
  rw [FF.flattenLoop.eq_2 s o rec false a h hs]
  unfold Formula.addOp
  rw [if_neg hno, cnfFlag_eq w hd]
  by_cases h1 : f = .tru
  · subst h1
    have ht' : h.ty = .tru := by rw [ht]; rfl
    simp only [ht', if_true]
    cases o
    · simp only [reduceCtorEq, if_false]
      exact ⟨{ a with isCnf := a.isCnf && Formula.cnfOp _ _ }, ⟨r.big, r.den, r.idx, by simp [r.flag, Formula.cnfOp, Formula.isCnfF]⟩, rfl⟩
    · simp
  by_cases h2 : f = .fls
  · subst h2
    have ht' : h.ty = .fls := by rw [ht]; rfl
    simp only [ht', if_true, reduceCtorEq, if_false]
    cases o
    · simp
    · simp only [reduceCtorEq, if_false]
      exact ⟨{ a with isCnf := a.isCnf && Formula.cnfOp _ _ }, ⟨r.big, r.den, r.idx, by simp [r.flag, Formula.cnfOp, Formula.isConst]⟩, rfl⟩
  have hc := Formula.isConst_of_ne h1 h2
  have ht1 : h.ty ≠ .tru := by rw [ht, Ne, fty_tru]; exact h1
  have ht2 : h.ty ≠ .fls := by rw [ht, Ne, fty_fls]; exact h2
  simp only [h1, h2, ht1, ht2, if_false]
  have hcc : s.containsComplement { a with isCnf := a.isCnf && f.cnfOp o } h = some (Formula.containsComplement acc f) := by
    rw [← containsComplement_den w sm r hd hi hc]; rfl
  rw [hcc]
  cases hb : Formula.containsComplement acc f with
  | true => simp
  | false =>
    simp only [Bool.false_eq_true, if_false, isLarge_of_lt hi, Bool.or_false, as32_of_lt hi]
    by_cases hm : f ∈ acc
    · rw [if_pos hm, if_neg (by rw [not_not]; exact (w.mem_iff r.den hd).2 hm)]
      refine ⟨{ a with isCnf := a.isCnf && f.cnfOp o }, ⟨r.big, r.den, r.idx, ?_⟩, rfl⟩
      simp only [r.flag]
      rw [Bool.eq_iff_iff]
      simp only [Bool.and_eq_true, List.all_eq_true]
      exact ⟨fun h => h.1, fun h => ⟨h, h f hm⟩⟩
    · rw [if_neg hm, if_pos (fun h' => hm ((w.mem_iff r.den hd).1 h'))]
      refine ⟨{ a with isCnf := a.isCnf && f.cnfOp o, r32 := a.r32 ++ [h] }, ⟨r.big, dens_append r.den (by simp [Dens, hd]), ?_, ?_⟩, rfl⟩
      · intro x hx
        simp only [List.mem_append, List.mem_singleton] at hx
        rcases hx with hx | rfl
        · exact r.idx x hx
        · exact hi
      · simp [r.flag]

/-- Agreement of the results of `filter_flatten` on handles and on trees. -/
def FlatR (s : FF) (o : Op) : Option (Option FF.Acc) → Option (List Formula) → Prop
  | some none, none => True
  | some (some a), some acc => AccR s o a acc
  | _, _ => False

theorem flattenLoop_flat {s : FF} (w : s.Wf) (sm : SmallFF s) {o} (rec) : ∀ {hs : List H} {fs : List Formula},
    Dens s hs fs → (∀ h ∈ hs, h.idx < 2 ^ 26) → (∀ f ∈ fs, ∀ gs, f ≠ .nary o gs) → ∀ {a acc}, AccR s o a acc →
    FlatR s o (s.flattenLoop o rec hs false a) (Formula.flats o fs acc) := by
  intro hs
  induction hs with
  | nil =>
    intro fs hd _ _ a acc r
    cases fs with
    | nil => simpa [FF.flattenLoop, Formula.flats, FlatR] using r
    | cons f fs => simp [Dens] at hd
  | cons h hs ih =>
    intro fs hd hi hn a acc r
    cases fs with
    | nil => simp [Dens] at hd
    | cons f fs =>
      simp only [Dens] at hd
      have hstep := flattenLoop_add w sm r hd.1 (hi h (by simp)) (hn f (by simp)) rec hs
      simp only [Formula.flats]
      rcases Formula.flat1_cases o f acc with ⟨gs, rfl, _⟩ | ⟨_, e⟩
      · exact absurd rfl (hn _ (by simp) gs)
      · rw [e]
        cases e2 : Formula.addOp o f acc with
        | none => rw [e2] at hstep; simp only at hstep ⊢; rw [hstep]; trivial
        | some acc' =>
          rw [e2] at hstep
          obtain ⟨a', r', h'⟩ := hstep
          rw [h']
          exact ih hd.2 (fun x hx => hi x (by simp [hx])) (fun x hx => hn x (by simp [hx])) r'

theorem operands_den {s : FF} (w : s.Wf) {h : H} {o fs} (hd : Den s h (.nary o fs)) :
    ∃ hs, s.operands h = some hs ∧ Dens s hs fs ∧ ∀ x ∈ hs, x.idx < 2 ^ 26 := by
  simp only [Den] at hd
  obtain ⟨hs, hu, hd⟩ := hd
  refine ⟨hs, by simp [FF.operands, hu], hd, ?_⟩
  exact w.idxN o hs (mem_of_getElem? ((FF.unpack_nary_iff w _ _ _).1 hu).2.2)

theorem flattenLoop_den {s : FF} (w : s.Wf) (sm : SmallFF s) {o} (fuel : Nat) : ∀ {hs : List H} {fs : List Formula},
    Dens s hs fs → (∀ h ∈ hs, h.idx < 2 ^ 26) → (∀ f ∈ fs, Norm f) → ∀ {a acc}, AccR s o a acc →
    FlatR s o (s.flattenLoop o (s.filterFlatten o (fuel + 1)) hs false a) (Formula.flats o fs acc) := by
  intro hs
  induction hs with
  | nil =>
    intro fs hd _ _ a acc r
    cases fs with
    | nil => simpa [FF.flattenLoop, Formula.flats, FlatR] using r
    | cons f fs => simp [Dens] at hd
  | cons h hs ih =>
    intro fs hd hi hn a acc r
    cases fs with
    | nil => simp [Dens] at hd
    | cons f fs =>
      simp only [Dens] at hd
      simp only [Formula.flats]
      rcases Formula.flat1_cases o f acc with ⟨gs, rfl, e⟩ | ⟨hne, e⟩
      · obtain ⟨ops, h1, h2, h3⟩ := operands_den w hd.1
        have hflat : ∀ g ∈ gs, ∀ ks, g ≠ .nary o ks := by
          have := hn _ (List.mem_cons_self ..)
          cases this with
          | nary _ _ hg => exact hg.flat
        have hr := flattenLoop_flat w sm (s.filterFlatten o fuel) h2 h3 hflat r
        have hty : h.ty = o.fty := den_ty w hd.1
        rw [FF.flattenLoop, if_pos hty, h1, e]
        have hu : s.filterFlatten o (fuel + 1) ops a = s.flattenLoop o (s.filterFlatten o fuel) ops false a := rfl
        simp only [hu]
        revert hr
        cases hx : s.flattenLoop o (s.filterFlatten o fuel) ops false a with
        | none => simp [FlatR]
        | some x =>
          cases x with
          | none =>
            cases hy : Formula.flats o gs acc with
            | none => simp [FlatR]
            | some y => simp [FlatR]
          | some a' =>
            cases hy : Formula.flats o gs acc with
            | none => simp [FlatR]
            | some acc' =>
              intro hr
              simp only
              have hr : AccR s o a' acc' := hr
              have := ih hd.2 (fun x hx => hi x (by simp [hx])) (fun x hx => hn x (by simp [hx])) hr
              exact this
      · have hstep := flattenLoop_add w sm r hd.1 (hi h (by simp)) hne (s.filterFlatten o (fuel + 1)) hs
        rw [e]
        cases e2 : Formula.addOp o f acc with
        | none => rw [e2] at hstep; simp only at hstep ⊢; rw [hstep]; trivial
        | some acc' =>
          rw [e2] at hstep
          obtain ⟨a', r', h'⟩ := hstep
          rw [h']
          exact ih hd.2 (fun x hx => hi x (by simp [hx])) (fun x hx => hn x (by simp [hx])) r'

/-- `filter_flatten` on handles does what it does on trees. -/
theorem filterFlatten_den {s : FF} (w : s.Wf) (sm : SmallFF s) {o} (fuel : Nat) {hs : List H} {fs : List Formula}
    (hd : Dens s hs fs) (hi : ∀ h ∈ hs, h.idx < 2 ^ 26) (hn : ∀ f ∈ fs, Norm f) {a acc} (r : AccR s o a acc) :
    FlatR s o (s.filterFlatten o (fuel + 2) hs a) (Formula.flats o fs acc) :=
  flattenLoop_den w sm fuel hd hi hn r

/-! ### The order stored in the tables -/

open Classical in
/-- The order of operands (and sides of equivalences) stored in the tables of `s`. -/
noncomputable def canonOf (s : FF) : Canon where
  ord o l := if h : ∃ fs, (∃ x, Den s x (.nary o fs)) ∧ fs.Perm l then h.choose else l
  ord_perm o l := by
    split
    · rename_i h; exact h.choose_spec.2
    · exact List.Perm.refl _
  swap l r := decide (∃ x, Den s x (.equiv r l))

theorem setEq_of_perm {s : FF} (w : s.Wf) {hs gs : List H} {fs ks : List Formula} (h : Dens s hs fs) (h' : Dens s gs ks)
    (p : ∀ f, f ∈ fs ↔ f ∈ ks) : setEq hs gs = true := by
  rw [setEq_iff]
  intro x
  constructor
  · intro hx
    obtain ⟨f, hf, hd⟩ := dens_mem h x hx
    exact (w.mem_iff h' hd).2 ((p f).1 hf)
  · intro hx
    obtain ⟨f, hf, hd⟩ := dens_mem h' x hx
    exact (w.mem_iff h hd).2 ((p f).2 hf)

/-- N-ary nodes with the same set of operands are the same node. -/
theorem FF.Wf.nary_inj {s : FF} (w : s.Wf) {o fs gs} {x y : H} (hx : Den s x (.nary o fs)) (hy : Den s y (.nary o gs))
    (p : ∀ f, f ∈ fs ↔ f ∈ gs) : x = y ∧ fs = gs := by
  have hx' := hx
  have hy' := hy
  simp only [Den] at hx hy
  obtain ⟨hs, hu, hd⟩ := hx
  obtain ⟨ks, hv, hk⟩ := hy
  obtain ⟨a1, a2, a3⟩ := (FF.unpack_nary_iff w x o hs).1 hu
  obtain ⟨b1, b2, b3⟩ := (FF.unpack_nary_iff w y o ks).1 hv
  have hi := (w.nary o).uniq' isEqv_setEq a3 b3 (setEq_of_perm w hd hk p)
  have hxy := H.ext' (a1.trans b1.symm) hi (a2.trans b2.symm)
  subst hxy
  have := den_fun hx' hy'
  simp at this
  exact ⟨rfl, this⟩

theorem canonOf_ord {s : FF} (w : s.Wf) {o fs l} {x : H} (hx : Den s x (.nary o fs)) (p : fs.Perm l) :
    (canonOf s).ord o l = fs := by
  have h : ∃ fs, (∃ x, Den s x (.nary o fs)) ∧ fs.Perm l := ⟨fs, ⟨x, hx⟩, p⟩
  simp only [canonOf]
  rw [dif_pos h]
  obtain ⟨y, hy⟩ := h.choose_spec.1
  refine (w.nary_inj hy hx fun f => ?_).2
  rw [(h.choose_spec.2).mem_iff, p.mem_iff]

/-- Equivalences with the same two sides are the same node. -/
theorem FF.Wf.equiv_inj {s : FF} (w : s.Wf) {f g : Formula} {x y : H} (hx : Den s x (.equiv f g)) (hy : Den s y (.equiv g f)) :
    f = g := by
  have hx' := hx
  have hy' := hy
  simp only [Den] at hx hy
  obtain ⟨a, b, hu, ha, hb⟩ := hx
  obtain ⟨c, d, hv, hc, hd⟩ := hy
  obtain rfl := w.den_inj ha hd
  obtain rfl := w.den_inj hb hc
  obtain ⟨a1, a2, a3⟩ := (FF.unpack_equiv_iff w _ _ _).1 hu
  obtain ⟨b1, b2, b3⟩ := (FF.unpack_equiv_iff w _ _ _).1 hv
  have hi := w.equivs.uniq' isEqv_sameEquiv a3 b3 ((sameEquiv_iff ..).2 (.inr ⟨rfl, rfl⟩))
  have hxy := H.ext' (a1.trans b1.symm) hi (a2.trans b2.symm)
  subst hxy
  have := den_fun hx' hy'
  simp at this
  exact this.1

theorem canonOf_swap_true {s : FF} {f g : Formula} {x : H} (hx : Den s x (.equiv g f)) : (canonOf s).swap f g = true := by
  simp only [canonOf, decide_eq_true_eq]
  exact ⟨x, hx⟩

theorem canonOf_swap_false {s : FF} (w : s.Wf) {f g : Formula} {x : H} (hx : Den s x (.equiv f g)) (hne : f ≠ g) :
    (canonOf s).swap f g = false := by
  simp only [canonOf, decide_eq_false_iff_not]
  rintro ⟨y, hy⟩
  exact hne (w.equiv_inj hx hy)

end Verif
