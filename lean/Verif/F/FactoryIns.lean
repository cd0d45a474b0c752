import Verif.F.FactoryWf

namespace Verif
open Formula (Norm mkNot mkNary mkNeg mkImpl mkEquiv)

/-! ### Adding one entry keeps the invariant -/

theorem FF.Wf.step {s s' : FF} (w : s.Wf) (e : Ext s s') (t : s'.Tabs)
    (hold : ∀ h n, s.unpack h = some n → (h ∈ s'.isCnf ↔ h ∈ s.isCnf))
    (hcn : ∀ h ∈ s'.isCnf, h ∈ s.isCnf ∨ ∃ n, s'.unpack h = some n)
    (hnew : ∀ h n, s'.unpack h = some n → h.ty.stored = true → s.unpack h = some n ∨
      ∃ f, Den s' h f ∧ Norm f ∧ ∀ o fs, f = .nary o fs → (h ∈ s'.isCnf ↔ f.isCnfF = true)) : s'.Wf := by
  refine { toTabs := t, ent := ?_, cnf := ?_, cnfOld := ?_ }
  rotate_left 2
  · intro h hh
    rcases hcn h hh with h1 | h1
    · obtain ⟨n, hn⟩ := w.cnfOld h h1
      exact ⟨n, e.unpack hn⟩
    · exact h1
  · intro h n hn hs
    rcases hnew h n hn hs with hn' | ⟨f, hd, hf, _⟩
    · obtain ⟨f, hd, hf⟩ := w.ent h n hn' hs
      exact ⟨f, e.den hd, hf⟩
    · exact ⟨f, hd, hf⟩
  · intro h o fs hd
    have hd' := hd
    simp only [Den] at hd
    obtain ⟨hs, hu, _⟩ := hd
    have hst : h.ty.stored = true := by
      unfold FF.unpack at hu
      split at hu <;> rename_i hty <;> first | (rw [hty]; rfl) | simp at hu
    rcases hnew h _ hu hst with hn' | ⟨f, hdf, _, hc⟩
    · obtain ⟨f, hdf, hf⟩ := w.ent h _ hn' hst
      have := den_fun (e.den hdf) hd'
      subst this
      rw [hold h _ hn']
      exact w.cnf h o fs hdf
    · have := den_fun hdf hd'
      subst this
      exact hc o fs rfl

theorem prefix_cases {α} {l l' : List α} {e : α} (h : l' = l ∨ l' = l ++ [e]) {i : Nat} {a : α} (hi : l'[i]? = some a) :
    l[i]? = some a ∨ (i = l.length ∧ a = e) := by
  rcases h with rfl | rfl
  · exact .inl hi
  · by_cases hlt : i < l.length
    · rw [List.getElem?_append_left hlt] at hi; exact .inl hi
    · right
      have hi1 := (List.getElem?_eq_some_iff.1 hi).1
      simp at hi1
      have : i = l.length := by omega
      subst this
      simpa using hi.symm

theorem as32_of_lt {x : H} (h : x.idx < 2 ^ 26) : x.as32 = x := by
  rcases x with ⟨t, i, l⟩
  simp only [H.as32] at *
  rw [Nat.mod_eq_of_lt h]

theorem isLarge_of_lt {x : H} (h : x.idx < 2 ^ 26) : x.isLarge = false := by
  simp only [H.isLarge, decide_eq_false_iff_not]; omega

theorem mem_of_prefix_cases {α} {l l' : List α} {e a : α} (h : l' = l ∨ l' = l ++ [e]) (ha : a ∈ l') : a ∈ l ∨ a = e := by
  rcases h with rfl | rfl
  · exact .inl ha
  · simpa using ha

theorem or_weaken {α} {l l' : List α} {e : α} {p : Prop} (h : l' = l ∨ l' = l ++ [e] ∧ p) : l' = l ∨ l' = l ++ [e] :=
  h.imp id And.left

/-- What a constructor call achieves: the state is extended, the invariant kept, and the
returned handle denotes `f`. -/
structure Made (s s' : FF) (r : H) (f : Formula) : Prop where
  ext : Ext s s'
  wf : s'.Wf
  den : Den s' r f
  norm : Norm f
  idx : SmallFF s' → r.idx < 2 ^ 26

theorem lt_of_getElem? {α} {l : List α} {i : Nat} {a : α} (h : l[i]? = some a) (hl : l.length ≤ 2 ^ 26) : i < 2 ^ 26 :=
  Nat.lt_of_lt_of_le (List.getElem?_eq_some_iff.1 h).1 hl

theorem insNot_made {s : FF} (w : s.Wf) {x : H} {f : Formula} (hx : Den s x f) (hi : x.idx < 2 ^ 26)
    (hn : Norm (.not f)) : Made s (s.insNot x).1 (s.insNot x).2 (.not f) := by
  unfold FF.insNot FF.notInsert
  rw [isLarge_of_lt hi, as32_of_lt hi]
  simp only [Bool.false_eq_true, if_false]
  obtain ⟨i, a, e1, e2, e3, e4, e5⟩ := w.nots.getOrInsert isEqv_beq x
  have hpre := Cache.vec_prefix (fun a b : H => a == b) .not false x s.nots.small
  generalize hc : s.nots.small.getOrInsert (fun a b => a == b) FTy.not false x = c at *
  rcases c with ⟨r, c⟩
  simp only at e1 e2 e3 e4 e5 hpre ⊢
  have e6 := or_weaken e5
  obtain rfl : a = x := by simpa using e3
  have hext : Ext s { s with nots := { s.nots with small := c } } := by
    refine ⟨List.prefix_rfl, fun _ => List.prefix_rfl, fun _ => List.prefix_rfl, ?_,
      fun _ => List.prefix_rfl, fun _ => List.prefix_rfl, List.prefix_rfl, List.prefix_rfl, fun _ => Nat.le_refl _⟩
    intro b; cases b
    · exact hpre
    · exact List.prefix_rfl
  have htabs : FF.Tabs { s with nots := { s.nots with small := c } } := by
    refine { w.toTabs with nots := e4, idxNot := ?_ }
    intro h hh
    rcases mem_of_prefix_cases e6 hh with h1 | rfl
    · exact w.idxNot h h1
    · exact hi
  have hden : ∀ j, c.vec[j]? = some a → Den { s with nots := { s.nots with small := c } } ⟨.not, j, false⟩ (.not f) := by
    intro j hj
    simp only [Den]
    exact ⟨a, by simp [FF.unpack, FF.sel, hj], hext.den hx⟩
  refine ⟨hext, w.step hext htabs (fun _ _ _ => Iff.rfl) (fun _ h => .inl h) ?_, e1 ▸ hden i e2, hn,
    fun hs => e1 ▸ lt_of_getElem? e2 hs.nots⟩
  intro h n hu hst
  rcases h with ⟨ty, j, lg⟩
  by_cases hty : ty = .not
  · subst hty
    simp only [FF.unpack] at hu
    obtain ⟨g, hg, rfl⟩ := Option.map_eq_some_iff.1 hu
    cases lg
    · simp only [FF.sel, Bool.false_eq_true, if_false] at hg
      rcases prefix_cases e6 hg with h1 | ⟨_, rfl⟩
      · left; simp [FF.unpack, FF.sel, h1]
      · exact .inr ⟨_, hden j hg, hn, by simp⟩
    · simp [FF.sel, w.bigNot] at hg
  · left
    rw [← hu]
    cases ty <;> first | rfl | exact absurd rfl hty | (rename_i p t; cases p <;> cases t <;> rfl)

theorem insImpl_made {s : FF} (w : s.Wf) {x y : H} {f g : Formula} (hx : Den s x f) (hy : Den s y g) (hi : x.idx < 2 ^ 26)
    (hj : y.idx < 2 ^ 26) (hn : Norm (.impl f g)) :
    Made s { s with impls := (FF.pairInsert (fun a b => a == b) .impl x y s.impls).2 }
      (FF.pairInsert (fun a b => a == b) .impl x y s.impls).1 (.impl f g) := by
  unfold FF.pairInsert
  rw [isLarge_of_lt hi, isLarge_of_lt hj, as32_of_lt hi, as32_of_lt hj]
  simp only [Bool.false_eq_true, Bool.or_false, if_false]
  obtain ⟨i, a, e1, e2, e3, e4, e5⟩ := w.impls.getOrInsert isEqv_beq (x, y)
  have hpre := Cache.vec_prefix (fun a b : H × H => a == b) .impl false (x, y) s.impls.small
  generalize hc : s.impls.small.getOrInsert (fun a b => a == b) FTy.impl false (x, y) = c at *
  rcases c with ⟨r, c⟩
  simp only at e1 e2 e3 e4 e5 hpre ⊢
  have e6 := or_weaken e5
  obtain rfl : a = (x, y) := by simpa using e3
  have hext : Ext s { s with impls := { s.impls with small := c } } := by
    refine ⟨List.prefix_rfl, fun _ => List.prefix_rfl, fun _ => List.prefix_rfl, fun _ => List.prefix_rfl, ?_,
      fun _ => List.prefix_rfl, List.prefix_rfl, List.prefix_rfl, fun _ => Nat.le_refl _⟩
    intro b; cases b
    · exact hpre
    · exact List.prefix_rfl
  have htabs : FF.Tabs { s with impls := { s.impls with small := c } } := by
    refine { w.toTabs with impls := e4, idxImpl := ?_ }
    intro h hh
    rcases mem_of_prefix_cases e6 hh with h1 | rfl
    · exact w.idxImpl h h1
    · exact ⟨hi, hj⟩
  have hden : ∀ j, c.vec[j]? = some (x, y) →
      Den { s with impls := { s.impls with small := c } } ⟨.impl, j, false⟩ (.impl f g) := by
    intro j hj
    simp only [Den]
    exact ⟨x, y, by simp [FF.unpack, FF.sel, hj], hext.den hx, hext.den hy⟩
  refine ⟨hext, w.step hext htabs (fun _ _ _ => Iff.rfl) (fun _ h => .inl h) ?_, e1 ▸ hden i e2, hn,
    fun hs => e1 ▸ lt_of_getElem? e2 hs.impls⟩
  intro h n hu hst
  rcases h with ⟨ty, j, lg⟩
  by_cases hty : ty = .impl
  · subst hty
    simp only [FF.unpack] at hu
    obtain ⟨g, hg, rfl⟩ := Option.map_eq_some_iff.1 hu
    cases lg
    · simp only [FF.sel, Bool.false_eq_true, if_false] at hg
      rcases prefix_cases e6 hg with h1 | ⟨_, rfl⟩
      · left; simp [FF.unpack, FF.sel, h1]
      · exact .inr ⟨_, hden j hg, hn, by simp⟩
    · simp [FF.sel, w.bigImpl] at hg
  · left
    rw [← hu]
    cases ty <;> first | rfl | exact absurd rfl hty | (rename_i p t; cases p <;> cases t <;> rfl)

/-! #### Equivalences -/

theorem code_inj {a b : FTy} {c : Nat} (h : Enc.code a = some c) (h' : Enc.code b = some c) : a = b := by
  have h1 := Enc.formulaType_of (n := 0) (large := false) h rfl
  have h2 := Enc.formulaType_of (n := 0) (large := false) h' rfl
  exact Option.some.inj (h1.symm.trans h2)

theorem tmp_code (a : FTy) (h : Enc.code a = none) : a = .lit true (.aux .tmp) ∨ a = .lit false (.aux .tmp) := by
  unfold Enc.code at h
  split at h <;> simp at h
  rename_i b
  cases b <;> simp

theorem code_lt18 {ty c} (h : Enc.code ty = some c) : c < 18 := by
  unfold Enc.code at h; split at h <;> simp at h <;> omega

theorem word_inj {x y : H} (h : x.word = y.word) : x = y := by
  rcases x with ⟨t, i, l⟩
  rcases y with ⟨t', i', l'⟩
  unfold H.word at h
  simp only at h
  have hb : ∀ t : FTy, (Enc.code t).getD (if t = .lit true (.aux .tmp) then 18 else 19) < 32 := by
    intro t
    cases hc : Enc.code t with
    | some c => have := code_lt18 hc; simp; omega
    | none => simp; split <;> omega
  have h1 := hb t
  have h2 := hb t'
  have hl : l = l' := by cases l <;> cases l' <;> simp at h ⊢ <;> omega
  subst hl
  have hi : i = i' := by omega
  subst hi
  have ht : (Enc.code t).getD (if t = .lit true (.aux .tmp) then 18 else 19) =
      (Enc.code t').getD (if t' = .lit true (.aux .tmp) then 18 else 19) := by omega
  have : t = t' := by
    cases hc : Enc.code t with
    | some c =>
      cases hc' : Enc.code t' with
      | some c' => simp [hc, hc'] at ht; subst ht; exact code_inj hc hc'
      | none => have := code_lt18 hc; simp [hc, hc'] at ht; split at ht <;> omega
    | none =>
      cases hc' : Enc.code t' with
      | some c' => have := code_lt18 hc'; simp [hc, hc'] at ht; split at ht <;> omega
      | none =>
        rcases tmp_code t hc with rfl | rfl <;> rcases tmp_code t' hc' with rfl | rfl <;>
          first | rfl | (simp [Enc.code] at ht)
  subst this; rfl

theorem sameEquiv_iff (a b c d : H) : sameEquiv (a, b) (c, d) = true ↔ (a = c ∧ b = d) ∨ (a = d ∧ b = c) := by
  unfold sameEquiv equivKey
  simp only [decide_eq_true_eq]
  constructor
  · intro h
    split at h <;> split at h <;> simp at h
    · exact .inl h
    · exact .inr h
    · exact .inr ⟨h.2, h.1⟩
    · exact .inl ⟨h.2, h.1⟩
  · rintro (⟨rfl, rfl⟩ | ⟨rfl, rfl⟩)
    · rfl
    · by_cases h1 : a.word < b.word
      · rw [if_pos h1, if_neg (by omega)]
      · by_cases h2 : b.word < a.word
        · rw [if_neg h1, if_pos h2]
        · have := word_inj (show a.word = b.word by omega)
          subst this; rfl

/-- Inserting an equivalence: the entry may be stored with its sides swapped. -/
theorem insEquiv_made {s : FF} (w : s.Wf) {x y : H} {f g : Formula} (hx : Den s x f) (hy : Den s y g) (hi : x.idx < 2 ^ 26)
    (hj : y.idx < 2 ^ 26) (hn : Norm (.equiv f g)) (hn' : Norm (.equiv g f)) :
    Made s { s with equivs := (FF.pairInsert sameEquiv .equiv x y s.equivs).2 }
      (FF.pairInsert sameEquiv .equiv x y s.equivs).1 (.equiv f g) ∨
    Made s { s with equivs := (FF.pairInsert sameEquiv .equiv x y s.equivs).2 }
      (FF.pairInsert sameEquiv .equiv x y s.equivs).1 (.equiv g f) := by
  unfold FF.pairInsert
  rw [isLarge_of_lt hi, isLarge_of_lt hj, as32_of_lt hi, as32_of_lt hj]
  simp only [Bool.false_eq_true, Bool.or_false, if_false]
  obtain ⟨i, a, e1, e2, e3, e4, e5⟩ := w.equivs.getOrInsert isEqv_sameEquiv (x, y)
  have hpre := Cache.vec_prefix sameEquiv .equiv false (x, y) s.equivs.small
  generalize hc : s.equivs.small.getOrInsert sameEquiv FTy.equiv false (x, y) = c at *
  rcases c with ⟨r, c⟩
  simp only at e1 e2 e3 e4 e5 hpre ⊢
  have e6 := or_weaken e5
  rcases a with ⟨a, b⟩
  have e3 := (sameEquiv_iff a b x y).1 e3
  have hext : Ext s { s with equivs := { s.equivs with small := c } } := by
    refine ⟨List.prefix_rfl, fun _ => List.prefix_rfl, fun _ => List.prefix_rfl, fun _ => List.prefix_rfl,
      fun _ => List.prefix_rfl, ?_, List.prefix_rfl, List.prefix_rfl, fun _ => Nat.le_refl _⟩
    intro b; cases b
    · exact hpre
    · exact List.prefix_rfl
  have htabs : FF.Tabs { s with equivs := { s.equivs with small := c } } := by
    refine { w.toTabs with equivs := e4, idxEquiv := ?_ }
    intro h hh
    rcases mem_of_prefix_cases e6 hh with h1 | rfl
    · exact w.idxEquiv h h1
    · exact ⟨hi, hj⟩
  have hden : ∀ j u v f g, Den s u f → Den s v g → c.vec[j]? = some (u, v) →
      Den { s with equivs := { s.equivs with small := c } } ⟨.equiv, j, false⟩ (.equiv f g) := by
    intro j u v f g hu hv hj
    simp only [Den]
    exact ⟨u, v, by simp [FF.unpack, FF.sel, hj], hext.den hu, hext.den hv⟩
  have hwf : FF.Wf { s with equivs := { s.equivs with small := c } } := by
    refine w.step hext htabs (fun _ _ _ => Iff.rfl) (fun _ h => .inl h) ?_
    intro h n hu hst
    rcases h with ⟨ty, j, lg⟩
    by_cases hty : ty = .equiv
    · subst hty
      simp only [FF.unpack] at hu
      obtain ⟨p, hg, rfl⟩ := Option.map_eq_some_iff.1 hu
      cases lg
      · simp only [FF.sel, Bool.false_eq_true, if_false] at hg
        rcases prefix_cases e6 hg with h1 | ⟨_, rfl⟩
        · left; simp [FF.unpack, FF.sel, h1]
        · exact .inr ⟨_, hden j x y f g hx hy hg, hn, by simp⟩
      · simp [FF.sel, w.bigEquiv] at hg
    · left
      rw [← hu]
      cases ty <;> first | rfl | exact absurd rfl hty | (rename_i p t; cases p <;> cases t <;> rfl)
  rcases e3 with ⟨rfl, rfl⟩ | ⟨rfl, rfl⟩
  · left
    exact ⟨hext, hwf, e1 ▸ hden i _ _ _ _ hx hy e2, hn, fun hs => e1 ▸ lt_of_getElem? e2 hs.equivs⟩
  · right
    exact ⟨hext, hwf, e1 ▸ hden i _ _ _ _ hy hx e2, hn', fun hs => e1 ▸ lt_of_getElem? e2 hs.equivs⟩

/-! #### Constraints and constants -/

/-- Formulas without operands other than literals. -/
def Formula.isLeaf : Formula → Bool
  | .tru => true
  | .fls => true
  | .cc _ => true
  | .pbc _ => true
  | _ => false

theorem made_self {s : FF} (w : s.Wf) {x f} (hx : Den s x f) (hi : x.idx < 2 ^ 26) (hn : Norm f) : Made s s x f :=
  ⟨Ext.refl s, w, hx, hn, fun _ => hi⟩

theorem leaf_made {s : FF} (w : s.Wf) {f : Formula} (hl : f.isLeaf = true) (hn : Norm f) :
    Made s (s.leaf f).1 (s.leaf f).2 f := by
  cases f <;> simp [Formula.isLeaf] at hl
  · exact made_self w (by simp [Den, FF.leaf]) (by simp [FF.leaf, H.verum, H.falsum]) hn
  · exact made_self w (by simp [Den, FF.leaf]) (by simp [FF.leaf, H.verum, H.falsum]) hn
  · rename_i x
    simp only [FF.leaf]
    obtain ⟨i, a, e1, e2, e3, e4, e5⟩ := w.ccs.getOrInsert isEqv_beq x
    have hpre := Cache.vec_prefix (fun a b : CC => a == b) .cc true x s.ccs
    generalize hc : s.ccs.getOrInsert (fun a b => a == b) FTy.cc true x = c at *
    rcases c with ⟨r, c⟩
    simp only at e1 e2 e3 e4 e5 hpre ⊢
    have e6 := or_weaken e5
    obtain rfl : a = x := by simpa using e3
    have hext : Ext s { s with ccs := c } :=
      ⟨List.prefix_rfl, fun _ => List.prefix_rfl, fun _ => List.prefix_rfl, fun _ => List.prefix_rfl,
        fun _ => List.prefix_rfl, fun _ => List.prefix_rfl, hpre, List.prefix_rfl, fun _ => Nat.le_refl _⟩
    have hden : ∀ j, c.vec[j]? = some a → Den { s with ccs := c } ⟨.cc, j, true⟩ (.cc a) := by
      intro j hj; simp [Den, FF.unpack, hj]
    refine ⟨hext, w.step hext { w.toTabs with ccs := e4 } (fun _ _ _ => Iff.rfl) (fun _ h => .inl h) ?_, e1 ▸ hden i e2, hn,
      fun hs => e1 ▸ lt_of_getElem? e2 hs.ccs⟩
    intro h n hu hst
    rcases h with ⟨ty, j, lg⟩
    by_cases hty : ty = .cc
    · subst hty
      simp only [FF.unpack] at hu
      cases lg
      · simp at hu
      · simp only [if_true] at hu
        obtain ⟨g, hg, rfl⟩ := Option.map_eq_some_iff.1 hu
        rcases prefix_cases e6 hg with h1 | ⟨_, rfl⟩
        · left; simp [FF.unpack, h1]
        · exact .inr ⟨_, hden j hg, hn, by simp⟩
    · left
      rw [← hu]
      cases ty <;> first | rfl | exact absurd rfl hty | (rename_i p t; cases p <;> cases t <;> rfl)
  · rename_i x
    simp only [FF.leaf]
    obtain ⟨i, a, e1, e2, e3, e4, e5⟩ := w.pbcs.getOrInsert isEqv_beq x
    have hpre := Cache.vec_prefix (fun a b : PBC => a == b) .pbc true x s.pbcs
    generalize hc : s.pbcs.getOrInsert (fun a b => a == b) FTy.pbc true x = c at *
    rcases c with ⟨r, c⟩
    simp only at e1 e2 e3 e4 e5 hpre ⊢
    have e6 := or_weaken e5
    obtain rfl : a = x := by simpa using e3
    have hext : Ext s { s with pbcs := c } :=
      ⟨List.prefix_rfl, fun _ => List.prefix_rfl, fun _ => List.prefix_rfl, fun _ => List.prefix_rfl,
        fun _ => List.prefix_rfl, fun _ => List.prefix_rfl, List.prefix_rfl, hpre, fun _ => Nat.le_refl _⟩
    have hden : ∀ j, c.vec[j]? = some a → Den { s with pbcs := c } ⟨.pbc, j, true⟩ (.pbc a) := by
      intro j hj; simp [Den, FF.unpack, hj]
    refine ⟨hext, w.step hext { w.toTabs with pbcs := e4 } (fun _ _ _ => Iff.rfl) (fun _ h => .inl h) ?_, e1 ▸ hden i e2, hn,
      fun hs => e1 ▸ lt_of_getElem? e2 hs.pbcs⟩
    intro h n hu hst
    rcases h with ⟨ty, j, lg⟩
    by_cases hty : ty = .pbc
    · subst hty
      simp only [FF.unpack] at hu
      cases lg
      · simp at hu
      · simp only [if_true] at hu
        obtain ⟨g, hg, rfl⟩ := Option.map_eq_some_iff.1 hu
        rcases prefix_cases e6 hg with h1 | ⟨_, rfl⟩
        · left; simp [FF.unpack, h1]
        · exact .inr ⟨_, hden j hg, hn, by simp⟩
    · left
      rw [← hu]
      cases ty <;> first | rfl | exact absurd rfl hty | (rename_i p t; cases p <;> cases t <;> rfl)

theorem isLeaf_const (b) : (Formula.const b).isLeaf = true := by cases b <;> rfl

theorem isLeaf_constructCc (c rhs vs) : (Formula.constructCc c rhs vs).isLeaf = true := by
  unfold Formula.constructCc
  split
  · exact isLeaf_const _
  · split <;> rfl

theorem isLeaf_mkPbc (c rhs ts) : (Formula.mkPbc c rhs ts).isLeaf = true := by
  unfold Formula.mkPbc
  split
  · exact isLeaf_const _
  · split
    · exact isLeaf_constructCc ..
    · rfl

theorem pbc_made {s : FF} (w : s.Wf) {c rhs ts} (h : Formula.RhsFits rhs ts) (hr : I64 rhs) (hc : ∀ t ∈ ts, I64 t.2) :
    Made s (s.pbc c rhs ts).1 (s.pbc c rhs ts).2 (Formula.mkPbc c rhs ts) :=
  leaf_made w (isLeaf_mkPbc ..) (Formula.norm_mkPbc h hr hc)

end Verif
