import Verif.F.FactoryNary

namespace Verif
open Formula (Norm mkNot mkNary mkNeg mkImpl mkEquiv AccOk)

/-! ### Constructors only extend the tables -/

theorem ext_nary (s : FF) (o : Op) (d : Dual (List H)) (l : List H)
    (h : ∀ b, FF.sel (s.naryC o) b <+: FF.sel d b) : Ext s { s.setNary o d with isCnf := l } := by
  cases o
  · exact ⟨List.prefix_rfl, h, fun _ => List.prefix_rfl, fun _ => List.prefix_rfl,
      fun _ => List.prefix_rfl, fun _ => List.prefix_rfl, List.prefix_rfl, List.prefix_rfl, fun _ => Nat.le_refl _⟩
  · exact ⟨List.prefix_rfl, fun _ => List.prefix_rfl, h, fun _ => List.prefix_rfl,
      fun _ => List.prefix_rfl, fun _ => List.prefix_rfl, List.prefix_rfl, List.prefix_rfl, fun _ => Nat.le_refl _⟩

theorem naryInsert_prefix (ty : FTy) (e32 e64 : List H) (d : Dual (List H)) (b : Bool) :
    FF.sel d b <+: FF.sel (FF.naryInsert ty e32 e64 d).2 b := by
  unfold FF.naryInsert
  split
  · cases b
    · exact Cache.vec_prefix ..
    · exact List.prefix_rfl
  · cases b
    · exact List.prefix_rfl
    · exact Cache.vec_prefix ..

theorem ext_isCnf (s : FF) (l : List H) : Ext s { s with isCnf := l } :=
  ⟨List.prefix_rfl, fun _ => List.prefix_rfl, fun _ => List.prefix_rfl, fun _ => List.prefix_rfl,
    fun _ => List.prefix_rfl, fun _ => List.prefix_rfl, List.prefix_rfl, List.prefix_rfl, fun _ => Nat.le_refl _⟩

theorem pick_ext (s : FF) (o : Op) (a : FF.Acc) : Ext s (s.pick o a).1 := by
  unfold FF.pick
  split
  · exact Ext.refl s
  · exact Ext.refl s
  · exact Ext.refl s
  · exact ext_nary s o _ (s.setNary o _).isCnf (fun _ => naryInsert_prefix ..)

theorem nary_ext {fuel : Nat} {s s' : FF} {o : Op} {hs : List H} {r : H} (h : s.nary fuel o hs = some (s', r)) : Ext s s' := by
  unfold FF.nary at h
  split at h
  · simp at h
  · cases h; exact Ext.refl s
  · rename_i a _
    have hp := pick_ext s o a
    generalize s.pick o a = p at h hp
    rcases p with ⟨s1, r1⟩
    simp only [Option.some.injEq, Prod.mk.injEq] at h
    obtain ⟨h, -⟩ := h
    split at h
    · subst h; exact hp.trans (ext_isCnf _ _)
    · subst h; exact hp

theorem notInsert_prefix (x : H) (d : Dual H) (b : Bool) : FF.sel d b <+: FF.sel (FF.notInsert x d).2 b := by
  unfold FF.notInsert
  split
  · cases b
    · exact List.prefix_rfl
    · exact Cache.vec_prefix ..
  · cases b
    · exact Cache.vec_prefix ..
    · exact List.prefix_rfl

theorem insNot_ext (s : FF) (x : H) : Ext s (s.insNot x).1 :=
  ⟨List.prefix_rfl, fun _ => List.prefix_rfl, fun _ => List.prefix_rfl, fun _ => notInsert_prefix ..,
    fun _ => List.prefix_rfl, fun _ => List.prefix_rfl, List.prefix_rfl, List.prefix_rfl, fun _ => Nat.le_refl _⟩

theorem pairInsert_prefix (same : H × H → H × H → Bool) (ty : FTy) (l r : H) (d : Dual (H × H)) (b : Bool) :
    FF.sel d b <+: FF.sel (FF.pairInsert same ty l r d).2 b := by
  unfold FF.pairInsert
  split
  · cases b
    · exact List.prefix_rfl
    · exact Cache.vec_prefix ..
  · cases b
    · exact Cache.vec_prefix ..
    · exact List.prefix_rfl

theorem ext_impl (s : FF) (l r : H) : Ext s { s with impls := (FF.pairInsert (fun a b => a == b) .impl l r s.impls).2 } :=
  ⟨List.prefix_rfl, fun _ => List.prefix_rfl, fun _ => List.prefix_rfl, fun _ => List.prefix_rfl,
    fun _ => pairInsert_prefix .., fun _ => List.prefix_rfl, List.prefix_rfl, List.prefix_rfl, fun _ => Nat.le_refl _⟩

theorem ext_equiv (s : FF) (l r : H) : Ext s { s with equivs := (FF.pairInsert sameEquiv .equiv l r s.equivs).2 } :=
  ⟨List.prefix_rfl, fun _ => List.prefix_rfl, fun _ => List.prefix_rfl, fun _ => List.prefix_rfl,
    fun _ => List.prefix_rfl, fun _ => pairInsert_prefix .., List.prefix_rfl, List.prefix_rfl, fun _ => Nat.le_refl _⟩

theorem leaf_ext (s : FF) (f : Formula) : Ext s (s.leaf f).1 := by
  cases f <;> try exact Ext.refl s
  · exact ⟨List.prefix_rfl, fun _ => List.prefix_rfl, fun _ => List.prefix_rfl, fun _ => List.prefix_rfl,
      fun _ => List.prefix_rfl, fun _ => List.prefix_rfl, Cache.vec_prefix .., List.prefix_rfl, fun _ => Nat.le_refl _⟩
  · exact ⟨List.prefix_rfl, fun _ => List.prefix_rfl, fun _ => List.prefix_rfl, fun _ => List.prefix_rfl,
      fun _ => List.prefix_rfl, fun _ => List.prefix_rfl, List.prefix_rfl, Cache.vec_prefix .., fun _ => Nat.le_refl _⟩

theorem SmallFF.anti {s s' : FF} (e : Ext s s') (h : SmallFF s') : SmallFF s :=
  ⟨Nat.le_trans (e.ands false).length_le h.ands, Nat.le_trans (e.ors false).length_le h.ors,
   Nat.le_trans (e.nots false).length_le h.nots, Nat.le_trans (e.impls false).length_le h.impls,
   Nat.le_trans (e.equivs false).length_le h.equivs, Nat.le_trans e.ccs.length_le h.ccs,
   Nat.le_trans e.pbcs.length_le h.pbcs⟩

/-! ### N-ary nodes -/

theorem all_congr_mem {α} {l : List α} {p q : α → Bool} (h : ∀ a ∈ l, p a = q a) : l.all p = l.all q := by
  rw [Bool.eq_iff_iff]
  simp only [List.all_eq_true]
  exact ⟨fun h' a ha => h a ha ▸ h' a ha, fun h' a ha => (h a ha).symm ▸ h' a ha⟩

theorem isCnfF_nary {o fs} (h : AccOk o fs) : (Formula.nary o fs).isCnfF = fs.all (Formula.cnfOp o) := by
  cases o
  · simp only [Formula.isCnfF]
    refine all_congr_mem ?_
    intro f hf
    have h1 := h.notConst f hf
    have h2 := h.flat f hf
    cases f with
    | nary o gs =>
      cases o
      · exact absurd rfl (h2 gs)
      · rfl
    | tru => simp [Formula.isConst] at h1
    | fls => simp [Formula.isConst] at h1
    | _ => rfl
  · simp only [Formula.isCnfF]
    refine all_congr_mem ?_
    intro f hf
    simp [Formula.cnfOp, h.notConst f hf]

theorem sel_small {α} (d : Dual α) (c : Cache α) : FF.sel { d with small := c } false = c.vec := rfl

/-- Inserting an n-ary node together with the update of the `is_cnf` cache. -/
theorem naryInsert_made {s : FF} (w : s.Wf) {o : Op} {hs : List H} {acc : List Formula} (hd : Dens s hs acc)
    (hi : ∀ h ∈ hs, h.idx < 2 ^ 26) (ok : AccOk o acc) (h2 : 2 ≤ acc.length) (cl : List H)
    (hcl : ∀ x, x ∈ cl ↔ x ∈ s.isCnf ∨ (acc.all (Formula.cnfOp o) = true ∧ x = (FF.naryInsert o.fty hs [] (s.naryC o)).1)) :
    ∃ fs, fs.Perm acc ∧
      Made s { s.setNary o (FF.naryInsert o.fty hs [] (s.naryC o)).2 with isCnf := cl }
        (FF.naryInsert o.fty hs [] (s.naryC o)).1 (.nary o fs) := by
  have hext := ext_nary s o (FF.naryInsert o.fty hs [] (s.naryC o)).2 cl (fun _ => naryInsert_prefix ..)
  revert hext hcl
  unfold FF.naryInsert
  simp only [if_true]
  obtain ⟨i, a, e1, e2, e3, e4, e5⟩ := (w.nary o).getOrInsert isEqv_setEq hs
  generalize hc : (s.naryC o).small.getOrInsert setEq o.fty false hs = c at *
  rcases c with ⟨r, c⟩
  simp only at e1 e2 e3 e4 e5 ⊢
  intro hcl hext
  have e6 := or_weaken e5
  generalize hs' : ({ s.setNary o { small := c, big := (s.naryC o).big } with isCnf := cl } : FF) = s' at *
  have hn1 : (s'.naryC o).small = c := by subst hs'; cases o <;> rfl
  have hn2 : (s'.naryC o).big = (s.naryC o).big := by subst hs'; cases o <;> rfl
  have hno : ∀ o', o' ≠ o → s'.naryC o' = s.naryC o' := by subst hs'; intro o' ho; cases o <;> cases o' <;> first | rfl | exact absurd rfl ho
  have hnots : s'.nots = s.nots := by subst hs'; cases o <;> rfl
  have himpls : s'.impls = s.impls := by subst hs'; cases o <;> rfl
  have hequivs : s'.equivs = s.equivs := by subst hs'; cases o <;> rfl
  have hccs : s'.ccs = s.ccs := by subst hs'; cases o <;> rfl
  have hpbcs : s'.pbcs = s.pbcs := by subst hs'; cases o <;> rfl
  have hvars : s'.vars = s.vars := by subst hs'; cases o <;> rfl
  have hcnf : s'.isCnf = cl := by subst hs'; rfl
  have htabs : FF.Tabs s' := by
    refine ⟨hvars ▸ w.vars, ?_, hnots ▸ w.nots, himpls ▸ w.impls, hequivs ▸ w.equivs, hccs ▸ w.ccs, hpbcs ▸ w.pbcs, ?_,
      hnots ▸ w.bigNot, himpls ▸ w.bigImpl, hequivs ▸ w.bigEquiv, ?_, hnots ▸ w.idxNot, himpls ▸ w.idxImpl, hequivs ▸ w.idxEquiv⟩
    · intro o'
      by_cases ho : o' = o
      · subst ho; rw [hn1]; exact e4
      · rw [hno o' ho]; exact w.nary o'
    · intro o'
      by_cases ho : o' = o
      · subst ho; rw [hn2]; exact w.bigN o'
      · rw [hno o' ho]; exact w.bigN o'
    · intro o'
      by_cases ho : o' = o
      · subst ho; rw [hn1]
        intro l hl
        rcases mem_of_prefix_cases e6 hl with h1 | rfl
        · exact w.idxN _ l h1
        · exact hi
      · rw [hno o' ho]; exact w.idxN o'
  -- unpacking n-ary handles in the new state
  have hsel : ∀ b, FF.sel (s'.naryC o) b = if b then [] else c.vec := by
    intro b; cases b
    · simp [FF.sel, hn1]
    · simp [FF.sel, hn2, w.bigN o]
  have hunp : ∀ j lg, s'.unpack ⟨o.fty, j, lg⟩ = ((FF.sel (s'.naryC o) lg)[j]?).map (.nary o) := by
    intro j lg; cases o <;> rfl
  have hunp' : ∀ j lg, s.unpack ⟨o.fty, j, lg⟩ = ((FF.sel (s.naryC o) lg)[j]?).map (.nary o) := by
    intro j lg; cases o <;> rfl
  have hden : ∀ j l fs, c.vec[j]? = some l → Dens s l fs → Den s' ⟨o.fty, j, false⟩ (.nary o fs) := by
    intro j l fs hj hl
    simp only [Den]
    exact ⟨l, by simp [hunp, hsel, hj], hext.dens hl⟩
  -- the entry that was found
  have hfs : ∃ fs, Dens s a fs ∧ fs.Perm acc := by
    rcases e5 with h | ⟨h, hi', rfl⟩
    · rw [h] at e2
      have hu : s.unpack ⟨o.fty, i, false⟩ = some (.nary o a) := by rw [hunp']; simp [FF.sel, e2]
      obtain ⟨f, hf, hnf⟩ := w.ent _ _ hu (by cases o <;> rfl)
      have := den_ty w hf
      obtain ⟨fs, rfl⟩ := fty_nary.1 this.symm
      simp only [Den] at hf
      obtain ⟨a', hu', hda⟩ := hf
      rw [hu] at hu'; cases hu'
      refine ⟨fs, hda, ?_⟩
      cases hnf with
      | nary _ _ hg =>
        refine (List.perm_ext_iff_of_nodup hg.nodup ok.nodup).2 fun f => ?_
        have hse := (setEq_iff a hs).1 e3
        constructor
        · intro hf
          obtain ⟨x, hx, hdx⟩ := dens_mem' hda f hf
          exact (w.mem_iff hd hdx).1 ((hse x).1 hx)
        · intro hf
          obtain ⟨x, hx, hdx⟩ := dens_mem' hd f hf
          exact (w.mem_iff hda hdx).1 ((hse x).2 hx)
    · exact ⟨acc, hd, List.Perm.refl _⟩
  obtain ⟨fs, hda, hp⟩ := hfs
  have hok : ∀ ks : List Formula, ks.Perm acc → Norm (.nary o ks) ∧ (Formula.nary o ks).isCnfF = acc.all (Formula.cnfOp o) := by
    intro ks p
    have ok' : AccOk o ks := ⟨fun f hf => ok.norm f (p.mem_iff.1 hf), p.nodup_iff.2 ok.nodup,
      fun f hf => ok.notConst f (p.mem_iff.1 hf), fun f hf => ok.flat f (p.mem_iff.1 hf),
      fun f hf h' => ok.compl f (p.mem_iff.1 hf) (p.mem_iff.1 h')⟩
    refine ⟨.nary (by rw [p.length_eq]; exact h2) ok'.norm (ok'.goodOps (List.Perm.refl _)), ?_⟩
    rw [isCnfF_nary ok', Bool.eq_iff_iff]
    simp only [List.all_eq_true]
    exact ⟨fun h x hx => h x (p.mem_iff.2 hx), fun h x hx => h x (p.mem_iff.1 hx)⟩
  have hdr : Den s' r (.nary o fs) := e1 ▸ hden i a fs e2 hda
  refine ⟨fs, hp, hext, w.step hext htabs ?_ ?_ ?_, hdr, (hok fs hp).1, ?_⟩
  · intro x n hx
    rw [hcnf, hcl]
    constructor
    · rintro (h | ⟨hfl, rfl⟩)
      · exact h
      · have hst : x.ty.stored = true := by rw [e1]; cases o <;> rfl
        obtain ⟨f, hf, _⟩ := w.ent x n hx hst
        have := den_fun (hext.den hf) hdr
        subst this
        rw [w.cnf x o fs hf, (hok fs hp).2]; exact hfl
    · exact .inl
  · intro x hx
    rw [hcnf, hcl] at hx
    rcases hx with h | ⟨_, rfl⟩
    · exact .inl h
    · obtain ⟨n, hn, _⟩ := den_unpack hdr
      exact .inr ⟨n, hn⟩
  · intro x n hu hst
    rcases x with ⟨ty, j, lg⟩
    by_cases hty : ty = o.fty
    · subst hty
      rw [hunp] at hu
      obtain ⟨l, hg, rfl⟩ := Option.map_eq_some_iff.1 hu
      rw [hsel] at hg
      cases lg
      · simp only [Bool.false_eq_true, if_false] at hg
        rcases prefix_cases e6 hg with h1 | ⟨hj, rfl⟩
        · left; rw [hunp']; simp [FF.sel, h1]
        · by_cases hold : ∃ n, s.unpack ⟨o.fty, j, false⟩ = some n
          · obtain ⟨n, hn⟩ := hold
            left
            have := hext.unpack hn
            rw [hunp, hsel] at this
            simp [hg] at this
            rw [hn, this]
          · right
            refine ⟨_, hden j l acc hg hd, (hok acc (List.Perm.refl _)).1, ?_⟩
            intro o' fs' e
            cases e
            rw [(hok acc (List.Perm.refl _)).2, hcnf, hcl]
            constructor
            · rintro (h | ⟨h, _⟩)
              · exact absurd (w.cnfOld _ h) hold
              · exact h
            · intro h
              refine .inr ⟨h, ?_⟩
              rw [e1]
              have := e4.uniq' isEqv_setEq hg e2 (isEqv_setEq.symm _ _ e3)
              rw [this]
      · simp at hg
    · left
      rw [← hu]
      have hands : ∀ b, ty = .and → FF.sel s'.ands b = FF.sel s.ands b := by
        intro b h
        have : o ≠ .conj := by rintro rfl; exact hty h
        have := hno .conj (Ne.symm this)
        simp only [FF.naryC] at this
        rw [this]
      have hors : ∀ b, ty = .or → FF.sel s'.ors b = FF.sel s.ors b := by
        intro b h
        have : o ≠ .disj := by rintro rfl; exact hty h
        have := hno .disj (Ne.symm this)
        simp only [FF.naryC] at this
        rw [this]
      cases ty with
      | lit p t => cases p <;> cases t <;> rfl
      | and => simp [FF.unpack, hands]
      | or => simp [FF.unpack, hors]
      | not => simp [FF.unpack, hnots]
      | impl => simp [FF.unpack, himpls]
      | equiv => simp [FF.unpack, hequivs]
      | cc => simp [FF.unpack, hccs]
      | pbc => simp [FF.unpack, hpbcs]
      | _ => rfl
  · intro hsm
    rw [e1]
    refine lt_of_getElem? e2 ?_
    rw [← hn1]
    cases o
    · exact hsm.ands
    · exact hsm.ors

/-- A constructor call achieved `F`, whatever is inserted later: the tree it denotes is the
one `F` computes with the orders stored in any later state. -/
def MadeC (s s' : FF) (r : H) (F : Canon → Formula) : Prop :=
  ∃ f, Made s s' r f ∧ ∀ s'', s''.Wf → Ext s' s'' → F (canonOf s'') = f

theorem neutralH_den (s : FF) (o : Op) : Den s (FF.neutralH o) (Formula.neutral o) := by
  cases o <;> simp [FF.neutralH, Formula.neutral, Den]

theorem absorbingH_den (s : FF) (o : Op) : Den s (FF.absorbingH o) (Formula.absorbing o) := by
  cases o <;> simp [FF.absorbingH, Formula.absorbing, Den]

theorem norm_neutral (o : Op) : Norm (Formula.neutral o) := by cases o <;> constructor
theorem norm_absorbing (o : Op) : Norm (Formula.absorbing o) := by cases o <;> constructor

theorem setNary_isCnf (s : FF) (o d) : (s.setNary o d).isCnf = s.isCnf := by cases o <;> rfl

theorem naryInsert_ty (o : Op) (e32 e64 : List H) (d : Dual (List H)) (w : CInv setEq o.fty false d.small) (h : e64 = []) :
    FF.isNaryTy (FF.naryInsert o.fty e32 e64 d).1 = true := by
  subst h
  unfold FF.naryInsert
  simp only [if_true]
  obtain ⟨i, a, e1, _⟩ := w.getOrInsert isEqv_setEq e32
  rw [e1]
  cases o <;> rfl

/-- `and`/`or` of the factory compute the constructors on trees. -/
theorem nary_made {s : FF} (w : s.Wf) (sm : SmallFF s) {o : Op} (fuel : Nat) {hs : List H} {fs : List Formula}
    (hd : Dens s hs fs) (hi : ∀ h ∈ hs, h.idx < 2 ^ 26) (hn : ∀ f ∈ fs, Norm f) :
    ∃ s' r, s.nary (fuel + 2) o hs = some (s', r) ∧ MadeC s s' r (fun C => mkNary C o fs) := by
  have hf := filterFlatten_den w sm fuel hd hi hn (o := o) (a := ⟨[], [], true⟩) (acc := [])
    ⟨rfl, by simp [Dens], by simp, by simp⟩
  have hok := fun r (e : Formula.flats o fs [] = some r) => Formula.flats_ok hn (AccOk.nil o) e
  unfold FF.nary
  unfold mkNary
  revert hf
  cases s.filterFlatten o (fuel + 2) hs ⟨[], [], true⟩ with
  | none => simp [FlatR]
  | some x =>
    cases x with
    | none =>
      cases hy : Formula.flats o fs [] with
      | none =>
        intro _
        exact ⟨_, _, rfl, Formula.absorbing o, made_self w (absorbingH_den s o) (by cases o <;> simp [FF.absorbingH, H.falsum, H.verum])
          (norm_absorbing o), fun _ _ _ => rfl⟩
      | some y => simp [FlatR]
    | some a =>
      cases hy : Formula.flats o fs [] with
      | none => simp [FlatR]
      | some acc =>
        intro r
        have r : AccR s o a acc := r
        have ok := hok acc hy
        simp only
        rcases a with ⟨r32, r64, fl⟩
        obtain ⟨rb, rd, ri, rf⟩ := r
        simp only at rb rd ri rf
        subst rb
        match r32, acc, rd with
        | [], [], _ =>
          refine ⟨s, FF.neutralH o, ?_, Formula.neutral o, made_self w (neutralH_den s o)
            (by cases o <;> simp [FF.neutralH, H.falsum, H.verum]) (norm_neutral o), fun _ _ _ => rfl⟩
          cases o <;> simp [FF.pick, FF.neutralH, FF.isNaryTy, H.verum, H.falsum]
        | [h], [f], rd =>
          have hdf : Den s h f := by simpa [Dens] using rd
          have hm := made_self w hdf (ri h (by simp)) (ok.norm f (by simp))
          simp only [FF.pick]
          refine ⟨_, h, rfl, ?_⟩
          change MadeC s (if (fl && FF.isNaryTy h) = true then { s with isCnf := h :: s.isCnf } else s) h _
          split
          · rename_i hb
            refine ⟨f, ?_, fun _ _ _ => rfl⟩
            -- `h` is already in the cache
            simp only [Bool.and_eq_true] at hb
            have hty := den_ty w hdf
            have hmem : h ∈ s.isCnf := by
              have hcn : f.cnfOp o = true := by simpa [rf] using hb.1
              cases f with
              | nary o' gs =>
                rw [w.cnf h o' gs hdf]
                cases o
                · exact hcn
                · simp [Formula.cnfOp, Formula.isLit, Formula.isConst] at hcn
              | lit l => rcases l with ⟨v, p⟩; cases v <;> simp [FF.isNaryTy, hty, Formula.fty] at hb
              | _ => simp [FF.isNaryTy, hty, Formula.fty] at hb
            have hext := ext_isCnf s (h :: s.isCnf)
            refine ⟨hext, w.step hext ?_ ?_ ?_ ?_, hext.den hdf, hm.norm, fun _ => ri h (by simp)⟩
            · refine { w.toTabs with }
            · intro x n _
              simp only [List.mem_cons]
              exact ⟨fun h' => h'.elim (fun e => e ▸ hmem) id, .inr⟩
            · intro x hx
              simp only [List.mem_cons] at hx
              exact .inl (hx.elim (fun e => e ▸ hmem) id)
            · intro x n hx _
              exact .inl hx
          · exact ⟨f, hm, fun _ _ _ => rfl⟩
        | h :: h' :: r32, f :: f' :: acc, rd =>
          have hty := naryInsert_ty o (h :: h' :: r32) [] (s.naryC o) (w.nary o) rfl
          have key := naryInsert_made w rd ri ok (by simp)
          have hfin : ∀ s' r l, (∃ ks : List Formula, ks.Perm (f :: f' :: acc) ∧ Made s s' r (.nary o ks)) → l = f :: f' :: acc →
              MadeC s s' r (fun C => Formula.finish C o (some l)) := by
            rintro s' r l ⟨ks, p, hm⟩ rfl
            refine ⟨_, hm, fun s'' w'' e => ?_⟩
            simp only [Formula.finish]
            rw [canonOf_ord w'' (e.den hm.den) p]
          simp only [FF.pick, hty, Bool.and_true]
          refine ⟨_, _, rfl, ?_⟩
          cases hfl : fl with
          | true =>
            rw [hfl] at rf
            simp only [if_true]
            refine hfin _ _ _ (key _ ?_) rfl
            intro x
            simp only [List.mem_cons, setNary_isCnf, ← rf, true_and]
            exact Or.comm
          | false =>
            rw [hfl] at rf
            simp only [Bool.false_eq_true, if_false]
            refine hfin _ _ _ (key _ ?_) rfl
            intro x
            rw [← rf]
            cases o <;> simp

/-! ### The other constructors -/

theorem MadeC.of_made {s s' : FF} {r : H} {f : Formula} (h : Made s s' r f) : MadeC s s' r (fun _ => f) :=
  ⟨f, h, fun _ _ _ => rfl⟩

theorem MadeC.congr {s s' : FF} {r : H} {F G : Canon → Formula} (h : MadeC s s' r F) (e : ∀ C, G C = F C) : MadeC s s' r G := by
  obtain ⟨f, h1, h2⟩ := h
  exact ⟨f, h1, fun s'' w e' => (e _).trans (h2 s'' w e')⟩

theorem made_pre {s s1 s2 : FF} {r : H} {f : Formula} (e : Ext s s1) (h : Made s1 s2 r f) : Made s s2 r f :=
  ⟨e.trans h.ext, h.wf, h.den, h.norm, h.idx⟩

theorem MadeC.pre {s s1 s2 : FF} {r : H} {F : Canon → Formula} (e : Ext s s1) (h : MadeC s1 s2 r F) : MadeC s s2 r F := by
  obtain ⟨f, h1, h2⟩ := h
  exact ⟨f, made_pre e h1, h2⟩

/-- The specification of a call: it returns, it extends the state, and as long as the
tables stay within 2^26 entries it has made `F`. -/
def Calls (s : FF) (res : Option (FF × H)) (F : Canon → Formula) : Prop :=
  ∃ s' r, res = some (s', r) ∧ Ext s s' ∧ (SmallFF s' → MadeC s s' r F)

theorem Calls.of_madeC {s s' : FF} {r : H} {F : Canon → Formula} (h : MadeC s s' r F) : Calls s (some (s', r)) F :=
  ⟨s', r, rfl, h.choose_spec.1.ext, fun _ => h⟩

theorem Calls.of_made {s s' : FF} {r : H} {f : Formula} (h : Made s s' r f) : Calls s (some (s', r)) (fun _ => f) :=
  .of_madeC (.of_made h)

theorem Calls.congr {s : FF} {res} {F G : Canon → Formula} (h : Calls s res F) (e : ∀ C, G C = F C) : Calls s res G := by
  obtain ⟨s', r, h1, h2, h3⟩ := h
  exact ⟨s', r, h1, h2, fun h => (h3 h).congr e⟩

/-- `and`/`or` return for every state, whether or not the tables are small. -/
theorem containsComplement_total {s : FF} {a : FF.Acc} {h : H} {f : Formula} (hd : Den s h f) :
    ∃ b, s.containsComplement a h = some b := by
  obtain ⟨n, hn, _⟩ := den_unpack hd
  unfold FF.containsComplement
  rw [hn]
  cases n <;> simp
  all_goals split <;> simp

theorem flattenLoop_total {s : FF} (w : s.Wf) {o : Op} {rec} : ∀ {hs : List H} {fs : List Formula}, Dens s hs fs →
    (∀ f ∈ fs, ∀ gs, f = .nary o gs → ∀ ks a, Dens s ks gs → ∃ x, rec ks a = some x) →
    ∀ lg a, ∃ x, s.flattenLoop o rec hs lg a = some x := by
  intro hs
  induction hs with
  | nil => intro fs _ _ lg a; exact ⟨_, rfl⟩
  | cons h hs ih =>
    intro fs hd hr lg a
    cases fs with
    | nil => simp [Dens] at hd
    | cons f fs =>
      simp only [Dens] at hd
      have ih' := ih hd.2 fun g hg => hr g (by simp [hg])
      rw [FF.flattenLoop.eq_2]
      by_cases ht : h.ty = o.fty
      · rw [if_pos ht]
        obtain ⟨gs, rfl⟩ := fty_nary.1 ((den_ty w hd.1).symm.trans ht)
        obtain ⟨ops, h1, h2, _⟩ := operands_den w hd.1
        rw [h1]
        obtain ⟨x, hx⟩ := hr _ (by simp) gs rfl ops a h2
        simp only [hx]
        cases x with
        | none => exact ⟨_, rfl⟩
        | some a' => exact ih' lg a'
      · rw [if_neg ht]
        simp only
        obtain ⟨b, hb⟩ := containsComplement_total (a := { a with isCnf := s.cnfFlag o h a.isCnf }) hd.1
        rw [hb]
        split
        · split
          · exact ⟨_, rfl⟩
          · exact ih' ..
        split
        · split
          · exact ⟨_, rfl⟩
          · exact ih' ..
        cases b
        · simp only
          split
          · split <;> exact ih' ..
          · split <;> exact ih' ..
        · exact ⟨_, rfl⟩

theorem nary_total {s : FF} (w : s.Wf) {o : Op} (fuel : Nat) {hs : List H} {fs : List Formula} (hd : Dens s hs fs)
    (hn : ∀ f ∈ fs, Norm f) : ∃ s' r, s.nary (fuel + 2) o hs = some (s', r) := by
  have : ∃ x, s.filterFlatten o (fuel + 2) hs ⟨[], [], true⟩ = some x := by
    refine flattenLoop_total w hd ?_ false _
    rintro f hf gs rfl ks a hk
    refine flattenLoop_total w hk ?_ false a
    rintro g hg ls rfl
    have := hn _ hf
    cases this with
    | nary _ _ hgood => exact absurd rfl (hgood.flat _ hg ls)
  obtain ⟨x, hx⟩ := this
  unfold FF.nary
  rw [hx]
  cases x with
  | none => exact ⟨_, _, rfl⟩
  | some a => exact ⟨_, _, rfl⟩

theorem nary_calls {s : FF} (w : s.Wf) {o : Op} (fuel : Nat) {hs : List H} {fs : List Formula} (hd : Dens s hs fs)
    (hi : SmallFF s → ∀ h ∈ hs, h.idx < 2 ^ 26) (hn : ∀ f ∈ fs, Norm f) :
    Calls s (s.nary (fuel + 2) o hs) (fun C => mkNary C o fs) := by
  obtain ⟨s', r, h⟩ := nary_total w (o := o) fuel hd hn
  refine ⟨s', r, h, nary_ext h, fun sm => ?_⟩
  have sm0 := sm.anti (nary_ext h)
  obtain ⟨s'', r', h', hm⟩ := nary_made w sm0 fuel hd (hi sm0) hn (o := o)
  rw [h] at h'
  cases h'
  exact hm

/-- A handle that may be given to the factory. -/
structure Valid (s : FF) (h : H) (f : Formula) : Prop where
  den : Den s h f
  norm : Norm f
  idx : h.idx < 2 ^ 26

theorem Valid.mono {s s' : FF} (e : Ext s s') {h f} (v : Valid s h f) : Valid s' h f := ⟨e.den v.den, v.norm, v.idx⟩

theorem negConstraint_calls {s : FF} (w : s.Wf) (fuel : Nat) (c : Cmp) {rhs ts} (h : Formula.RhsFits rhs ts) (hr : I64 rhs)
    (hc : ∀ t ∈ ts, I64 t.2) :
    Calls s (s.negConstraint (fuel + 2) c rhs ts) (fun C => Formula.negPbc C ⟨ts, c, rhs⟩) := by
  unfold FF.negConstraint Formula.negPbc
  cases c
  · simp only
    have m1 := pbc_made w (c := .lt) h hr hc
    generalize s.pbc .lt rhs ts = p1 at m1
    rcases p1 with ⟨s1, l⟩
    have m2 := pbc_made m1.wf (c := .gt) h hr hc
    simp only at m1 m2 ⊢
    generalize s1.pbc .gt rhs ts = p2 at m2
    rcases p2 with ⟨s2, g⟩
    simp only at m2 ⊢
    have hd : Dens s2 [l, g] [Formula.mkPbc .lt rhs ts, Formula.mkPbc .gt rhs ts] := by
      simp only [Dens, and_true]; exact ⟨m2.ext.den m1.den, m2.den⟩
    obtain ⟨s', r, e1, e2, e3⟩ := nary_calls m2.wf (o := .disj) fuel hd
      (fun sm => by
        simp only [List.mem_cons, List.not_mem_nil, or_false]
        rintro x (rfl | rfl)
        · exact m1.idx (sm.anti m2.ext)
        · exact m2.idx sm)
      (by
        simp only [List.mem_cons, List.not_mem_nil, or_false]
        rintro x (rfl | rfl)
        · exact m1.norm
        · exact m2.norm)
    exact ⟨s', r, e1, (m1.ext.trans m2.ext).trans e2, fun sm => (e3 sm).pre (m1.ext.trans m2.ext)⟩
  all_goals exact .of_made (pbc_made w h hr hc)

theorem mkNot_of {f : Formula} (h1 : f.isConst = false) (h2 : f.isLit = false) (h3 : f.isNot = false) : mkNot f = .not f := by
  cases f <;> simp_all [Formula.isConst, Formula.isLit, Formula.isNot, mkNot]

theorem norm_not' {f : Formula} (hn : Norm f) (h1 : f.isConst = false) (h2 : f.isLit = false) (h3 : f.isNot = false) :
    Norm (.not f) := .not hn h1 h2 h3

theorem negate_calls {s : FF} (w : s.Wf) (fuel : Nat) {h : H} {f : Formula} (v : Valid s h f) :
    Calls s (s.negate (fuel + 2) h) (fun C => mkNeg C f) := by
  obtain ⟨hd, hn, hi⟩ := v
  unfold FF.negate
  cases f with
  | tru =>
    simp only [Den] at hd; subst hd
    exact .of_made (made_self w (by simp [Den, mkNeg]) (by simp [H.falsum]) .fls)
  | fls =>
    simp only [Den] at hd; subst hd
    exact .of_made (made_self w (by simp [Den, mkNeg]) (by simp [H.verum]) .tru)
  | lit l =>
    simp only [Den] at hd; subst hd
    rw [unpack_ofLit]
    exact .of_made (made_self w (by simp [Den, mkNeg]) (by rw [ofLit_idx]; exact hi) (.lit _))
  | not f =>
    simp only [Den] at hd
    obtain ⟨g, hg, hgd⟩ := hd
    rw [hg]
    cases hn with
    | not hf _ _ _ =>
      exact .of_made (made_self w hgd (w.idxNot _ (mem_of_getElem? ((FF.unpack_not_iff w _ _).1 hg).2.2)) hf)
  | impl a b =>
    obtain ⟨x, y, hu, _⟩ : ∃ x y, s.unpack h = some (.impl x y) ∧ _ := by simpa only [Den] using hd
    rw [hu]; exact .of_made (insNot_made w hd hi (.not hn rfl rfl rfl))
  | equiv a b =>
    obtain ⟨x, y, hu, _⟩ : ∃ x y, s.unpack h = some (.equiv x y) ∧ _ := by simpa only [Den] using hd
    rw [hu]; exact .of_made (insNot_made w hd hi (.not hn rfl rfl rfl))
  | nary o fs =>
    obtain ⟨hs, hu, _⟩ : ∃ hs, s.unpack h = some (.nary o hs) ∧ _ := by simpa only [Den] using hd
    rw [hu]; exact .of_made (insNot_made w hd hi (.not hn rfl rfl rfl))
  | cc c =>
    have hu : s.unpack h = some (.cc c) := by simpa only [Den] using hd
    rw [hu]
    cases hn with
    | cc hc =>
      refine (negConstraint_calls w fuel c.cmp (Formula.rhsFits_cc _ _ hc.rhs) ?_ (by simp [I64])).congr ?_
      · have := hc.rhs; unfold I64; omega
      · intro C; simp only [mkNeg, Formula.negCc, Formula.negPbc]
  | pbc p =>
    have hu : s.unpack h = some (.pbc p) := by simpa only [Den] using hd
    rw [hu]
    have hfit : Formula.RhsFits p.rhs p.terms := hn.fits1
    cases hn with
    | pbc hp => exact negConstraint_calls w fuel p.cmp hfit hp.rhs hp.coef

theorem not_calls {s : FF} (w : s.Wf) (fuel : Nat) {h : H} {f : Formula} (v : Valid s h f) :
    Calls s (s.not (fuel + 2) h) (fun _ => mkNot f) := by
  have hneg := negate_calls w fuel v
  have ht := den_ty w v.den
  unfold FF.not
  rw [ht]
  cases f with
  | nary o fs => cases o <;> exact .of_made (insNot_made w v.den v.idx (.not v.norm rfl rfl rfl))
  | lit l => rcases l with ⟨x, p⟩; cases x <;> exact hneg
  | tru => exact hneg
  | fls => exact hneg
  | not f => exact hneg
  | _ => exact .of_made (insNot_made w v.den v.idx (.not v.norm rfl rfl rfl))

theorem valid_tru (s : FF) : Valid s H.verum .tru := ⟨by simp [Den], .tru, by simp [H.verum]⟩
theorem valid_fls (s : FF) : Valid s H.falsum .fls := ⟨by simp [Den], .fls, by simp [H.falsum]⟩

theorem Valid.made {s : FF} (w : s.Wf) {h f} (v : Valid s h f) : Made s s h f := made_self w v.den v.idx v.norm

theorem ty_tru_iff {s : FF} (w : s.Wf) {h f} (hd : Den s h f) : h.ty = .tru ↔ f = .tru := by
  rw [den_ty w hd, fty_tru]
theorem ty_fls_iff {s : FF} (w : s.Wf) {h f} (hd : Den s h f) : h.ty = .fls ↔ f = .fls := by
  rw [den_ty w hd, fty_fls]
theorem eq_iff_den {s : FF} (w : s.Wf) {x y f g} (hx : Den s x f) (hy : Den s y g) : x = y ↔ f = g :=
  ⟨fun h => by subst h; exact den_fun hx hy, fun h => by subst h; exact w.den_inj hx hy⟩

theorem negate_total {s : FF} (w : s.Wf) (fuel : Nat) {h : H} {f : Formula} (v : Valid s h f) :
    ∃ s' r, s.negate (fuel + 2) h = some (s', r) ∧ Ext s s' ∧ (SmallFF s' → MadeC s s' r (fun C => mkNeg C f)) :=
  negate_calls w fuel v

theorem implication_calls {s : FF} (w : s.Wf) (fuel : Nat) {l r : H} {f g : Formula} (vl : Valid s l f) (vr : Valid s r g) :
    Calls s (s.implication (fuel + 2) l r) (fun C => mkImpl C f g) := by
  unfold FF.implication mkImpl
  by_cases h1 : f = .tru
  · rw [if_pos ((ty_tru_iff w vl.den).2 h1)]
    exact (Calls.of_made (vr.made w)).congr fun C => by rw [if_pos h1]
  rw [if_neg (fun h => h1 ((ty_tru_iff w vl.den).1 h))]
  by_cases h2 : f = .fls ∨ g = .tru
  · rw [if_pos (by rwa [ty_fls_iff w vl.den, ty_tru_iff w vr.den])]
    exact (Calls.of_made ((valid_tru s).made w)).congr fun C => by rw [if_neg h1, if_pos h2]
  rw [if_neg (by rwa [ty_fls_iff w vl.den, ty_tru_iff w vr.den])]
  by_cases h3 : g = .fls
  · rw [if_pos ((ty_fls_iff w vr.den).2 h3)]
    exact (not_calls w fuel vl).congr fun C => by rw [if_neg h1, if_neg h2, if_pos h3]
  rw [if_neg (fun h => h3 ((ty_fls_iff w vr.den).1 h))]
  by_cases h4 : f = g
  · rw [if_pos ((eq_iff_den w vl.den vr.den).2 h4)]
    exact (Calls.of_made ((valid_tru s).made w)).congr fun C => by rw [if_neg h1, if_neg h2, if_neg h3, if_pos h4]
  rw [if_neg (fun h => h4 ((eq_iff_den w vl.den vr.den).1 h))]
  obtain ⟨s', n, e1, e2, e3⟩ := negate_calls w fuel vr
  rw [e1]
  simp only
  have hnorm : Norm (.impl f g) := by
    simp only [not_or] at h2
    exact .impl vl.norm vr.norm (Formula.isConst_of_ne h1 h2.1) (Formula.isConst_of_ne h2.2 h3) h4
  by_cases h5 : l = n
  · rw [if_pos h5]
    refine ⟨s', r, rfl, e2, fun sm => ?_⟩
    obtain ⟨k, hk, hC⟩ := e3 sm
    refine ⟨g, made_pre e2 ((vr.mono e2).made hk.wf), fun s'' w'' e'' => ?_⟩
    show (if _ then _ else _) = _
    rw [if_neg h1, if_neg h2, if_neg h3, if_neg h4, if_pos]
    rw [show mkNeg (canonOf s'') g = k from hC s'' w'' e'']
    exact (eq_iff_den hk.wf (e2.den vl.den) hk.den).1 h5
  · rw [if_neg h5]
    refine ⟨_, _, rfl, e2.trans (ext_impl s' l r), fun sm => ?_⟩
    have sm' : SmallFF s' := sm.anti (ext_impl s' l r)
    obtain ⟨k, hk, hC⟩ := e3 sm'
    refine ⟨_, made_pre e2 (insImpl_made hk.wf (e2.den vl.den) (e2.den vr.den) vl.idx vr.idx hnorm), fun s'' w'' e'' => ?_⟩
    show (if _ then _ else _) = _
    rw [if_neg h1, if_neg h2, if_neg h3, if_neg h4, if_neg]
    rw [show mkNeg (canonOf s'') g = k from hC s'' w'' ((ext_impl s' l r).trans e'')]
    exact fun h => h5 ((eq_iff_den hk.wf (e2.den vl.den) hk.den).2 h)

theorem equivalence_calls {s : FF} (w : s.Wf) (fuel : Nat) {l r : H} {f g : Formula} (vl : Valid s l f) (vr : Valid s r g) :
    Calls s (s.equivalence (fuel + 2) l r) (fun C => mkEquiv C f g) := by
  unfold FF.equivalence mkEquiv
  by_cases h1 : f = .tru
  · rw [if_pos ((ty_tru_iff w vl.den).2 h1)]
    exact (Calls.of_made (vr.made w)).congr fun C => by rw [if_pos h1]
  rw [if_neg (fun h => h1 ((ty_tru_iff w vl.den).1 h))]
  by_cases h2 : f = .fls
  · rw [if_pos ((ty_fls_iff w vl.den).2 h2)]
    exact (not_calls w fuel vr).congr fun C => by rw [if_neg h1, if_pos h2]
  rw [if_neg (fun h => h2 ((ty_fls_iff w vl.den).1 h))]
  by_cases h3 : g = .tru
  · rw [if_pos ((ty_tru_iff w vr.den).2 h3)]
    exact (Calls.of_made (vl.made w)).congr fun C => by rw [if_neg h1, if_neg h2, if_pos h3]
  rw [if_neg (fun h => h3 ((ty_tru_iff w vr.den).1 h))]
  by_cases h3' : g = .fls
  · rw [if_pos ((ty_fls_iff w vr.den).2 h3')]
    exact (not_calls w fuel vl).congr fun C => by rw [if_neg h1, if_neg h2, if_neg h3, if_pos h3']
  rw [if_neg (fun h => h3' ((ty_fls_iff w vr.den).1 h))]
  by_cases h4 : f = g
  · rw [if_pos ((eq_iff_den w vl.den vr.den).2 h4)]
    exact (Calls.of_made ((valid_tru s).made w)).congr fun C => by
      rw [if_neg h1, if_neg h2, if_neg h3, if_neg h3', if_pos h4]
  rw [if_neg (fun h => h4 ((eq_iff_den w vl.den vr.den).1 h))]
  obtain ⟨s', n, e1, e2, e3⟩ := negate_calls w fuel vr
  rw [e1]
  simp only
  have hc1 := Formula.isConst_of_ne h1 h2
  have hc2 := Formula.isConst_of_ne h3 h3'
  by_cases h5 : l = n
  · rw [if_pos h5]
    refine ⟨s', H.falsum, rfl, e2, fun sm => ?_⟩
    obtain ⟨k, hk, hC⟩ := e3 sm
    refine ⟨.fls, made_pre e2 ((valid_fls s').made hk.wf), fun s'' w'' e'' => ?_⟩
    show (if _ then _ else _) = _
    rw [if_neg h1, if_neg h2, if_neg h3, if_neg h3', if_neg h4, if_pos]
    rw [show mkNeg (canonOf s'') g = k from hC s'' w'' e'']
    exact (eq_iff_den hk.wf (e2.den vl.den) hk.den).1 h5
  · rw [if_neg h5]
    refine ⟨_, _, rfl, e2.trans (ext_equiv s' l r), fun sm => ?_⟩
    have sm' : SmallFF s' := sm.anti (ext_equiv s' l r)
    obtain ⟨k, hk, hC⟩ := e3 sm'
    have hne : ∀ s'', s''.Wf → Ext s' s'' → f ≠ mkNeg (canonOf s'') g := by
      intro s'' w'' e''
      rw [show mkNeg (canonOf s'') g = k from hC s'' w'' e'']
      exact fun h => h5 ((eq_iff_den hk.wf (e2.den vl.den) hk.den).2 h)
    rcases insEquiv_made hk.wf (e2.den vl.den) (e2.den vr.den) vl.idx vr.idx
      (.equiv vl.norm vr.norm hc1 hc2 h4) (.equiv vr.norm vl.norm hc2 hc1 (Ne.symm h4)) with hm | hm
    · refine ⟨_, made_pre e2 hm, fun s'' w'' e'' => ?_⟩
      show (if _ then _ else _) = _
      rw [if_neg h1, if_neg h2, if_neg h3, if_neg h3', if_neg h4, if_neg (hne s'' w'' ((ext_equiv s' l r).trans e'')), if_neg]
      rw [canonOf_swap_false w'' (e''.den hm.den) h4]; simp
    · refine ⟨_, made_pre e2 hm, fun s'' w'' e'' => ?_⟩
      show (if _ then _ else _) = _
      rw [if_neg h1, if_neg h2, if_neg h3, if_neg h3', if_neg h4, if_neg (hne s'' w'' ((ext_equiv s' l r).trans e'')), if_pos]
      exact canonOf_swap_true (e''.den hm.den)

end Verif
