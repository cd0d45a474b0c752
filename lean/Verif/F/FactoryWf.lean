import Verif.F.FactoryLemmas

namespace Verif
open Formula (Norm mkNot mkNary mkNeg mkImpl mkEquiv)

/-! ### Specification: CNF shape -/

/-- A clause: a literal or a disjunction of literals (specification). -/
def Formula.isClauseF : Formula → Bool
  | .lit _ => true
  | .nary .disj fs => fs.all Formula.isLit
  | _ => false

/-- Conjunctive normal form (specification). -/
def Formula.isCnfF : Formula → Bool
  | .tru => true
  | .fls => true
  | .lit _ => true
  | .nary .disj fs => fs.all Formula.isLit
  | .nary .conj fs => fs.all Formula.isClauseF
  | _ => false

/-! ### Invariant of the factory -/

/-- Formula types with an entry in a table. -/
def FTy.stored : FTy → Bool
  | .tru => false
  | .fls => false
  | .lit _ _ => false
  | _ => true

/-- No table has outgrown the indices that fit in a 32-bit handle. -/
structure SmallFF (s : FF) : Prop where
  ands : s.ands.small.vec.length ≤ 2 ^ 26
  ors : s.ors.small.vec.length ≤ 2 ^ 26
  nots : s.nots.small.vec.length ≤ 2 ^ 26
  impls : s.impls.small.vec.length ≤ 2 ^ 26
  equivs : s.equivs.small.vec.length ≤ 2 ^ 26
  ccs : s.ccs.vec.length ≤ 2 ^ 26
  pbcs : s.pbcs.vec.length ≤ 2 ^ 26

/-- The tables are consistent and the 64-bit parts are unused. -/
structure FF.Tabs (s : FF) : Prop where
  vars : CInv (fun a b => a == b) (.lit true .ff) true s.vars
  nary : ∀ o, CInv setEq o.fty false (s.naryC o).small
  nots : CInv (fun a b => a == b) .not false s.nots.small
  impls : CInv (fun a b => a == b) .impl false s.impls.small
  equivs : CInv sameEquiv .equiv false s.equivs.small
  ccs : CInv (fun a b => a == b) .cc true s.ccs
  pbcs : CInv (fun a b => a == b) .pbc true s.pbcs
  bigN : ∀ o, (s.naryC o).big.vec = []
  bigNot : s.nots.big.vec = []
  bigImpl : s.impls.big.vec = []
  bigEquiv : s.equivs.big.vec = []
  idxN : ∀ o, ∀ hs ∈ (s.naryC o).small.vec, ∀ h ∈ hs, h.idx < 2 ^ 26
  idxNot : ∀ h ∈ s.nots.small.vec, h.idx < 2 ^ 26
  idxImpl : ∀ p ∈ s.impls.small.vec, p.1.idx < 2 ^ 26 ∧ p.2.idx < 2 ^ 26
  idxEquiv : ∀ p ∈ s.equivs.small.vec, p.1.idx < 2 ^ 26 ∧ p.2.idx < 2 ^ 26

/-- The invariant of the factory: in addition every entry denotes a formula in normal
shape, and the `is_cnf` cache is exact. -/
structure FF.Wf (s : FF) : Prop extends FF.Tabs s where
  ent : ∀ h n, s.unpack h = some n → h.ty.stored = true → ∃ f, Den s h f ∧ Norm f
  cnf : ∀ h o fs, Den s h (.nary o fs) → (h ∈ s.isCnf ↔ (Formula.nary o fs).isCnfF = true)
  cnfOld : ∀ h ∈ s.isCnf, ∃ n, s.unpack h = some n

namespace FF
variable {s : FF}

theorem unpack_nary_iff (w : s.Wf) (x : H) (o : Op) (hs : List H) :
    s.unpack x = some (.nary o hs) ↔ x.ty = o.fty ∧ x.large = false ∧ (s.naryC o).small.vec[x.idx]? = some hs := by
  rcases x with ⟨ty, i, lg⟩
  have b1 := w.bigN .conj
  have b2 := w.bigN .disj
  simp only [naryC] at b1 b2
  constructor
  · intro h
    unfold unpack at h
    split at h <;> rename_i hty
    case h_5 =>
      simp only at hty; subst hty
      obtain ⟨a, ha, e⟩ := Option.map_eq_some_iff.1 h
      cases e
      cases lg
      · exact ⟨rfl, rfl, by simpa [sel, naryC] using ha⟩
      · simp [sel, b1] at ha
    case h_6 =>
      simp only at hty; subst hty
      obtain ⟨a, ha, e⟩ := Option.map_eq_some_iff.1 h
      cases e
      cases lg
      · exact ⟨rfl, rfl, by simpa [sel, naryC] using ha⟩
      · simp [sel, b2] at ha
    all_goals simp at h
    all_goals split at h <;> simp at h
  · rintro ⟨h1, h2, h3⟩
    simp only at h1 h2 h3
    subst h1 h2
    cases o <;> simp only [naryC] at h3 <;> simp [unpack, Op.fty, sel, h3]

theorem unpack_not_iff (w : s.Wf) (x g : H) :
    s.unpack x = some (.not g) ↔ x.ty = .not ∧ x.large = false ∧ s.nots.small.vec[x.idx]? = some g := by
  rcases x with ⟨ty, i, lg⟩
  have b1 := w.bigNot
  constructor
  · intro h
    unfold unpack at h
    split at h <;> rename_i hty
    case h_7 =>
      simp only at hty; subst hty
      obtain ⟨a, ha, e⟩ := Option.map_eq_some_iff.1 h
      cases e
      cases lg
      · exact ⟨rfl, rfl, by simpa [sel] using ha⟩
      · simp [sel, b1] at ha
    all_goals simp at h
    all_goals split at h <;> simp at h
  · rintro ⟨h1, h2, h3⟩
    simp only at h1 h2 h3
    subst h1 h2
    simp [unpack, sel, h3]

theorem unpack_impl_iff (w : s.Wf) (x a b : H) :
    s.unpack x = some (.impl a b) ↔ x.ty = .impl ∧ x.large = false ∧ s.impls.small.vec[x.idx]? = some (a, b) := by
  rcases x with ⟨ty, i, lg⟩
  have b1 := w.bigImpl
  constructor
  · intro h
    unfold unpack at h
    split at h <;> rename_i hty
    case h_8 =>
      simp only at hty; subst hty
      obtain ⟨a, ha, e⟩ := Option.map_eq_some_iff.1 h
      cases e
      cases lg
      · exact ⟨rfl, rfl, by simpa [sel] using ha⟩
      · simp [sel, b1] at ha
    all_goals simp at h
    all_goals split at h <;> simp at h
  · rintro ⟨h1, h2, h3⟩
    simp only at h1 h2 h3
    subst h1 h2
    simp [unpack, sel, h3]

theorem unpack_equiv_iff (w : s.Wf) (x a b : H) :
    s.unpack x = some (.equiv a b) ↔ x.ty = .equiv ∧ x.large = false ∧ s.equivs.small.vec[x.idx]? = some (a, b) := by
  rcases x with ⟨ty, i, lg⟩
  have b1 := w.bigEquiv
  constructor
  · intro h
    unfold unpack at h
    split at h <;> rename_i hty
    case h_9 =>
      simp only at hty; subst hty
      obtain ⟨a, ha, e⟩ := Option.map_eq_some_iff.1 h
      cases e
      cases lg
      · exact ⟨rfl, rfl, by simpa [sel] using ha⟩
      · simp [sel, b1] at ha
    all_goals simp at h
    all_goals split at h <;> simp at h
  · rintro ⟨h1, h2, h3⟩
    simp only at h1 h2 h3
    subst h1 h2
    simp [unpack, sel, h3]

theorem unpack_cc_iff (x : H) (c : CC) :
    s.unpack x = some (.cc c) ↔ x.ty = .cc ∧ x.large = true ∧ s.ccs.vec[x.idx]? = some c := by
  rcases x with ⟨ty, i, lg⟩
  constructor
  · intro h
    unfold unpack at h
    split at h <;> rename_i hty
    case h_10 =>
      simp only at hty; subst hty
      split at h
      · rename_i hl
        obtain ⟨a, ha, e⟩ := Option.map_eq_some_iff.1 h
        cases e
        exact ⟨rfl, hl, ha⟩
      · simp at h
    all_goals simp at h
    all_goals split at h <;> simp at h
  · rintro ⟨h1, h2, h3⟩
    simp only at h1 h2 h3
    subst h1 h2
    simp [unpack, h3]

theorem unpack_pbc_iff (x : H) (c : PBC) :
    s.unpack x = some (.pbc c) ↔ x.ty = .pbc ∧ x.large = true ∧ s.pbcs.vec[x.idx]? = some c := by
  rcases x with ⟨ty, i, lg⟩
  constructor
  · intro h
    unfold unpack at h
    split at h <;> rename_i hty
    case h_11 =>
      simp only at hty; subst hty
      split at h
      · rename_i hl
        obtain ⟨a, ha, e⟩ := Option.map_eq_some_iff.1 h
        cases e
        exact ⟨rfl, hl, ha⟩
      · simp at h
    all_goals simp at h
    all_goals split at h <;> simp at h
  · rintro ⟨h1, h2, h3⟩
    simp only at h1 h2 h3
    subst h1 h2
    simp [unpack, h3]

end FF

theorem H.ext' {x y : H} (h1 : x.ty = y.ty) (h2 : x.idx = y.idx) (h3 : x.large = y.large) : x = y := by
  cases x; cases y; simp_all

/-! ### Different handles denote different trees -/

theorem dens_inj_of {s : FF} {fs : List Formula} (ih : ∀ f ∈ fs, ∀ x y, Den s x f → Den s y f → x = y) :
    ∀ hs gs, Dens s hs fs → Dens s gs fs → hs = gs := by
  induction fs with
  | nil => intro hs gs h h'; cases hs <;> cases gs <;> simp_all [Dens]
  | cons f fs ihs =>
    intro hs gs h h'
    cases hs with
    | nil => simp [Dens] at h
    | cons x hs =>
      cases gs with
      | nil => simp [Dens] at h'
      | cons g gs =>
        simp only [Dens] at h h'
        rw [ih f (by simp) x g h.1 h'.1, ihs (fun g hg => ih g (by simp [hg])) hs gs h.2 h'.2]

/-- In a well-formed factory, two handles denoting the same tree are equal. -/
theorem FF.Wf.den_inj {s : FF} (w : s.Wf) {f : Formula} : ∀ {x y : H}, Den s x f → Den s y f → x = y := by
  induction f using Formula.ind with
  | tru => intro x y h h'; simp only [Den] at h h'; rw [h, h']
  | fls => intro x y h h'; simp only [Den] at h h'; rw [h, h']
  | lit l => intro x y h h'; simp only [Den] at h h'; rw [h, h']
  | not f ih =>
    intro x y h h'; simp only [Den] at h h'
    obtain ⟨g, hg, hd⟩ := h
    obtain ⟨g', hg', hd'⟩ := h'
    obtain rfl := ih hd hd'
    obtain ⟨a1, a2, a3⟩ := (FF.unpack_not_iff w x g).1 hg
    obtain ⟨b1, b2, b3⟩ := (FF.unpack_not_iff w y g).1 hg'
    exact H.ext' (a1.trans b1.symm) (w.nots.uniq' isEqv_beq a3 b3 (by simp)) (a2.trans b2.symm)
  | impl a b iha ihb =>
    intro x y h h'; simp only [Den] at h h'
    obtain ⟨g, k, hg, hd, hk⟩ := h
    obtain ⟨g', k', hg', hd', hk'⟩ := h'
    obtain rfl := iha hd hd'
    obtain rfl := ihb hk hk'
    obtain ⟨a1, a2, a3⟩ := (FF.unpack_impl_iff w x g k).1 hg
    obtain ⟨b1, b2, b3⟩ := (FF.unpack_impl_iff w y g k).1 hg'
    exact H.ext' (a1.trans b1.symm) (w.impls.uniq' isEqv_beq a3 b3 (by simp)) (a2.trans b2.symm)
  | equiv a b iha ihb =>
    intro x y h h'; simp only [Den] at h h'
    obtain ⟨g, k, hg, hd, hk⟩ := h
    obtain ⟨g', k', hg', hd', hk'⟩ := h'
    obtain rfl := iha hd hd'
    obtain rfl := ihb hk hk'
    obtain ⟨a1, a2, a3⟩ := (FF.unpack_equiv_iff w x g k).1 hg
    obtain ⟨b1, b2, b3⟩ := (FF.unpack_equiv_iff w y g k).1 hg'
    exact H.ext' (a1.trans b1.symm) (w.equivs.uniq' isEqv_sameEquiv a3 b3 (isEqv_sameEquiv.refl _)) (a2.trans b2.symm)
  | nary o fs ih =>
    intro x y h h'; simp only [Den] at h h'
    obtain ⟨hs, hg, hd⟩ := h
    obtain ⟨hs', hg', hd'⟩ := h'
    obtain rfl := dens_inj_of (fun f hf x y h h' => ih f hf h h') hs hs' hd hd'
    obtain ⟨a1, a2, a3⟩ := (FF.unpack_nary_iff w x o hs).1 hg
    obtain ⟨b1, b2, b3⟩ := (FF.unpack_nary_iff w y o hs).1 hg'
    exact H.ext' (a1.trans b1.symm) ((w.nary o).uniq' isEqv_setEq a3 b3 (isEqv_setEq.refl _)) (a2.trans b2.symm)
  | cc c =>
    intro x y h h'; simp only [Den] at h h'
    obtain ⟨a1, a2, a3⟩ := (FF.unpack_cc_iff x c).1 h
    obtain ⟨b1, b2, b3⟩ := (FF.unpack_cc_iff y c).1 h'
    exact H.ext' (a1.trans b1.symm) (w.ccs.uniq' isEqv_beq a3 b3 (by simp)) (a2.trans b2.symm)
  | pbc c =>
    intro x y h h'; simp only [Den] at h h'
    obtain ⟨a1, a2, a3⟩ := (FF.unpack_pbc_iff x c).1 h
    obtain ⟨b1, b2, b3⟩ := (FF.unpack_pbc_iff y c).1 h'
    exact H.ext' (a1.trans b1.symm) (w.pbcs.uniq' isEqv_beq a3 b3 (by simp)) (a2.trans b2.symm)

theorem FF.Wf.dens_inj {s : FF} (w : s.Wf) {hs gs : List H} {fs : List Formula} (h : Dens s hs fs) (h' : Dens s gs fs) :
    hs = gs := dens_inj_of (fun _ _ _ _ h h' => w.den_inj h h') hs gs h h'

/-- Membership among handles is membership among trees. -/
theorem FF.Wf.mem_iff {s : FF} (w : s.Wf) {hs : List H} {fs : List Formula} {x : H} {f : Formula} (h : Dens s hs fs)
    (hx : Den s x f) : x ∈ hs ↔ f ∈ fs := by
  constructor
  · intro hm
    obtain ⟨g, hg, hd⟩ := dens_mem h x hm
    rwa [den_fun hx hd]
  · intro hm
    obtain ⟨y, hy, hd⟩ := dens_mem' h f hm
    rwa [w.den_inj hx hd]

/-- The empty factory satisfies the invariant. -/
theorem FF.wf_empty : FF.empty.Wf := by
  have hu : ∀ h, h.ty.stored = true → FF.empty.unpack h = none := by
    intro h hs
    rcases h with ⟨ty, i, lg⟩
    cases ty <;> cases lg <;> simp_all [FF.empty, FF.unpack, FF.sel, FTy.stored]
  refine { toTabs := ?tabs, ent := ?ent, cnf := ?cnf, cnfOld := by simp [FF.empty] }
  case tabs =>
    constructor
    case nary => intro o; cases o <;> exact CInv.empty
    case bigN => intro o; cases o <;> rfl
    case idxN => intro o; cases o <;> simp [FF.empty, FF.naryC]
    all_goals first | exact CInv.empty | rfl | simp [FF.empty]
  case ent => intro h n hn hs; rw [hu h hs] at hn; simp at hn
  case cnf =>
    intro h o fs hd
    simp only [Den] at hd
    obtain ⟨hs, hd, _⟩ := hd
    exfalso
    unfold FF.unpack at hd
    split at hd <;> simp [FF.empty, FF.sel] at hd

end Verif
