import Verif.F.Factor
/-
Correctness of factorization: every result is equivalent (up to the auxiliary variables of encoded
constraints), in normal form, and the caches stay correct whether or not the handler aborts.
-/
namespace Verif
open ER

/-- Normal form of the factorization with outer operator `o`. -/
def NfShape : Op → Formula → Prop
  | .conj => IsCnf
  | .disj => IsDnf

theorem nfShape_iff {o f} : NfShape o f ↔ IsNf o f := by
  cases o
  · exact isNf_conj.symm
  · exact isNf_disj.symm

/-- Invariant of the factorization state. -/
structure FInv (c0 : AuxTy → Nat) (o : Op) (s : FSt) (E : List Ent) : Prop where
  w : WInv c0 s.w E
  lc : ∀ f g, s.lc f = some g → TrI (NfShape o) E s.w.cnt (It.of true f) g

/-- Outcome of a computation on it. -/
def FStep {α : Type} (c0 : AuxTy → Nat) (o : Op) (s : FSt) (E : List Ent) (Q : α → FSt → List Ent → Prop)
    (r : Option (Option α × FSt)) : Prop :=
  ∃ res s' E', r = some (res, s') ∧ FInv c0 o s' E' ∧ GExt s.w.cnt E s'.w.cnt E' ∧ ∀ a, res = some a → Q a s' E'

abbrev QTr (o : Op) (i : It) (g : Formula) (s : FSt) (E : List Ent) : Prop := TrI (NfShape o) E s.w.cnt i g

theorem FStep.pure {α : Type} {c0 o s E} {Q : α → FSt → List Ent → Prop} {a} (h : FInv c0 o s E) (hq : Q a s E) :
    FStep c0 o s E Q (FM.pure a s) :=
  ⟨_, s, E, rfl, h, GExt.refl _ _, fun b e => by injection e with e; subst e; exact hq⟩

theorem FStep.bind {α β : Type} {c0 o s E} {Q : α → FSt → List Ent → Prop} {Q' : β → FSt → List Ent → Prop} {m : FM α} {k : α → FM β}
    (h : FStep c0 o s E Q (m s))
    (hk : ∀ a s' E', FInv c0 o s' E' → GExt s.w.cnt E s'.w.cnt E' → Q a s' E' → FStep c0 o s' E' Q' (k a s')) :
    FStep c0 o s E Q' ((m.bind k) s) := by
  obtain ⟨res, s1, E1, e1, h1, x1, q1⟩ := h
  unfold FM.bind
  rw [e1]
  cases res with
  | none => exact ⟨none, s1, E1, rfl, h1, x1, fun a e => by cases e⟩
  | some a =>
    obtain ⟨res, s2, E2, e2, h2, x2, q2⟩ := hk a s1 E1 h1 x1 (q1 a rfl)
    exact ⟨res, s2, E2, e2, h2, x1.trans x2, q2⟩

theorem FStep.imp {α : Type} {c0 o s E} {Q Q' : α → FSt → List Ent → Prop} {r} (h : FStep c0 o s E Q r)
    (hq : ∀ a s' E', GExt s.w.cnt E s'.w.cnt E' → Q a s' E' → Q' a s' E') : FStep c0 o s E Q' r := by
  obtain ⟨res, s1, E1, e1, h1, x1, q1⟩ := h
  exact ⟨res, s1, E1, e1, h1, x1, fun a e => hq _ _ _ x1 (q1 a e)⟩

theorem FStep.lift {α : Type} {c0 o s E} {Q : α → FSt → List Ent → Prop} {m : LM α} (h : FInv c0 o s E)
    (hq : ∀ a, (m s.h).1 = some a → Q a { s with h := (m s.h).2 } E) : FStep c0 o s E Q (FM.lift m s) :=
  ⟨_, _, E, rfl, ⟨h.w, h.lc⟩, GExt.refl _ _, hq⟩

theorem facGet_ok {c0 o s E f g} (h : FInv c0 o s E) (e : facGet o f s = some g) : TrI (NfShape o) E s.w.cnt (It.of true f) g := by
  unfold facGet at e
  cases hl : s.lc f with
  | some g' => rw [hl] at e; injection e with e; subst e; exact h.lc f _ hl
  | none =>
    rw [hl] at e
    cases o with
    | conj => exact h.w.cnfF f g e
    | disj => exact h.w.dnfF f g e

theorem facPut_ok {c0 o s E f g} (cfg : FCfg) (h : FInv c0 o s E) (hg : TrI (NfShape o) E s.w.cnt (It.of true f) g) :
    FInv c0 o (facPut cfg o f g s) E ∧ (facPut cfg o f g s).w.cnt = s.w.cnt := by
  have hins : ∀ (m : Memo Formula), (∀ f g, m f = some g → TrI (NfShape o) E s.w.cnt (It.of true f) g) →
      ∀ f' g', m.insert f g f' = some g' → TrI (NfShape o) E s.w.cnt (It.of true f') g' := by
    intro m hm f' g' e
    rcases Memo.insert_some e with e | ⟨rfl, rfl⟩
    · exact hm f' g' e
    · exact hg
  cases o with
  | conj =>
    unfold facPut
    simp only
    split
    · exact ⟨⟨⟨h.w.base, h.w.cc, h.w.pbc, h.w.nnf, hins _ h.w.cnfF, h.w.dnfF, h.w.isNnf, h.w.isDnf, ⟨h.w.vars.cnt, h.w.vars.cc, h.w.vars.pbc⟩⟩, h.lc⟩, rfl⟩
    · exact ⟨⟨h.w, hins _ h.lc⟩, rfl⟩
  | disj =>
    have hd : g.Norm := hg.norm
    have hisd : (s.w.isDnf.insert g true).Valid fnDnf.val := h.w.isDnf.insert ((dnf_val_iff g).2 hg.shape).symm
    unfold facPut
    cases cfg.cDnf <;> cases cfg.cIsDnf <;> simp only [if_true, Bool.false_eq_true, if_false]
    · exact ⟨⟨h.w, hins _ h.lc⟩, trivial⟩
    · exact ⟨⟨⟨h.w.base, h.w.cc, h.w.pbc, h.w.nnf, h.w.cnfF, h.w.dnfF, h.w.isNnf, hisd, ⟨h.w.vars.cnt, h.w.vars.cc, h.w.vars.pbc⟩⟩, hins _ h.lc⟩, trivial⟩
    · exact ⟨⟨⟨h.w.base, h.w.cc, h.w.pbc, h.w.nnf, h.w.cnfF, hins _ h.w.dnfF, h.w.isNnf, h.w.isDnf, ⟨h.w.vars.cnt, h.w.vars.cc, h.w.vars.pbc⟩⟩, h.lc⟩, trivial⟩
    · exact ⟨⟨⟨h.w.base, h.w.cc, h.w.pbc, h.w.nnf, h.w.cnfF, hins _ h.w.dnfF, h.w.isNnf, hisd, ⟨h.w.vars.cnt, h.w.vars.cc, h.w.vars.pbc⟩⟩, h.lc⟩, trivial⟩

theorem facMemo_ok {c0 o s E f} (cfg : FCfg) {body : FM Formula} (h : FInv c0 o s E)
    (hb : FStep c0 o s E (QTr o (It.of true f)) (body s)) : FStep c0 o s E (QTr o (It.of true f)) (facMemo cfg o f body s) := by
  unfold facMemo
  cases hg : facGet o f s with
  | some g => exact ⟨some g, s, E, rfl, h, GExt.refl _ _, fun a e => by injection e with e; subst e; exact facGet_ok h hg⟩
  | none =>
    refine FStep.bind hb fun g s' E' h' x' q' => ?_
    obtain ⟨k1, k2⟩ := facPut_ok cfg h' q'
    refine ⟨some g, _, E', rfl, k1, by rw [k2]; exact GExt.refl _ _, fun a e => ?_⟩
    injection e with e; subst e
    show TrI _ _ (facPut cfg o f _ s').w.cnt _ _
    rw [k2]; exact q'

theorem nfS_mkNary (C : Canon) (o : Op) (gs : List Formula) (h : ∀ g ∈ gs, NfShape o g) : NfShape o (Formula.mkNary C o gs) :=
  nfShape_iff.2 (isNf_mkNary C gs fun g hg => nfShape_iff.1 (h g hg))

/-- The distribution loop, at the level of transformations. -/
theorem distFold_tr {C : Canon} {o E c} {is : List It} {g0 : Formula} {gs : List Formula} {h g}
    (hk : List.Forall₂ (TrI (NfShape o) E c) is (g0 :: gs)) (e : (distFold C o g0 gs h).1 = some g) :
    TrI (NfShape o) E c (It.op o.dual is) g := by
  have hr := fun g hg => forall2_right hk (b := g) hg
  have hn : ∀ x ∈ g0 :: gs, x.Norm := fun x hx => by obtain ⟨_, _, h⟩ := hr x hx; exact h.norm
  have hs : ∀ x ∈ g0 :: gs, IsNf o x := fun x hx => by obtain ⟨_, _, h⟩ := hr x hx; exact nfShape_iff.1 h.shape
  obtain ⟨k1, k2, k3, k4⟩ := distFold_ok gs g0 h g (hn _ (by simp)) (hs _ (by simp)) (fun x hx => hn x (by simp [hx]))
    (fun x hx => hs x (by simp [hx])) e
  have ht := trI_nary C (S := fun _ => True) o.dual (fun _ _ => trivial)
    (hk.imp fun i g h => (⟨h.sound, h.compl, h.plain, h.vars, trivial, h.norm, h.old, h.aux⟩ : TrI (fun _ => True) E c i g))
  have he : ∀ σ, g.eval σ = (Formula.mkNary C o.dual (g0 :: gs)).eval σ := fun σ => by rw [k1, Formula.eval_mkNary]
  refine ⟨fun σ hg => ht.sound σ (by rw [← he]; exact hg), fun σ ho hT => by rw [he]; exact ht.compl σ ho hT,
    fun hp σ hT => by rw [he]; exact ht.plain hp σ hT, fun hp v hv => ?_, nfShape_iff.2 k3, k2, fun v hv => ?_, fun v hv => ?_⟩
  · obtain ⟨x, hx, hv⟩ := k4 v hv
    obtain ⟨i, hi, hk⟩ := hr x hx
    exact ⟨i, hi, hk.vars (hp i hi) v hv⟩
  · obtain ⟨x, hx, hv⟩ := k4 v hv
    obtain ⟨i, hi, hk⟩ := hr x hx
    exact hk.old v hv
  · obtain ⟨x, hx, hv⟩ := k4 v hv
    obtain ⟨i, hi, hk⟩ := hr x hx
    exact (hk.aux v hv).imp_left fun h => ⟨i, hi, h⟩

/-- Formulas replaced by their NNF. -/
def IsOther (f : Formula) : Prop :=
  (∃ g, f = .not g) ∨ (∃ a b, f = .impl a b) ∨ (∃ a b, f = .equiv a b) ∨ IsCon f

theorem it_of_nary {o fs} : (∀ σ, (It.op o (fs.map (It.of true))).T σ ↔ (It.of true (.nary o fs)).T σ) ∧
    ((It.of true (.nary o fs)).pl → (It.op o (fs.map (It.of true))).pl) ∧
    (∀ v, (It.op o (fs.map (It.of true))).V v → (It.of true (.nary o fs)).V v) := by
  refine ⟨fun σ => ?_, fun hp i hi => ?_, fun v hv => ?_⟩
  · show _ ↔ Formula.eval σ (.nary o fs) = true
    rw [Formula.eval_nary]
    cases o with
    | conj =>
      simp only [It.op, List.mem_map, forall_exists_index, and_imp, forall_apply_eq_imp_iff₂, It.of]
      simp [Op.eval]
    | disj =>
      simp only [It.op, List.mem_map, exists_exists_and_eq_and, It.of]
      simp [Op.eval]
  · obtain ⟨f, hf, rfl⟩ := List.mem_map.1 hi
    exact noCon_of hp (by simpa [Formula.operands] using hf)
  · obtain ⟨i, hi, hv⟩ := hv
    obtain ⟨f, hf, rfl⟩ := List.mem_map.1 hi
    exact (Formula.occ_nary ..).2 ⟨f, hf, hv⟩

theorem op_or_dual (o o' : Op) (h : ¬ o' = o) : o' = o.dual := by cases o <;> cases o' <;> simp_all [Op.dual]

theorem facG_ok (C : Canon) {cfg : FCfg} {o c0 cS ES other} {P : Formula → Prop} (hP : ∀ {o fs}, P (.nary o fs) → ∀ f ∈ fs, P f)
    (hN : ∀ f, P f → f.Norm ∧ ∀ v, Occ v f → (cER cS).Old v)
    (hother : ∀ f s E, IsOther f → P f → FInv c0 o s E → GExt cS ES s.w.cnt E → FStep c0 o s E (QTr o (It.of true f)) (other f s))
    (f : Formula) : ∀ s E, P f → FInv c0 o s E → GExt cS ES s.w.cnt E →
      FStep c0 o s E (QTr o (It.of true f)) (facG C cfg o other f s) := by
  have hself : ∀ f s E, IsNf o f → P f → FInv c0 o s E → GExt cS ES s.w.cnt E →
      FStep c0 o s E (QTr o (It.of true f)) (facMemo cfg o f (.pure f) s) := fun f s E hf hp h hx =>
    facMemo_ok cfg h (FStep.pure h (trI_self (nfShape_iff.2 hf) (hN f hp).1 fun v hv => hx.old ((hN f hp).2 v hv)))
  induction f using Formula.ind with
  | tru => intro s E hp h hx; exact hself _ s E (.cl .tru) hp h hx
  | fls => intro s E hp h hx; exact hself _ s E (.cl .fls) hp h hx
  | lit l => intro s E hp h hx; exact hself _ s E (.cl (.lit l)) hp h hx
  | not f _ => intro s E hp h hx; exact facMemo_ok cfg h (hother _ s E (.inl ⟨_, rfl⟩) hp h hx)
  | impl a b _ _ => intro s E hp h hx; exact facMemo_ok cfg h (hother _ s E (.inr (.inl ⟨_, _, rfl⟩)) hp h hx)
  | equiv a b _ _ => intro s E hp h hx; exact facMemo_ok cfg h (hother _ s E (.inr (.inr (.inl ⟨_, _, rfl⟩))) hp h hx)
  | cc c => intro s E hp h hx; exact facMemo_ok cfg h (hother _ s E (.inr (.inr (.inr (.inl ⟨_, rfl⟩)))) hp h hx)
  | pbc p => intro s E hp h hx; exact facMemo_ok cfg h (hother _ s E (.inr (.inr (.inr (.inr ⟨_, rfl⟩)))) hp h hx)
  | nary o' fs ih =>
    intro s E hp h hx
    have hlist : ∀ fs : List Formula, (∀ f ∈ fs, P f) → (∀ f ∈ fs, ∀ s E, P f → FInv c0 o s E → GExt cS ES s.w.cnt E →
        FStep c0 o s E (QTr o (It.of true f)) (facG C cfg o other f s)) → ∀ s E, FInv c0 o s E → GExt cS ES s.w.cnt E →
        FStep c0 o s E (fun gs s E => List.Forall₂ (TrI (NfShape o) E s.w.cnt) (fs.map (It.of true)) gs) (facGs C cfg o other fs s) := by
      intro fs
      induction fs with
      | nil => intro _ _ s E h _; exact FStep.pure h .nil
      | cons f fs ihl =>
        intro hP ih s E h hx
        simp only [facGs]
        refine FStep.bind (ih f (by simp) s E (hP f (by simp)) h hx) fun g s1 E1 h1 x1 q1 => ?_
        refine FStep.bind (ihl (fun f hf => hP f (by simp [hf])) (fun f hf => ih f (by simp [hf])) s1 E1 h1 (hx.trans x1)) fun gs s2 E2 h2 x2 q2 => ?_
        exact FStep.pure h2 (.cons (q1.mono x2) q2)
    refine facMemo_ok cfg h ?_
    refine FStep.bind (hlist fs (hP hp) ih s E h hx) fun gs s1 E1 h1 x1 q1 => ?_
    obtain ⟨i1, i2, i3⟩ := @it_of_nary o' fs
    by_cases ho : o' = o
    · subst ho
      simp only [if_true]
      exact FStep.pure h1 ((trI_nary C o' (nfS_mkNary C o') q1).congr i1 i2 i3)
    · simp only [if_neg ho]
      have ho' := op_or_dual o o' ho
      subst ho'
      cases gs with
      | nil =>
        have hl := q1.length_eq
        have := (hN _ hp).1
        cases this with
        | nary hlen _ _ => simp at hl; simp [hl] at hlen
      | cons g gs => exact FStep.lift h1 fun a e => (distFold_tr q1 e).congr i1 i2 i3

theorem isNnf_noCon {f} (h : IsNnf f) : NoCon f := by
  intro g hs
  induction hs with
  | refl =>
    constructor
    · intro c e; subst e; cases h
    · intro p e; subst e; cases h
  | @op o' f ho _ ih =>
    refine ih ?_
    cases h with
    | nary h => exact h _ (by simpa [Formula.operands] using ho)
    | _ => simp [Formula.operands] at ho

theorem FStep.world {α : Type} {c0 o s E} {m : World → Option (α × World)} {a w' E'} (h : FInv c0 o s E)
    (e : m s.w = some (a, w')) (hw : WInv c0 w' E') (hx : GExt s.w.cnt E w'.cnt E') {Q : α → FSt → List Ent → Prop}
    (hq : Q a { s with w := w' } E') : FStep c0 o s E Q (FM.world m s) := by
  unfold FM.world
  rw [e]
  exact ⟨_, _, E', rfl, ⟨hw, fun f g hl => (h.lc f g hl).mono hx⟩, hx, fun b e => by injection e with e; subst e; exact hq⟩

theorem facOther_ok {C : Canon} {cfg : FCfg} (hcfg : cfg.cc.Good) {c0 o s E} (h : FInv c0 o s E) {f : Formula} (hp : PTop cfg s.w.cnt f) :
    FStep c0 o s E (QTr o (It.of true f)) (facOther C cfg o f s) := by
  obtain ⟨g, w', E', e, h1, x1, k1⟩ := nnf_ok (C := C) hcfg h.w hp
  unfold facOther
  refine FStep.bind (Q := fun g s E => TrI IsNnf E s.w.cnt (It.of true f) g) (FStep.world h e h1 x1 k1) fun g s1 E1 h1 x1 k1 => ?_
  refine (facG_ok C (cS := s1.w.cnt) (ES := E1) (P := fun f => f.Norm ∧ IsNnf f ∧ ∀ v, Occ v f → (cER s1.w.cnt).Old v) ?_ (fun f h => ⟨h.1, h.2.2⟩) ?_ g s1 E1
    ⟨k1.norm, k1.shape, k1.old⟩ h1 (GExt.refl _ _)).imp fun a s2 E2 x2 q2 => ?_
  · intro o fs ⟨hn, hs, ho⟩ f hf
    refine ⟨norm_operands hn f (by simpa [Formula.operands] using hf), ?_, fun v hv => ho v ((Formula.occ_nary ..).2 ⟨f, hf, hv⟩)⟩
    cases hs with
    | nary h => exact h f hf
  · intro f s E hf ⟨_, hs, _⟩
    rcases hf with ⟨_, rfl⟩ | ⟨_, _, rfl⟩ | ⟨_, _, rfl⟩ | ⟨_, rfl⟩ | ⟨_, rfl⟩ <;> cases hs
  · exact k1.trans x2 (fun _ => isNnf_noCon k1.shape) (fun hp v hv => k1.vars hp v hv) k1.aux q2

/-- Factorization never panics; an abort leaves the factory correct. -/
theorem factorize_ok {C : Canon} {cfg : FCfg} (hcfg : cfg.cc.Good) {c0 w E} (h : WInv c0 w E) {f : Formula} (hp : PTop cfg w.cnt f) (o : Op) (l : Lim) :
    ∃ res w' l' E', factorize C cfg o f l w = some (res, w', l') ∧ WInv c0 w' E' ∧ GExt w.cnt E w'.cnt E' ∧
      ∀ g, res = some g → TrI (NfShape o) E' w'.cnt (It.of true f) g := by
  have hi : FInv c0 o ⟨w, fun _ => none, l.start⟩ E := ⟨h, fun f g e => by cases e⟩
  obtain ⟨res, s', E', e, h', x', q'⟩ := facG_ok C (cfg := cfg) (other := facOther C cfg o) (P := PTop cfg w.cnt) (cS := w.cnt) (ES := E)
    (fun hp f hf => hp.op (by simpa [Formula.operands] using hf)) (fun f h => ⟨h.1, h.2.2⟩)
    (fun f s E _ hp h hx => facOther_ok hcfg h (hp.mono hx)) f _ E hp hi (GExt.refl _ _)
  unfold factorize
  rw [e]
  exact ⟨res, s'.w, s'.h, E', rfl, h'.w, x', q'⟩

/-! ### Limits -/

/-- The same handler without limits. -/
def Lim.unl (h : Lim) : Lim := { h with dl := none, cl := none }

/-- A limit has been exceeded (specification). -/
def Lim.Over (h : Lim) : Prop := (∃ l, h.dl = some l ∧ l < h.dists) ∨ ∃ l, h.cl = some l ∧ l < h.clauses

structure Lim.Le (h h' : Lim) : Prop where
  d : h.dists ≤ h'.dists
  c : h.clauses ≤ h'.clauses

structure Lim.Same (h h' : Lim) : Prop where
  d : h'.dl = h.dl
  c : h'.cl = h.cl

theorem Lim.Le.trans {a b c : Lim} (h : a.Le b) (k : b.Le c) : a.Le c := ⟨Nat.le_trans h.1 k.1, Nat.le_trans h.2 k.2⟩
theorem Lim.Same.trans {a b c : Lim} (h : a.Same b) (k : b.Same c) : a.Same c := ⟨k.1.trans h.1, k.2.trans h.2⟩
theorem Lim.unl_le {a b : Lim} : a.unl.Le b ↔ a.Le b := ⟨fun h => ⟨h.1, h.2⟩, fun h => ⟨h.1, h.2⟩⟩
theorem Lim.le_unl {a b : Lim} : a.Le b.unl ↔ a.Le b := ⟨fun h => ⟨h.1, h.2⟩, fun h => ⟨h.1, h.2⟩⟩

def FSt.unl (s : FSt) : FSt := { s with h := s.h.unl }

/-- Relation between a run with and a run without limits. -/
def FSim {α : Type} (m : FM α) : Prop :=
  ∀ s r, m s.unl = some r → ∃ a s', r = (some a, s'.unl) ∧ s.h.Le s'.h ∧ s.h.Same s'.h ∧
    ((m s = some (some a, s') ∧ (s'.h.Over → s.h.Over)) ∨ (∃ t, m s = some (none, t) ∧ t.h.Over ∧ s.h.Same t.h ∧ t.h.Le s'.h))

theorem FSim.pure {α : Type} (a : α) : FSim (FM.pure a) := by
  intro s r e
  injection e with e; subst e
  exact ⟨a, s, rfl, ⟨Nat.le_refl _, Nat.le_refl _⟩, ⟨rfl, rfl⟩, .inl ⟨rfl, id⟩⟩

theorem FSim.panic {α : Type} : FSim (FM.panic (α := α)) := by
  intro s r e; cases e

theorem FSim.bind {α β : Type} {m : FM α} {k : α → FM β} (hm : FSim m) (hk : ∀ a, FSim (k a)) : FSim (m.bind k) := by
  intro s r e
  unfold FM.bind at e ⊢
  rcases e1 : m s.unl with _ | r1
  · simp [e1] at e
  obtain ⟨a, s', rfl, l1, s1, h1⟩ := hm s r1 e1
  rw [e1] at e
  simp only at e
  obtain ⟨b, s'', rfl, l2, s2, h2⟩ := hk a s' r e
  refine ⟨b, s'', rfl, l1.trans l2, s1.trans s2, ?_⟩
  rcases h1 with ⟨h1, o1⟩ | ⟨t, h1, o1, o2, o3⟩
  · simp only [h1]
    rcases h2 with ⟨h2, o2⟩ | ⟨t, h2, o2, o3, o4⟩
    · exact .inl ⟨h2, fun h => o1 (o2 h)⟩
    · exact .inr ⟨t, h2, o2, s1.trans o3, o4⟩
  · simp only [h1]
    exact .inr ⟨t, rfl, o1, o2, o3.trans l2⟩

theorem FSim.world {α : Type} (m : World → Option (α × World)) : FSim (FM.world m) := by
  intro s r e
  unfold FM.world at e ⊢
  have : s.unl.w = s.w := rfl
  rw [this] at e
  rcases hm : m s.w with _ | ⟨a, w⟩
  · rw [hm] at e; cases e
  · rw [hm] at e
    injection e with e; subst e
    exact ⟨a, { s with w := w }, rfl, ⟨Nat.le_refl _, Nat.le_refl _⟩, ⟨rfl, rfl⟩, .inl ⟨rfl, id⟩⟩

theorem FM.lift_bind {α β : Type} (m : LM α) (k : α → LM β) : FM.lift (m.bind k) = (FM.lift m).bind fun a => FM.lift (k a) := by
  funext s
  unfold FM.lift FM.bind LM.bind
  simp only
  rcases m s.h with ⟨_ | a, h⟩ <;> rfl

theorem FSim.lift_pure {α : Type} (a : α) : FSim (FM.lift (LM.pure a)) := FSim.pure a

theorem FSim.lift_bind {α β : Type} {m : LM α} {k : α → LM β} (hm : FSim (FM.lift m)) (hk : ∀ a, FSim (FM.lift (k a))) :
    FSim (FM.lift (m.bind k)) := by
  rw [FM.lift_bind]; exact hm.bind hk

theorem above_iff {n o} : above n o = true ↔ ∃ l, o = some l ∧ l < n := by
  cases o <;> simp [above]

theorem FSim.dist : FSim (FM.lift lmDist) := by
  intro s r e
  injection e with e; subst e
  refine ⟨(), { s with h := { s.h with dists := s.h.dists + 1 } }, rfl, ⟨Nat.le_succ _, Nat.le_refl _⟩, ⟨rfl, rfl⟩, ?_⟩
  unfold FM.lift lmDist
  by_cases h : above (s.h.dists + 1) s.h.dl = true
  · refine .inr ⟨{ s with h := { s.h with dists := s.h.dists + 1 } }, by simp only [h, if_true], .inl ?_, ⟨rfl, rfl⟩, ⟨Nat.le_refl _, Nat.le_refl _⟩⟩
    exact above_iff.1 h
  · refine .inl ⟨by simp only [h]; rfl, fun ho => ?_⟩
    rcases ho with ho | ho
    · exact absurd (above_iff.2 ho) h
    · exact .inr ho

theorem FSim.clause : FSim (FM.lift lmClause) := by
  intro s r e
  injection e with e; subst e
  refine ⟨(), { s with h := { s.h with clauses := s.h.clauses + 1 } }, rfl, ⟨Nat.le_refl _, Nat.le_succ _⟩, ⟨rfl, rfl⟩, ?_⟩
  unfold FM.lift lmClause
  by_cases h : above (s.h.clauses + 1) s.h.cl = true
  · refine .inr ⟨{ s with h := { s.h with clauses := s.h.clauses + 1 } }, by simp only [h, if_true], .inr ?_, ⟨rfl, rfl⟩, ⟨Nat.le_refl _, Nat.le_refl _⟩⟩
    exact above_iff.1 h
  · refine .inl ⟨by simp only [h]; rfl, fun ho => ?_⟩
    rcases ho with ho | ho
    · exact .inl ho
    · exact absurd (above_iff.2 ho) h

theorem FSim.leaf (C : Canon) (o : Op) (x y : Formula) : FSim (FM.lift (distLeaf C o x y)) :=
  FSim.lift_bind FSim.clause fun _ => FSim.lift_pure _

theorem FSim.distRs (C : Canon) (o : Op) (y : Formula) (fs : List Formula) (ih : ∀ f ∈ fs, FSim (FM.lift (distR C o f y))) :
    FSim (FM.lift (distRs C o fs y)) := by
  induction fs with
  | nil => exact FSim.lift_pure _
  | cons f fs ihl =>
    exact FSim.lift_bind (ih f (by simp)) fun _ => FSim.lift_bind (ihl fun f hf => ih f (by simp [hf])) fun _ => FSim.lift_pure _

theorem FSim.distR (C : Canon) (o : Op) (y x : Formula) : FSim (FM.lift (distR C o x y)) := by
  induction x using Formula.ind with
  | nary o' fs ih =>
    simp only [Verif.distR]
    refine FSim.lift_bind FSim.dist fun _ => ?_
    split
    · exact FSim.lift_bind (FSim.distRs C o y fs ih) fun _ => FSim.lift_pure _
    · exact FSim.leaf _ _ _ _
  | _ => exact FSim.lift_bind FSim.dist fun _ => FSim.leaf _ _ _ _

theorem FSim.distNon (C : Canon) (o : Op) (x y : Formula) : FSim (FM.lift (distNon C o x y)) := by
  unfold Verif.distNon
  refine FSim.lift_bind FSim.dist fun _ => ?_
  split
  · split
    · exact FSim.lift_bind (FSim.distRs C o _ _ fun f _ => FSim.distR _ _ _ _) fun _ => FSim.lift_pure _
    · exact FSim.leaf _ _ _ _
  · exact FSim.leaf _ _ _ _

theorem FSim.distributes (C : Canon) (o : Op) (y : Formula) (fs : List Formula) (ih : ∀ f ∈ fs, FSim (FM.lift (distribute C o f y))) :
    FSim (FM.lift (distributes C o fs y)) := by
  induction fs with
  | nil => exact FSim.lift_pure _
  | cons f fs ihl =>
    exact FSim.lift_bind (ih f (by simp)) fun _ => FSim.lift_bind (ihl fun f hf => ih f (by simp [hf])) fun _ => FSim.lift_pure _

theorem FSim.distribute (C : Canon) (o : Op) (y x : Formula) : FSim (FM.lift (distribute C o x y)) := by
  induction x using Formula.ind with
  | nary o' fs ih =>
    simp only [Verif.distribute]
    split
    · exact FSim.lift_bind FSim.dist fun _ => FSim.lift_bind (FSim.distributes C o y fs ih) fun _ => FSim.lift_pure _
    · exact FSim.distNon _ _ _ _
  | _ => exact FSim.distNon _ _ _ _

theorem FSim.distFold (C : Canon) (o : Op) (xs : List Formula) : ∀ r, FSim (FM.lift (distFold C o r xs)) := by
  induction xs with
  | nil => intro r; exact FSim.lift_pure _
  | cons x xs ih => intro r; exact FSim.lift_bind (FSim.distribute _ _ _ _) fun r => ih r

theorem facPut_unl (cfg : FCfg) (o : Op) (f g : Formula) (s : FSt) :
    facPut cfg o f g s.unl = (facPut cfg o f g s).unl ∧ (facPut cfg o f g s).h = s.h := by
  unfold facPut
  cases o
  · cases cfg.cCnf <;> exact ⟨rfl, rfl⟩
  · cases cfg.cDnf <;> cases cfg.cIsDnf <;> exact ⟨rfl, rfl⟩

theorem FSim.memo (cfg : FCfg) (o : Op) (f : Formula) {body : FM Formula} (h : FSim body) : FSim (facMemo cfg o f body) := by
  intro s r e
  unfold facMemo at e ⊢
  have hg : facGet o f s.unl = facGet o f s := rfl
  rw [hg] at e
  cases hh : facGet o f s with
  | some g => rw [hh] at e; exact FSim.pure g s r e
  | none =>
    rw [hh] at e
    refine FSim.bind h (fun g => ?_) s r e
    intro s r e
    injection e with e; subst e
    obtain ⟨h1, h2⟩ := facPut_unl cfg o f g s
    refine ⟨g, facPut cfg o f g s, by rw [h1], ?_, ?_, .inl ⟨rfl, ?_⟩⟩ <;> rw [h2]
    · exact ⟨Nat.le_refl _, Nat.le_refl _⟩
    · exact ⟨rfl, rfl⟩
    · exact id

theorem FSim.facG (C : Canon) (cfg : FCfg) (o : Op) {other : Formula → FM Formula} (ho : ∀ f, FSim (other f)) (f : Formula) :
    FSim (facG C cfg o other f) := by
  induction f using Formula.ind with
  | tru => exact FSim.memo _ _ _ (FSim.pure _)
  | fls => exact FSim.memo _ _ _ (FSim.pure _)
  | lit l => exact FSim.memo _ _ _ (FSim.pure _)
  | nary o' fs ih =>
    have hl : FSim (facGs C cfg o other fs) := by
      clear o'
      induction fs with
      | nil => exact FSim.pure _
      | cons f fs ihl =>
        exact FSim.bind (ih f (by simp)) fun _ => FSim.bind (ihl fun f hf => ih f (by simp [hf])) fun _ => FSim.pure _
    refine FSim.memo _ _ _ (FSim.bind hl fun gs => ?_)
    split
    · exact FSim.pure _
    · cases gs with
      | nil => exact FSim.panic
      | cons g gs => exact FSim.distFold _ _ _ _
  | _ => exact FSim.memo _ _ _ (ho _)

/-- A limited run, compared with the unlimited run from the same state. -/
theorem factorize_limits {C : Canon} {cfg : FCfg} {o f l w r w' n} (hn : factorize C cfg o f Lim.nop w = some (r, w', n)) :
    ∃ g, r = some g ∧
      ((factorize C cfg o f l w = some (some g, w', { n with dl := l.dl, cl := l.cl }) ∧ ¬ Lim.Over { n with dl := l.dl, cl := l.cl }) ∨
       (∃ w'' t, factorize C cfg o f l w = some (none, w'', t) ∧ t.Over ∧ t.dl = l.dl ∧ t.cl = l.cl ∧ t.dists ≤ n.dists ∧ t.clauses ≤ n.clauses)) := by
  unfold factorize at hn ⊢
  have hs : FSim (facG C cfg o (facOther C cfg o) f) :=
    FSim.facG C cfg o (fun f => FSim.bind (FSim.world _) fun g => FSim.facG C cfg o (fun _ => FSim.panic) g) f
  rcases e : facG C cfg o (facOther C cfg o) f ⟨w, fun _ => none, Lim.nop.start⟩ with _ | ⟨r', s'⟩
  · rw [e] at hn; cases hn
  rw [e] at hn
  injection hn with hn
  injection hn with h1 hn
  injection hn with h2 h3
  subst h1; subst h2; subst h3
  obtain ⟨a, t, hr, l1, s1, h⟩ := hs ⟨w, fun _ => none, l.start⟩ (r', s') e
  injection hr with h1 h2
  subst h1; subst h2
  have hd : (⟨w, fun _ => none, l.start⟩ : FSt).h = l.start := rfl
  rw [hd] at s1 h
  have ht : ({ t.unl.h with dl := l.dl, cl := l.cl } : Lim) = t.h := by
    have h1 := s1.d; have h2 := s1.c
    rcases t with ⟨tw, tl, ⟨d, c, dl, cl⟩⟩
    simp only [Lim.start] at h1 h2
    subst h1; subst h2
    rfl
  refine ⟨a, rfl, ?_⟩
  rcases h with ⟨h1, h2⟩ | ⟨t', h1, h2, h3, h4⟩
  · refine .inl ⟨?_, ?_⟩
    · rw [h1, ht]; rfl
    · rw [ht]
      intro ho
      rcases h2 ho with ⟨k, h5, h6⟩ | ⟨k, h5, h6⟩
      · simp [Lim.start] at h6
      · simp [Lim.start] at h6
  · refine .inr ⟨t'.w, t'.h, by rw [h1], h2, h3.d, h3.c, h4.d, h4.c⟩

end Verif
