import Verif.F.WorldEnc
import Mathlib.Data.List.Forall2
/-
Model of src/operations/transformations/nnf/mod.rs with all caches it reads and writes, and
its correctness in every reachable state of the factory.
-/
namespace Verif
open ER

/-- `is_cnf.get(formula).is_some()`: the factory records CNFs when `and`/`or` creates an n-ary
node (formula_factory.rs:625-634, 668-677). -/
def cnfCached : Formula → Bool
  | .nary o fs => (Formula.nary o fs).isCnfF
  | _ => false

/-- nnf/mod.rs:25-36. -/
def World.nnfHit (w : World) (f : Formula) : Option Formula :=
  if w.isNnf f = some true ∨ cnfCached f = true ∨ w.isDnf f = some true then some f else w.nnf f

/-- nnf/mod.rs:101-109. -/
def World.nnfPut (cfg : FCfg) (w : World) (f g : Formula) : World :=
  if cfg.cNnf then { w with nnf := w.nnf.insert f g, isNnf := if cfg.cIsNnf then w.isNnf.insert g true else w.isNnf } else w

/-- The frame of `nnf_rec` around the case distinction. -/
def nnfMemo (cfg : FCfg) (f : Formula) (pol : Bool) (body : World → Option (Formula × World)) (w : World) : Option (Formula × World) :=
  if pol then
    match w.nnfHit f with
    | some g => some (g, w)
    | none =>
      match body w with
      | none => none
      | some (g, w) => some (g, w.nnfPut cfg f g)
  else body w

/-- `f.and(ops.map(run))` or `f.or(...)`: the operands are computed one by one inside
`filter_flatten` (formula_factory.rs:1348-1395), which stops at the first operand that decides
the result. `acc` are the operands computed so far. -/
def lazyNary (C : Canon) (o : Op) (run : Formula → World → Option (Formula × World)) :
    List Formula → List Formula → World → Option (Formula × World)
  | [], acc, w => some (Formula.mkNary C o acc, w)
  | f :: fs, acc, w =>
    match run f w with
    | none => none
    | some (g, w) =>
      if Formula.flats o (acc ++ [g]) [] = none then some (Formula.mkNary C o (acc ++ [g]), w)
      else lazyNary C o run fs (acc ++ [g]) w

/-- And becomes Or and vice versa. -/
def Op.dual : Op → Op
  | .conj => .disj
  | .disj => .conj

/-- Sequencing. -/
def andThen {α β : Type} (r : Option (α × World)) (k : α → World → Option (β × World)) : Option (β × World) :=
  match r with
  | none => none
  | some (a, w) => k a w

mutual
/-- `nnf_rec`, nnf/mod.rs:24-111; `con` is the treatment of constraints (lines 81-98).
`none` is a panic of an encoder. -/
def nnfG (C : Canon) (cfg : FCfg) (con : Formula → Bool → World → Option (Formula × World)) :
    Formula → Bool → World → Option (Formula × World)
  | .tru, pol, w => nnfMemo cfg .tru pol (fun w => some (if pol then .tru else Formula.mkNeg C .tru, w)) w
  | .fls, pol, w => nnfMemo cfg .fls pol (fun w => some (if pol then .fls else Formula.mkNeg C .fls, w)) w
  | .lit l, pol, w => nnfMemo cfg (.lit l) pol (fun w => some (if pol then .lit l else Formula.mkNeg C (.lit l), w)) w
  | .not f, pol, w => nnfMemo cfg (.not f) pol (fun w => nnfG C cfg con f (!pol) w) w
  | .nary o fs, pol, w => nnfMemo cfg (.nary o fs) pol (fun w => nnfL C cfg con (if pol then o else o.dual) pol fs [] w) w
  | .equiv a b, pol, w => nnfMemo cfg (.equiv a b) pol (fun w =>
      andThen (nnfG C cfg con a false w) fun lf w =>
      andThen (nnfG C cfg con b true w) fun rt w =>
      andThen (nnfG C cfg con a true w) fun lt w =>
      andThen (nnfG C cfg con b false w) fun rf w =>
      some (if pol then Formula.mkAnd C [Formula.mkOr C [lf, rt], Formula.mkOr C [lt, rf]]
        else Formula.mkAnd C [Formula.mkOr C [lf, rf], Formula.mkOr C [lt, rt]], w)) w
  | .impl a b, pol, w => nnfMemo cfg (.impl a b) pol (fun w =>
      andThen (nnfG C cfg con a (!pol) w) fun l w =>
      andThen (nnfG C cfg con b pol w) fun r w =>
      some (if pol then Formula.mkOr C [l, r] else Formula.mkAnd C [l, r], w)) w
  | .cc c, pol, w => nnfMemo cfg (.cc c) pol (con (.cc c) pol) w
  | .pbc p, pol, w => nnfMemo cfg (.pbc p) pol (con (.pbc p) pol) w
/-- `lazyNary` over the operands of an n-ary node. -/
def nnfL (C : Canon) (cfg : FCfg) (con : Formula → Bool → World → Option (Formula × World)) (o : Op) (pol : Bool) :
    List Formula → List Formula → World → Option (Formula × World)
  | [], acc, w => some (Formula.mkNary C o acc, w)
  | f :: fs, acc, w =>
    match nnfG C cfg con f pol w with
    | none => none
    | some (g, w) =>
      if Formula.flats o (acc ++ [g]) [] = none then some (Formula.mkNary C o (acc ++ [g]), w)
      else nnfL C cfg con o pol fs (acc ++ [g]) w
end

/-- `encode` of either kind of constraint. -/
def encodeCon (C : Canon) (cfg : FCfg) (f : Formula) (w : World) : Option (List Clause × World) :=
  match f with
  | .cc c => encodeCc cfg c w
  | .pbc p => encodePbc C cfg p w
  | _ => none

/-- nnf/mod.rs:82-86, 91-95; the encoded clauses contain no constraints. -/
def nnfCon1 (C : Canon) (cfg : FCfg) (f : Formula) (pol : Bool) (w : World) : Option (Formula × World) :=
  if pol then
    andThen (encodeCon C cfg f w) fun L w => nnfL C cfg (fun _ _ _ => none) .conj true (L.map (Formula.mkClause C)) [] w
  else none

/-- nnf/mod.rs:81-98; the negation of a constraint is made of constraints, visited with positive
polarity. -/
def nnfCon2 (C : Canon) (cfg : FCfg) (f : Formula) (pol : Bool) (w : World) : Option (Formula × World) :=
  if pol then nnfCon1 C cfg f true w else nnfG C cfg (nnfCon1 C cfg) (Formula.mkNeg C f) true w

/-- `nnf`, nnf/mod.rs:20-22. The recursion of the original through constraints has depth two;
here it is unrolled. -/
def nnf (C : Canon) (cfg : FCfg) (f : Formula) (w : World) : Option (Formula × World) := nnfG C cfg (nnfCon2 C cfg) f true w

/-! ### Specification of one step -/

/-- What a transformed formula stands for: truth conditions, whether it is constraint-free, and
its variables. -/
structure It where
  T : Asg → Prop
  pl : Prop
  V : Var → Prop

def It.op (o : Op) (its : List It) : It :=
  ⟨fun σ => match o with
    | .conj => ∀ i ∈ its, i.T σ
    | .disj => ∃ i ∈ its, i.T σ, ∀ i ∈ its, i.pl, fun v => ∃ i ∈ its, i.V v⟩

/-- A formula under a polarity. -/
def It.of (pol : Bool) (f : Formula) : It := ⟨fun σ => f.eval σ = pol, NoCon f, (Occ · f)⟩

abbrev TrI (S : Formula → Prop) (E : List Ent) (c : AuxTy → Nat) (i : It) (g : Formula) : Prop := TrOk S E c i.T i.pl i.V g

/-- Outcome of a transformation. -/
def TrStep (S : Formula → Prop) (c0 : AuxTy → Nat) (w : World) (E : List Ent) (i : It) (r : Option (Formula × World)) : Prop :=
  ∃ g w' E', r = some (g, w') ∧ WInv c0 w' E' ∧ GExt w.cnt E w'.cnt E' ∧ TrI S E' w'.cnt i g

theorem TrStep.congr {S c0 w E i i' r} (h : TrStep S c0 w E i r) (hT : ∀ σ, i.T σ ↔ i'.T σ) (hpl : i'.pl → i.pl)
    (hV : ∀ v, i.V v → i'.V v) : TrStep S c0 w E i' r := by
  obtain ⟨g, w', E', e, h1, h2, h3⟩ := h
  exact ⟨g, w', E', e, h1, h2, h3.congr hT hpl hV⟩

theorem forall2_mono {S E c E' c'} (hx : GExt c E c' E') {is gs} (h : List.Forall₂ (TrI S E c) is gs) : List.Forall₂ (TrI S E' c') is gs :=
  h.imp fun _ _ h => h.mono hx

theorem forall2_left {α β} {R : α → β → Prop} {as : List α} {bs : List β} (h : List.Forall₂ R as bs) {a} (ha : a ∈ as) : ∃ b ∈ bs, R a b := by
  induction h with
  | nil => simp at ha
  | cons h _ ih =>
    rcases List.mem_cons.1 ha with rfl | ha
    · exact ⟨_, by simp, h⟩
    · obtain ⟨b, hb, hr⟩ := ih ha; exact ⟨b, by simp [hb], hr⟩

theorem forall2_right {α β} {R : α → β → Prop} {as : List α} {bs : List β} (h : List.Forall₂ R as bs) {b} (hb : b ∈ bs) : ∃ a ∈ as, R a b := by
  induction h with
  | nil => simp at hb
  | cons h _ ih =>
    rcases List.mem_cons.1 hb with rfl | hb
    · exact ⟨_, by simp, h⟩
    · obtain ⟨a, ha, hr⟩ := ih hb; exact ⟨a, by simp [ha], hr⟩

theorem trI_nary (C : Canon) {S : Formula → Prop} {E c} (o : Op) (hS : ∀ gs, (∀ g ∈ gs, S g) → S (Formula.mkNary C o gs))
    {is gs} (h : List.Forall₂ (TrI S E c) is gs) : TrI S E c (It.op o is) (Formula.mkNary C o gs) := by
  have hl := fun i hi => forall2_left h (a := i) hi
  have hr := fun g hg => forall2_right h (b := g) hg
  refine ⟨fun σ hg => ?_, fun σ ho ht => ?_, fun hp σ ht => ?_, fun hp v hv => ?_, hS _ ?_, Formula.norm_mkNary C o ?_, fun v hv => ?_, fun v hv => ?_⟩
  · rw [Formula.eval_mkNary] at hg
    cases o with
    | conj =>
      simp only [Op.eval, List.all_eq_true] at hg
      intro i hi
      obtain ⟨g, hm, hk⟩ := hl i hi
      exact hk.sound σ (hg g hm)
    | disj =>
      simp only [Op.eval, List.any_eq_true] at hg
      obtain ⟨g, hm, he⟩ := hg
      obtain ⟨i, hi, hk⟩ := hr g hm
      exact ⟨i, hi, hk.sound σ he⟩
  · rw [Formula.eval_mkNary]
    cases o with
    | conj =>
      simp only [Op.eval, List.all_eq_true]
      intro g hm
      obtain ⟨i, hi, hk⟩ := hr g hm
      exact hk.compl σ ho (ht i hi)
    | disj =>
      simp only [Op.eval, List.any_eq_true]
      obtain ⟨i, hi, he⟩ := ht
      obtain ⟨g, hm, hk⟩ := hl i hi
      exact ⟨g, hm, hk.compl σ ho he⟩
  · rw [Formula.eval_mkNary]
    cases o with
    | conj =>
      simp only [Op.eval, List.all_eq_true]
      intro g hm
      obtain ⟨i, hi, hk⟩ := hr g hm
      exact hk.plain (hp i hi) σ (ht i hi)
    | disj =>
      simp only [Op.eval, List.any_eq_true]
      obtain ⟨i, hi, he⟩ := ht
      obtain ⟨g, hm, hk⟩ := hl i hi
      exact ⟨g, hm, hk.plain (hp i hi) σ he⟩
  · obtain ⟨g, hm, hv⟩ := Formula.occ_mkNary hv
    obtain ⟨i, hi, hk⟩ := hr g hm
    exact ⟨i, hi, hk.vars (hp i hi) v hv⟩
  · intro g hg; obtain ⟨i, _, hk⟩ := hr g hg; exact hk.shape
  · intro g hg; obtain ⟨i, _, hk⟩ := hr g hg; exact hk.norm
  · obtain ⟨g, hm, hv⟩ := Formula.occ_mkNary hv
    obtain ⟨i, hi, hk⟩ := hr g hm
    exact hk.old v hv
  · obtain ⟨g, hm, hv⟩ := Formula.occ_mkNary hv
    obtain ⟨i, hi, hk⟩ := hr g hm
    exact (hk.aux v hv).imp_left fun h => ⟨i, hi, h⟩

/-- Stopping early is harmless: the operands seen so far decide the result. -/
theorem trI_prefix (C : Canon) {S : Formula → Prop} {E c} (o : Op) (hS : ∀ gs, (∀ g ∈ gs, S g) → S (Formula.mkNary C o gs))
    {is gs more} (h : List.Forall₂ (TrI S E c) is gs) (hab : Formula.flats o gs [] = none) :
    TrI S E c (It.op o (is ++ more)) (Formula.mkNary C o gs) := by
  have hk := trI_nary C o hS h
  have hg : Formula.mkNary C o gs = Formula.absorbing o := by simp [Formula.mkNary, hab, Formula.finish]
  have hT : ∀ σ, (It.op o (is ++ more)).T σ → (Formula.mkNary C o gs).eval σ = true → (It.op o is).T σ := by
    intro σ ht he
    exact hk.sound σ he
  refine ⟨fun σ he => ?_, fun σ ho ht => ?_, fun hp σ ht => ?_, fun hp v hv => ?_, hk.shape, hk.norm, hk.old,
    fun v hv => by rw [hg] at hv; cases o <;> simp [Formula.absorbing] at hv⟩
  · cases o with
    | conj => rw [hg] at he; simp [Formula.absorbing] at he
    | disj =>
      obtain ⟨i, hi, hh⟩ := hk.sound σ he
      exact ⟨i, by simp [hi], hh⟩
  · cases o with
    | conj => exact hk.compl σ ho fun i hi => ht i (by simp [hi])
    | disj => rw [hg]; simp [Formula.absorbing]
  · cases o with
    | conj => exact hk.plain (fun i hi => hp i (by simp [hi])) σ fun i hi => ht i (by simp [hi])
    | disj => rw [hg]; simp [Formula.absorbing]
  · rw [hg] at hv
    cases o <;> simp [Formula.absorbing] at hv

theorem lazyNary_ok (C : Canon) {S : Formula → Prop} {c0 cS ES} (o : Op) (hS : ∀ gs, (∀ g ∈ gs, S g) → S (Formula.mkNary C o gs))
    {run : Formula → World → Option (Formula × World)} {it : Formula → It} (fs : List Formula)
    (hrun : ∀ f ∈ fs, ∀ w E, WInv c0 w E → GExt cS ES w.cnt E → TrStep S c0 w E (it f) (run f w)) :
    ∀ acc is w E, WInv c0 w E → GExt cS ES w.cnt E → List.Forall₂ (TrI S E w.cnt) is acc →
      TrStep S c0 w E (It.op o (is ++ fs.map it)) (lazyNary C o run fs acc w) := by
  induction fs with
  | nil =>
    intro acc is w E h hx ha
    simp only [List.map_nil, List.append_nil, lazyNary]
    exact ⟨_, w, E, rfl, h, GExt.refl _ _, trI_nary C o hS ha⟩
  | cons f fs ih =>
    intro acc is w E h hx ha
    obtain ⟨g, w1, E1, e1, h1, x1, k1⟩ := hrun f (by simp) w E h hx
    have ha1 : List.Forall₂ (TrI S E1 w1.cnt) (is ++ [it f]) (acc ++ [g]) := List.rel_append (forall2_mono x1 ha) (.cons k1 .nil)
    simp only [lazyNary, e1]
    have hsp : is ++ List.map it (f :: fs) = (is ++ [it f]) ++ fs.map it := by simp
    rw [hsp]
    split
    · rename_i hab
      exact ⟨_, w1, E1, rfl, h1, x1, trI_prefix C o hS ha1 hab⟩
    · obtain ⟨g2, w2, E2, e2, h2, x2, k2⟩ := ih (fun f hf => hrun f (by simp [hf])) (acc ++ [g]) (is ++ [it f]) w1 E1 h1 (hx.trans x1) ha1
      exact ⟨g2, w2, E2, e2, h2, x1.trans x2, k2⟩

theorem nnfL_eq (C : Canon) (cfg : FCfg) (con o pol) (fs : List Formula) :
    ∀ acc w, nnfL C cfg con o pol fs acc w = lazyNary C o (fun f w => nnfG C cfg con f pol w) fs acc w := by
  induction fs with
  | nil => intro acc w; simp [nnfL, lazyNary]
  | cons f fs ih =>
    intro acc w
    simp only [nnfL, lazyNary]
    cases nnfG C cfg con f pol w with
    | none => rfl
    | some r => simp only [ih]

/-! ### The caches -/

theorem dnf_val_iff (f : Formula) : fnDnf.val f = true ↔ IsDnf f := by
  rw [← C16_is_dnf (on := false) .empty f, (fnDnf.run_ok false f _ (Fn.Reach.empty (F := fnDnf) (on := false)).valid).1]

theorem nnf_val_iff (f : Formula) : fnNnf.val f = true ↔ IsNnf f := by
  rw [← C16_is_nnf (on := false) .empty f, (fnNnf.run_ok false f _ (Fn.Reach.empty (F := fnNnf) (on := false)).valid).1]

theorem IsClause.nnf {f} (h : IsClause f) : IsNnf f := by
  cases h with
  | tru => exact .tru
  | fls => exact .fls
  | lit l => exact .lit l
  | or h => exact .nary fun g hg => by obtain ⟨l, rfl⟩ := h g hg; exact .lit l

theorem IsCnf.nnf {f} (h : IsCnf f) : IsNnf f := by
  cases h with
  | clause h => exact h.nnf
  | and h => exact .nary fun g hg => (h g hg).nnf

theorem IsTerm.nnf {f} (h : IsTerm f) : IsNnf f := by
  cases h with
  | tru => exact .tru
  | fls => exact .fls
  | lit l => exact .lit l
  | and h => exact .nary fun g hg => by obtain ⟨l, rfl⟩ := h g hg; exact .lit l

theorem IsDnf.nnf {f} (h : IsDnf f) : IsNnf f := by
  cases h with
  | term h => exact h.nnf
  | or h => exact .nary fun g hg => (h g hg).nnf

theorem IsNnf.mkNary (C : Canon) (o) (gs) (h : ∀ g ∈ gs, IsNnf g) : IsNnf (Formula.mkNary C o gs) :=
  Formula.mkNary_closed C o .tru .fls (fun _ h => .nary h) (fun l h f hf => by cases h with | nary h => exact h f hf) h

theorem trI_self {S E c} {f : Formula} (hS : S f) (hn : f.Norm) (ho : ∀ v, Occ v f → (cER c).Old v) : TrI S E c (It.of true f) f :=
  ⟨fun _ h => h, fun _ _ h => h, fun _ _ h => h, fun _ _ h => h, hS, hn, ho, fun _ h => .inl h⟩

theorem nnfHit_ok {c0 w E f g} (h : WInv c0 w E) (hn : f.Norm) (ho : ∀ v, Occ v f → (cER w.cnt).Old v) (e : w.nnfHit f = some g) :
    TrI IsNnf E w.cnt (It.of true f) g := by
  unfold World.nnfHit at e
  split at e
  · rename_i hh
    injection e with e; subst e
    refine trI_self ?_ hn ho
    rcases hh with hh | hh | hh
    · exact (nnf_val_iff f).1 (h.isNnf f true hh).symm
    · cases f with
      | nary o fs => exact ((isCnfF_iff hn).1 hh).nnf
      | _ => simp [cnfCached] at hh
    · exact ((dnf_val_iff f).1 (h.isDnf f true hh).symm).nnf
  · exact (h.nnf f g e).1

theorem Memo.insert_some {α} {m : Memo α} {f g : Formula} {a b : α} (h : m.insert f a g = some b) : m g = some b ∨ (g = f ∧ b = a) := by
  unfold Memo.insert at h
  split at h
  · rename_i e
    subst e
    cases hm : m g with
    | none => simp [hm] at h; exact .inr ⟨rfl, h.symm⟩
    | some z => simp [hm] at h; exact .inl (by rw [h])
  · exact .inl h

theorem nnfPut_ok {c0 w E f g} (cfg : FCfg) (h : WInv c0 w E) (hg : TrI IsNnf E w.cnt (It.of true f) g) (hl : leafF f = true → g = f) :
    WInv c0 (w.nnfPut cfg f g) E ∧ (w.nnfPut cfg f g).cnt = w.cnt := by
  unfold World.nnfPut
  split
  · refine ⟨⟨h.base, h.cc, h.pbc, fun f' g' e => ?_, h.cnfF, h.dnfF, ?_, h.isDnf, ⟨h.vars.cnt, h.vars.cc, h.vars.pbc⟩⟩, rfl⟩
    · rcases Memo.insert_some e with e | ⟨rfl, rfl⟩
      · exact h.nnf f' g' e
      · exact ⟨hg, hl⟩
    · show Memo.Valid fnNnf.val (if cfg.cIsNnf = true then w.isNnf.insert g true else w.isNnf)
      split
      · exact h.isNnf.insert ((nnf_val_iff g).2 hg.shape).symm
      · exact h.isNnf
  · exact ⟨h, rfl⟩

theorem nnfMemo_ok {c0 w E f} (cfg : FCfg) (h : WInv c0 w E) (hn : f.Norm) (ho : ∀ v, Occ v f → (cER w.cnt).Old v) {pol body}
    (hb : TrStep IsNnf c0 w E (It.of pol f) (body w)) (hl : pol = true → leafF f = true → ∀ g w', body w = some (g, w') → g = f := by intro _ h; cases h) :
    TrStep IsNnf c0 w E (It.of pol f) (nnfMemo cfg f pol body w) := by
  unfold nnfMemo
  cases pol with
  | false => simpa using hb
  | true =>
    simp only [if_true]
    cases hh : w.nnfHit f with
    | some g => exact ⟨g, w, E, rfl, h, GExt.refl _ _, nnfHit_ok h hn ho hh⟩
    | none =>
      obtain ⟨g, w', E', e, h1, x1, k1⟩ := hb
      obtain ⟨h2, ec⟩ := nnfPut_ok cfg h1 k1 fun hf => hl rfl hf g w' e
      simp only [e]
      exact ⟨g, _, E', rfl, h2, by rw [ec]; exact x1, by rw [ec]; exact k1⟩

/-! ### The recursion -/

/-- A property of (formula, polarity) that is passed on to the operands. -/
structure PolClosed (P : Formula → Bool → Prop) : Prop where
  not : ∀ {f pol}, P (.not f) pol → P f (!pol)
  nary : ∀ {o fs pol}, P (.nary o fs) pol → ∀ f ∈ fs, P f pol
  impl : ∀ {a b pol}, P (.impl a b) pol → ∀ p, P a p ∧ P b p
  equiv : ∀ {a b pol}, P (.equiv a b) pol → ∀ p, P a p ∧ P b p

def IsCon (f : Formula) : Prop := (∃ c, f = .cc c) ∨ ∃ p, f = .pbc p

theorem step_bind {S c0 w E} {i j : It} {r : Option (Formula × World)} {k : Formula → World → Option (Formula × World)}
    (h : TrStep S c0 w E i r)
    (hk : ∀ g w' E', WInv c0 w' E' → GExt w.cnt E w'.cnt E' → TrI S E' w'.cnt i g → TrStep S c0 w' E' j (k g w')) :
    TrStep S c0 w E j (andThen r k) := by
  obtain ⟨g, w1, E1, rfl, h1, x1, k1⟩ := h
  obtain ⟨g2, w2, E2, e2, h2, x2, k2⟩ := hk g w1 E1 h1 x1 k1
  exact ⟨g2, w2, E2, e2, h2, x1.trans x2, k2⟩

theorem noCon_of {f g : Formula} (h : NoCon f) (hs : g ∈ f.operands) : NoCon g :=
  h.sub ((sub_operands).2 (.inr ⟨g, hs, .refl _⟩))

theorem nnfG_ok (C : Canon) {cfg : FCfg} {c0 cS ES con} {P : Formula → Bool → Prop} (hP : PolClosed P)
    (hN : ∀ f pol, P f pol → f.Norm ∧ ∀ v, Occ v f → (cER cS).Old v)
    (hcon : ∀ f pol w E, IsCon f → P f pol → WInv c0 w E → GExt cS ES w.cnt E → TrStep IsNnf c0 w E (It.of pol f) (con f pol w))
    (f : Formula) : ∀ pol w E, P f pol → WInv c0 w E → GExt cS ES w.cnt E →
      TrStep IsNnf c0 w E (It.of pol f) (nnfG C cfg con f pol w) := by
  have hS : ∀ o gs, (∀ g ∈ gs, IsNnf g) → IsNnf (Formula.mkNary C o gs) := fun o gs => IsNnf.mkNary C o gs
  induction f using Formula.ind with
  | tru =>
    intro pol w E hp h hx
    simp only [nnfG]
    refine nnfMemo_ok cfg h (hN _ _ hp).1 (fun v hv => hx.old ((hN _ _ hp).2 v hv)) ?_ (by rintro rfl _ g w' e; injection e with e; injection e with e _; exact e.symm)
    cases pol
    · exact ⟨.fls, w, E, rfl, h, GExt.refl _ _, by simp [It.of], by simp [It.of], by simp [It.of], by simp, .fls, .fls, by simp, by simp⟩
    · exact ⟨.tru, w, E, rfl, h, GExt.refl _ _, by simp [It.of], by simp [It.of], by simp [It.of], by simp, .tru, .tru, by simp, by simp⟩
  | fls =>
    intro pol w E hp h hx
    simp only [nnfG]
    refine nnfMemo_ok cfg h (hN _ _ hp).1 (fun v hv => hx.old ((hN _ _ hp).2 v hv)) ?_ (by rintro rfl _ g w' e; injection e with e; injection e with e _; exact e.symm)
    cases pol
    · exact ⟨.tru, w, E, rfl, h, GExt.refl _ _, by simp [It.of], by simp [It.of], by simp [It.of], by simp, .tru, .tru, by simp, by simp⟩
    · exact ⟨.fls, w, E, rfl, h, GExt.refl _ _, by simp [It.of], by simp [It.of], by simp [It.of], by simp, .fls, .fls, by simp, by simp⟩
  | lit l =>
    intro pol w E hp h hx
    have hl : (cER w.cnt).Old l.v := hx.old ((hN _ _ hp).2 _ (by simp))
    simp only [nnfG]
    refine nnfMemo_ok cfg h (hN _ _ hp).1 (fun v hv => hx.old ((hN _ _ hp).2 v hv)) ?_ (by rintro rfl _ g w' e; injection e with e; injection e with e _; exact e.symm)
    cases pol
    · exact ⟨.lit l.neg, w, E, rfl, h, GExt.refl _ _, by simp [It.of], by simp [It.of], by simp [It.of], by simp [It.of], .lit _, .lit _,
        by simpa using hl, by simp [It.of]⟩
    · exact ⟨.lit l, w, E, rfl, h, GExt.refl _ _, by simp [It.of], by simp [It.of], by simp [It.of], by simp [It.of], .lit _, .lit _,
        by simpa using hl, by simp [It.of]⟩
  | not f ih =>
    intro pol w E hp h hx
    simp only [nnfG]
    refine nnfMemo_ok cfg h (hN _ _ hp).1 (fun v hv => hx.old ((hN _ _ hp).2 v hv)) ?_
    refine (ih (!pol) w E (hP.not hp) h hx).congr (fun σ => ?_) (fun hc => ?_) (fun v hv => ?_)
    · simp only [It.of, Formula.eval_not]; cases f.eval σ <;> cases pol <;> simp
    · exact noCon_of hc (by simp [Formula.operands])
    · simpa [It.of] using hv
  | nary o fs ih =>
    intro pol w E hp h hx
    simp only [nnfG]
    refine nnfMemo_ok cfg h (hN _ _ hp).1 (fun v hv => hx.old ((hN _ _ hp).2 v hv)) ?_
    rw [nnfL_eq]
    have := lazyNary_ok C (S := IsNnf) (c0 := c0) (cS := cS) (ES := ES) (if pol then o else o.dual) (hS _) (it := It.of pol)
      (run := fun f w => nnfG C cfg con f pol w) fs
      (fun f hf w E hw hx => ih f hf pol w E (hP.nary hp f hf) hw hx) [] [] w E h hx .nil
    refine this.congr (fun σ => ?_) (fun hc => ?_) (fun v hv => ?_)
    · cases o <;> cases pol <;> simp [It.op, It.of, Op.dual]
    · intro i hi
      simp only [List.nil_append, List.mem_map] at hi
      obtain ⟨f, hf, rfl⟩ := hi
      exact noCon_of hc (by simpa [Formula.operands] using hf)
    · obtain ⟨i, hi, hv⟩ := hv
      simp only [List.nil_append, List.mem_map] at hi
      obtain ⟨f, hf, rfl⟩ := hi
      simp only [It.of, Formula.occ_nary]
      exact ⟨f, hf, hv⟩
  | impl a b iha ihb =>
    intro pol w E hp h hx
    simp only [nnfG]
    refine nnfMemo_ok cfg h (hN _ _ hp).1 (fun v hv => hx.old ((hN _ _ hp).2 v hv)) ?_
    refine step_bind (iha (!pol) w E (hP.impl hp _).1 h hx) fun l w1 E1 h1 x1 k1 => ?_
    refine step_bind (ihb pol w1 E1 (hP.impl hp _).2 h1 (hx.trans x1)) fun r w2 E2 h2 x2 k2 => ?_
    have hf : List.Forall₂ (TrI IsNnf E2 w2.cnt) [It.of (!pol) a, It.of pol b] [l, r] := .cons (k1.mono x2) (.cons k2 .nil)
    refine ⟨_, w2, E2, rfl, h2, GExt.refl _ _, ?_⟩
    have hpl : NoCon (.impl a b) → NoCon a ∧ NoCon b := fun hc =>
      ⟨noCon_of hc (by simp [Formula.operands]), noCon_of hc (by simp [Formula.operands])⟩
    cases pol
    · refine (trI_nary C .conj (hS _) hf).congr (fun σ => ?_) (fun hc => ?_) (fun v hv => ?_)
      · simp only [It.op, It.of, List.mem_cons, List.not_mem_nil, or_false, forall_eq_or_imp, forall_eq, Formula.eval_impl]
        cases a.eval σ <;> cases b.eval σ <;> simp
      · simpa [It.op, It.of] using hpl hc
      · simpa [It.op, It.of] using hv
    · refine (trI_nary C .disj (hS _) hf).congr (fun σ => ?_) (fun hc => ?_) (fun v hv => ?_)
      · simp only [It.op, It.of, List.mem_cons, List.not_mem_nil, or_false, exists_eq_or_imp, exists_eq_left, Formula.eval_impl]
        cases a.eval σ <;> cases b.eval σ <;> simp
      · simpa [It.op, It.of] using hpl hc
      · simpa [It.op, It.of] using hv
  | equiv a b iha ihb =>
    intro pol w E hp h hx
    simp only [nnfG]
    refine nnfMemo_ok cfg h (hN _ _ hp).1 (fun v hv => hx.old ((hN _ _ hp).2 v hv)) ?_
    refine step_bind (iha false w E (hP.equiv hp _).1 h hx) fun lf w1 E1 h1 x1 k1 => ?_
    refine step_bind (ihb true w1 E1 (hP.equiv hp _).2 h1 (hx.trans x1)) fun rt w2 E2 h2 x2 k2 => ?_
    refine step_bind (iha true w2 E2 (hP.equiv hp _).1 h2 (hx.trans (x1.trans x2))) fun lt w3 E3 h3 x3 k3 => ?_
    refine step_bind (ihb false w3 E3 (hP.equiv hp _).2 h3 (hx.trans (x1.trans (x2.trans x3)))) fun rf w4 E4 h4 x4 k4 => ?_
    have k1 := k1.mono (x2.trans (x3.trans x4))
    have k2 := k2.mono (x3.trans x4)
    have k3 := k3.mono x4
    refine ⟨_, w4, E4, rfl, h4, GExt.refl _ _, ?_⟩
    have hpl : NoCon (.equiv a b) → NoCon a ∧ NoCon b := fun hc =>
      ⟨noCon_of hc (by simp [Formula.operands]), noCon_of hc (by simp [Formula.operands])⟩
    cases pol
    · have f1 := trI_nary C .disj (hS _) (.cons k1 (.cons k4 .nil))
      have f2 := trI_nary C .disj (hS _) (.cons k3 (.cons k2 .nil))
      refine (trI_nary C .conj (hS _) (.cons f1 (.cons f2 .nil))).congr (fun σ => ?_) (fun hc => ?_) (fun v hv => ?_)
      · simp only [It.op, It.of, List.mem_cons, List.not_mem_nil, or_false, forall_eq_or_imp, forall_eq, exists_eq_or_imp, exists_eq_left, Formula.eval_equiv]
        cases a.eval σ <;> cases b.eval σ <;> simp
      · simpa [It.op, It.of] using hpl hc
      · simpa [It.op, It.of] using hv
    · have f1 := trI_nary C .disj (hS _) (.cons k1 (.cons k2 .nil))
      have f2 := trI_nary C .disj (hS _) (.cons k3 (.cons k4 .nil))
      refine (trI_nary C .conj (hS _) (.cons f1 (.cons f2 .nil))).congr (fun σ => ?_) (fun hc => ?_) (fun v hv => ?_)
      · simp only [It.op, It.of, List.mem_cons, List.not_mem_nil, or_false, forall_eq_or_imp, forall_eq, exists_eq_or_imp, exists_eq_left, Formula.eval_equiv]
        cases a.eval σ <;> cases b.eval σ <;> simp
      · simpa [It.op, It.of] using hpl hc
      · simpa [It.op, It.of] using hv
  | cc c =>
    intro pol w E hp h hx
    simp only [nnfG]
    exact nnfMemo_ok cfg h (hN _ _ hp).1 (fun v hv => hx.old ((hN _ _ hp).2 v hv)) (hcon _ _ _ _ (.inl ⟨c, rfl⟩) hp h hx)
  | pbc p =>
    intro pol w E hp h hx
    simp only [nnfG]
    exact nnfMemo_ok cfg h (hN _ _ hp).1 (fun v hv => hx.old ((hN _ _ hp).2 v hv)) (hcon _ _ _ _ (.inr ⟨p, rfl⟩) hp h hx)

/-! ### Constraints -/

/-- What level two of the recursion needs. -/
def PTop (cfg : FCfg) (c : AuxTy → Nat) (f : Formula) : Prop := f.Norm ∧ Fit cfg f ∧ ∀ v, Occ v f → (cER c).Old v

theorem op_sub {f g : Formula} (hs : g ∈ f.operands) : Sub g f := (sub_operands).2 (.inr ⟨g, hs, .refl _⟩)

theorem PTop.op {cfg c f g} (h : PTop cfg c f) (hs : g ∈ f.operands) : PTop cfg c g :=
  ⟨norm_operands h.1 g hs, h.2.1.sub (op_sub hs), fun v hv => h.2.2 v (hv.sub (op_sub hs))⟩

theorem PTop.closed (cfg c) : PolClosed fun f _ => PTop cfg c f where
  not h := h.op (by simp [Formula.operands])
  nary h f hf := h.op (by simpa [Formula.operands] using hf)
  impl h _ := ⟨h.op (by simp [Formula.operands]), h.op (by simp [Formula.operands])⟩
  equiv h _ := ⟨h.op (by simp [Formula.operands]), h.op (by simp [Formula.operands])⟩

theorem encodeCon_ok {C : Canon} {cfg : FCfg} (hcfg : cfg.cc.Good) {c0 w E} (h : WInv c0 w E) {f : Formula} (hc : IsCon f) (hp : PTop cfg w.cnt f) :
    EncStep c0 w E (fun σ => f.eval σ = true) (encodeCon C cfg f w) := by
  obtain ⟨hn, hf, ho⟩ := hp
  rcases hc with ⟨c, rfl⟩ | ⟨p, rfl⟩
  · have ft := hf.cc c (.refl _)
    cases hn with
    | cc hok =>
      refine (encodeCc_ok hcfg h hok ?_ ?_ ?_).congr fun σ => by simp
      · simpa [CC.terms] using ft.len
      · intro hn; simpa [CC.terms, List.map_map, Function.comp_def] using ft.nodup hn
      · intro v hv; exact ho v ((Formula.occ_cc ..).2 hv)
  · have ft := hf.pbc p (.refl _)
    refine (encodePbc_ok hcfg h ft.len ft.sum ?_).congr fun σ => by simp
    intro t ht; exact ho _ ((Formula.occ_pbc ..).2 ⟨t, ht, rfl⟩)

theorem encodeCon_vars {C : Canon} {cfg : FCfg} {f : Formula} {c0 : AuxTy → Nat} {w w' : World} {L : List Clause} (h : VarsInv c0 w)
    (e : encodeCon C cfg f w = some (L, w')) : ∀ c ∈ L, ∀ l ∈ c, Occ l.v f ∨ ∃ t k, l.v = .aux t k := by
  have ha : ∀ v, EncAux c0 v → ∃ t k, v = .aux t k := by
    rintro v (⟨k, _, rfl⟩ | ⟨k, _, rfl⟩ | rfl) <;> exact ⟨_, _, rfl⟩
  intro c hc l hl
  cases f with
  | cc k => exact ((encodeCc_vars h e).2 c hc l hl).imp (Formula.occ_cc ..).2 (ha _)
  | pbc p => exact ((encodePbc_vars h e).2 c hc l hl).imp (Formula.occ_pbc ..).2 (ha _)
  | _ => simp [encodeCon] at e

theorem sub_nary {g o l} (h : Sub g (.nary o l)) : g = .nary o l ∨ ∃ f ∈ l, Sub g f := by
  rcases sub_operands.1 h with h | ⟨f, hf, h⟩
  · exact .inl h
  · exact .inr ⟨f, by simpa [Formula.operands] using hf, h⟩

theorem NoCon.mkNary {C : Canon} {o fs} (h : ∀ f ∈ fs, NoCon f) : NoCon (Formula.mkNary C o fs) := by
  have hc : ∀ f : Formula, f.operands = [] → ¬ IsCon f → NoCon f := by
    intro f h1 h2 g hg
    rcases sub_operands.1 hg with rfl | ⟨_, h, _⟩
    · exact ⟨fun c e => h2 (.inl ⟨c, e⟩), fun p e => h2 (.inr ⟨p, e⟩)⟩
    · simp [h1] at h
  refine Formula.mkNary_closed C o (hc _ rfl (by simp [IsCon])) (hc _ rfl (by simp [IsCon])) (fun l hl g hg => ?_) (fun l hl f hf => ?_) h
  · rcases sub_nary hg with rfl | ⟨f, hf, hs⟩
    · exact ⟨fun c => by simp, fun p => by simp⟩
    · exact hl f hf g hs
  · exact noCon_of hl (by simpa [Formula.operands] using hf)

theorem noCon_lit (l : Lit) : NoCon (.lit l) := by
  intro g hg
  rcases sub_operands.1 hg with rfl | ⟨_, h, _⟩
  · exact ⟨fun c => by simp, fun p => by simp⟩
  · simp [Formula.operands] at h

theorem Fit.mkNary {C : Canon} {cfg o fs} (h : ∀ f ∈ fs, Fit cfg f) : Fit cfg (Formula.mkNary C o fs) := by
  have hc : ∀ f : Formula, f.operands = [] → ¬ IsCon f → Fit cfg f := by
    intro f h1 h2
    constructor
    · intro c hg
      rcases sub_operands.1 hg with h | ⟨_, h, _⟩
      · exact absurd (.inl ⟨c, h.symm⟩) h2
      · simp [h1] at h
    · intro p hg
      rcases sub_operands.1 hg with h | ⟨_, h, _⟩
      · exact absurd (.inr ⟨p, h.symm⟩) h2
      · simp [h1] at h
  refine Formula.mkNary_closed C o (hc _ rfl (by simp [IsCon])) (hc _ rfl (by simp [IsCon])) (fun l hl => ⟨fun c hg => ?_, fun p hg => ?_⟩) (fun l hl f hf => ?_) h
  · rcases sub_nary hg with h | ⟨f, hf, hs⟩
    · cases h
    · exact (hl f hf).cc c hs
  · rcases sub_nary hg with h | ⟨f, hf, hs⟩
    · cases h
    · exact (hl f hf).pbc p hs
  · exact hl.sub (op_sub (by simpa [Formula.operands] using hf))

/-- Constants, constraints and connections of those. -/
def Flat1 (f : Formula) : Prop := ∀ g, Sub g f → g.isConst = true ∨ IsCon g ∨ ∃ o fs, g = .nary o fs

theorem Flat1.leaf {f : Formula} (h1 : f.operands = []) (h2 : f.isConst = true ∨ IsCon f) : Flat1 f := by
  intro g hg
  rcases sub_operands.1 hg with rfl | ⟨_, h, _⟩
  · rcases h2 with h | h
    · exact .inl h
    · exact .inr (.inl h)
  · simp [h1] at h

theorem Flat1.mkNary {C : Canon} {o fs} (h : ∀ f ∈ fs, Flat1 f) : Flat1 (Formula.mkNary C o fs) := by
  refine Formula.mkNary_closed C o (.leaf rfl (.inl rfl)) (.leaf rfl (.inl rfl)) (fun l hl g hg => ?_) (fun l hl f hf g hg => ?_) h
  · rcases sub_nary hg with rfl | ⟨f, hf, hs⟩
    · exact .inr (.inr ⟨o, l, rfl⟩)
    · exact hl f hf g hs
  · exact hl g (hg.trans (op_sub (by simpa [Formula.operands] using hf)))

theorem fit_leaf_cc {cfg : FCfg} {c : CC} (h : TFit cfg c.terms c.rhs) : Fit cfg (.cc c) := by
  constructor
  · intro d hg
    rcases sub_operands.1 hg with h' | ⟨_, h', _⟩
    · cases h'; exact h
    · simp [Formula.operands] at h'
  · intro p hg
    rcases sub_operands.1 hg with h' | ⟨_, h', _⟩
    · cases h'
    · simp [Formula.operands] at h'

theorem fit_leaf_pbc {cfg : FCfg} {p : PBC} (h : TFit cfg p.terms p.rhs) : Fit cfg (.pbc p) := by
  constructor
  · intro d hg
    rcases sub_operands.1 hg with h' | ⟨_, h', _⟩
    · cases h'
    · simp [Formula.operands] at h'
  · intro p hg
    rcases sub_operands.1 hg with h' | ⟨_, h', _⟩
    · cases h'; exact h
    · simp [Formula.operands] at h'

theorem fit_const {cfg : FCfg} (b : Bool) : Fit cfg (Formula.const b) := by
  constructor
  · intro d hg
    rcases sub_operands.1 hg with h' | ⟨_, h', _⟩
    · cases b <;> simp [Formula.const] at h'
    · cases b <;> simp [Formula.const, Formula.operands] at h'
  · intro d hg
    rcases sub_operands.1 hg with h' | ⟨_, h', _⟩
    · cases b <;> simp [Formula.const] at h'
    · cases b <;> simp [Formula.const, Formula.operands] at h'

theorem flat1_const (b : Bool) : Flat1 (Formula.const b) := by
  cases b <;> exact .leaf rfl (.inl rfl)

theorem flat1_mkPbc (c rhs ts) : Flat1 (Formula.mkPbc c rhs ts) := by
  unfold Formula.mkPbc Formula.constructCc
  split
  · exact flat1_const _
  · split
    · split
      · exact flat1_const _
      · split
        · exact .leaf rfl (.inr (.inl ⟨_, rfl⟩))
        · exact .leaf rfl (.inr (.inl ⟨_, rfl⟩))
    · exact .leaf rfl (.inr (.inr ⟨_, rfl⟩))

theorem absSum_ones (vs : List Var) : absSum (vs.map fun v => (v.p, (1 : Int))) = vs.length := by
  induction vs with
  | nil => simp [absSum]
  | cons v vs ih => simp only [List.map_cons, absSum, ih, List.length_cons]; simp; omega

theorem absSum_ones' {ts : List (Lit × Int)} (h : ∀ t ∈ ts, t.2 = 1) : absSum ts = ts.length := by
  induction ts with
  | nil => simp [absSum]
  | cons t ts ih =>
    have := h t (by simp)
    simp only [absSum, ih fun u hu => h u (by simp [hu]), List.length_cons, this]; simp; omega

theorem fit_mkPbc {cfg : FCfg} {c rhs ts} (h : TFit cfg ts rhs) : Fit cfg (Formula.mkPbc c rhs ts) := by
  unfold Formula.mkPbc
  split
  · exact fit_const _
  · split
    · rename_i hl
      have h1 : ∀ t ∈ ts, t.2 = 1 := by
        simp only [Formula.isLitCc, Bool.and_eq_true, List.all_eq_true] at hl
        intro t ht; simpa using hl.1.2 t ht
      have ha := absSum_ones' h1
      have hs := h.sum
      unfold Formula.constructCc
      split
      · exact fit_const _
      · have key : ∀ (d : Cmp) (r : Nat), (0 ≤ rhs → (r : Int) ≤ rhs) → (rhs < 0 → r = 0) → Fit cfg (.cc ⟨ts.map fun t => t.1.v, d, r⟩) := by
          intro d r hr hr'
          refine fit_leaf_cc ⟨by simpa [CC.terms] using h.len, ?_, ?_⟩
          · simp only [CC.terms, absSum_ones, List.length_map]
            rw [ha] at hs
            split at hs
            · rename_i h0
              have := hr h0
              split <;> omega
            · have := hr' (by omega)
              split <;> omega
          · intro hn; simpa [CC.terms, List.map_map, Function.comp_def] using h.nodup hn
        split
        · rename_i h0
          refine key _ _ (fun _ => ?_) (by omega)
          have := Nat.mod_le rhs.toNat (2 ^ 32)
          omega
        · exact key _ _ (by omega) (fun _ => rfl)
    · exact fit_leaf_pbc h

theorem mkNeg_con {C : Canon} {cfg : FCfg} {f : Formula} (hc : IsCon f) (hf : Fit cfg f) :
    Fit cfg (Formula.mkNeg C f) ∧ Flat1 (Formula.mkNeg C f) := by
  have key : ∀ (cm : Cmp) (ts : List (Lit × Int)) (rhs : Int), TFit cfg ts rhs →
      ∀ g, g = (match cm with
        | .eq => Formula.mkOr C [Formula.mkPbc .lt rhs ts, Formula.mkPbc .gt rhs ts]
        | .gt => Formula.mkPbc .le rhs ts
        | .ge => Formula.mkPbc .lt rhs ts
        | .lt => Formula.mkPbc .ge rhs ts
        | .le => Formula.mkPbc .gt rhs ts) → Fit cfg g ∧ Flat1 g := by
    intro cm ts rhs h g hg
    subst hg
    cases cm with
    | eq =>
      constructor
      · refine Fit.mkNary fun f hf => ?_
        simp only [List.mem_cons, List.not_mem_nil, or_false] at hf
        rcases hf with rfl | rfl <;> exact fit_mkPbc h
      · refine Flat1.mkNary fun f hf => ?_
        simp only [List.mem_cons, List.not_mem_nil, or_false] at hf
        rcases hf with rfl | rfl <;> exact flat1_mkPbc _ _ _
    | _ => exact ⟨fit_mkPbc h, flat1_mkPbc _ _ _⟩
  rcases hc with ⟨c, rfl⟩ | ⟨p, rfl⟩
  · exact key c.cmp c.terms c.rhs (hf.cc c (.refl _)) _ rfl
  · exact key p.cmp p.terms p.rhs (hf.pbc p (.refl _)) _ rfl

theorem nnfCon1_ok {C : Canon} {cfg : FCfg} (hcfg : cfg.cc.Good) {c0 w E} (h : WInv c0 w E) {f : Formula} (hc : IsCon f) (hp : PTop cfg w.cnt f) :
    TrStep IsNnf c0 w E (It.of true f) (nnfCon1 C cfg f true w) := by
  obtain ⟨L, w1, E1, e1, h1, x1, k1⟩ := encodeCon_ok (C := C) hcfg h hc hp
  simp only [nnfCon1, if_true, e1, andThen]
  have hlits : ∀ cl ∈ L, ∀ f ∈ cl.map Formula.lit, f.Norm ∧ NoCon f ∧ ∀ v, Occ v f → (cER w1.cnt).Old v := by
    intro cl hcl f hf
    obtain ⟨l, hl, rfl⟩ := List.mem_map.1 hf
    exact ⟨.lit l, noCon_lit l, fun v hv => by rw [Formula.occ_lit] at hv; rw [← hv]; exact k1.old cl hcl l hl⟩
  have hcl : ∀ f ∈ L.map (Formula.mkClause C), f.Norm ∧ NoCon f ∧ ∀ v, Occ v f → (cER w1.cnt).Old v := by
    intro f hf
    obtain ⟨cl, hc, rfl⟩ := List.mem_map.1 hf
    refine ⟨Formula.norm_mkClause C cl, NoCon.mkNary fun f hf => (hlits cl hc f hf).2.1, fun v hv => ?_⟩
    obtain ⟨g, hg, hv⟩ := Formula.occ_mkNary hv
    exact (hlits cl hc g hg).2.2 v hv
  rw [nnfL_eq]
  have step := lazyNary_ok C (S := IsNnf) (c0 := c0) (cS := w1.cnt) (ES := E1) .conj (fun gs => IsNnf.mkNary C .conj gs) (it := It.of true)
    (run := fun f w => nnfG C cfg (fun _ _ _ => none) f true w) (L.map (Formula.mkClause C))
    (fun f hf w E hw hx => nnfG_ok C (P := fun f _ => f.Norm ∧ NoCon f ∧ ∀ v, Occ v f → (cER w1.cnt).Old v)
      ⟨fun h => ⟨norm_operands h.1 _ (by simp [Formula.operands]), noCon_of h.2.1 (by simp [Formula.operands]),
          fun v hv => h.2.2 v (hv.sub (op_sub (by simp [Formula.operands])))⟩,
        fun h f hf => ⟨norm_operands h.1 _ (by simpa [Formula.operands] using hf), noCon_of h.2.1 (by simpa [Formula.operands] using hf),
          fun v hv => h.2.2 v (hv.sub (op_sub (by simpa [Formula.operands] using hf)))⟩,
        fun h _ => ⟨⟨norm_operands h.1 _ (by simp [Formula.operands]), noCon_of h.2.1 (by simp [Formula.operands]),
          fun v hv => h.2.2 v (hv.sub (op_sub (by simp [Formula.operands])))⟩, ⟨norm_operands h.1 _ (by simp [Formula.operands]), noCon_of h.2.1 (by simp [Formula.operands]),
          fun v hv => h.2.2 v (hv.sub (op_sub (by simp [Formula.operands])))⟩⟩,
        fun h _ => ⟨⟨norm_operands h.1 _ (by simp [Formula.operands]), noCon_of h.2.1 (by simp [Formula.operands]),
          fun v hv => h.2.2 v (hv.sub (op_sub (by simp [Formula.operands])))⟩, ⟨norm_operands h.1 _ (by simp [Formula.operands]), noCon_of h.2.1 (by simp [Formula.operands]),
          fun v hv => h.2.2 v (hv.sub (op_sub (by simp [Formula.operands])))⟩⟩⟩
      (fun f pol hp => ⟨hp.1, hp.2.2⟩)
      (fun f pol w E hc hp _ _ => by
        have := hp.2.1 f (.refl _)
        rcases hc with ⟨c, rfl⟩ | ⟨p, rfl⟩
        · exact absurd rfl (this.1 c)
        · exact absurd rfl (this.2 p)) f true w E (hcl f hf) hw hx)
    [] [] w1 E1 h1 (GExt.refl _ _) .nil
  obtain ⟨g, w2, E2, e2, h2, x2, k2⟩ := step
  have hT : ∀ σ, (It.op .conj ([] ++ (L.map (Formula.mkClause C)).map (It.of true))).T σ ↔ LSat σ L := by
    intro σ
    simp [It.op, It.of, LSat]
  have k3 := k1.mono x2
  refine ⟨g, w2, E2, e2, h2, x1.trans x2, ?_, ?_, ?_, ?_, k2.shape, k2.norm, k2.old, fun v hv => ?_⟩
  rotate_right
  · rcases k2.aux v hv with ⟨i, hi, hv⟩ | hv
    · simp only [List.nil_append, List.mem_map, exists_exists_and_eq_and] at hi
      obtain ⟨cl, hc', rfl⟩ := hi
      obtain ⟨f', hf, hv⟩ := Formula.occ_mkNary hv
      obtain ⟨l, hl, rfl⟩ := List.mem_map.1 hf
      rw [Formula.occ_lit] at hv
      subst hv
      exact encodeCon_vars h.vars e1 cl hc' l hl
    · exact .inr hv
  · intro σ hg; exact h2.base.sound _ k3.mem σ ((hT σ).1 (k2.sound σ hg))
  · intro σ ho ht; exact k2.compl σ ho ((hT σ).2 (ho _ k3.mem ht))
  · intro hp
    have := hp f (.refl _)
    rcases hc with ⟨c, rfl⟩ | ⟨p, rfl⟩
    · exact absurd rfl (this.1 c)
    · exact absurd rfl (this.2 p)
  · intro hp
    have := hp f (.refl _)
    rcases hc with ⟨c, rfl⟩ | ⟨p, rfl⟩
    · exact absurd rfl (this.1 c)
    · exact absurd rfl (this.2 p)

theorem PTop.mono {cfg c E c' E' f} (h : PTop cfg c f) (hx : GExt c E c' E') : PTop cfg c' f :=
  ⟨h.1, h.2.1, fun v hv => hx.old (h.2.2 v hv)⟩

theorem nnfCon2_ok {C : Canon} {cfg : FCfg} (hcfg : cfg.cc.Good) {c0 w E} (h : WInv c0 w E) {f : Formula} {pol} (hc : IsCon f) (hp : PTop cfg w.cnt f) :
    TrStep IsNnf c0 w E (It.of pol f) (nnfCon2 C cfg f pol w) := by
  unfold nnfCon2
  cases pol with
  | true => simpa using nnfCon1_ok hcfg h hc hp
  | false =>
    simp only [Bool.false_eq_true, if_false]
    obtain ⟨h1, h2⟩ := mkNeg_con (C := C) hc hp.2.1
    have hP : PTop cfg w.cnt (Formula.mkNeg C f) := ⟨Formula.norm_mkNeg C hp.1, h1, fun v hv => hp.2.2 v (Formula.occ_mkNeg hv)⟩
    have := nnfG_ok C (cfg := cfg) (c0 := c0) (cS := w.cnt) (ES := E) (con := nnfCon1 C cfg)
      (P := fun f pol => PTop cfg w.cnt f ∧ Flat1 f ∧ pol = true)
      ⟨fun h => by rcases h.2.1 _ (.refl _) with h | (⟨c, h⟩ | ⟨p, h⟩) | ⟨o, fs, h⟩ <;> simp [Formula.isConst] at h,
       fun h f hf => ⟨h.1.op (by simpa [Formula.operands] using hf), fun g hg => h.2.1 g (hg.trans (op_sub (by simpa [Formula.operands] using hf))), h.2.2⟩,
       fun h => by rcases h.2.1 _ (.refl _) with h | (⟨c, h⟩ | ⟨p, h⟩) | ⟨o, fs, h⟩ <;> simp [Formula.isConst] at h,
       fun h => by rcases h.2.1 _ (.refl _) with h | (⟨c, h⟩ | ⟨p, h⟩) | ⟨o, fs, h⟩ <;> simp [Formula.isConst] at h⟩
      (fun f pol hp => ⟨hp.1.1, hp.1.2.2⟩)
      (fun f pol w' E' hc hp hw hx => by rw [hp.2.2]; exact nnfCon1_ok hcfg hw hc (hp.1.mono hx))
      (Formula.mkNeg C f) true w E ⟨hP, h2, rfl⟩ h (GExt.refl _ _)
    refine this.congr (fun σ => ?_) (fun hp' => ?_) (fun v hv => Formula.occ_mkNeg hv)
    · simp only [It.of, Formula.eval_mkNeg C σ f hp.1.fits1]; cases f.eval σ <;> simp
    · have := hp' f (.refl _)
      rcases hc with ⟨c, rfl⟩ | ⟨p, rfl⟩
      · exact absurd rfl (this.1 c)
      · exact absurd rfl (this.2 p)

/-- `nnf` is correct in every state of the factory. -/
theorem nnf_ok {C : Canon} {cfg : FCfg} (hcfg : cfg.cc.Good) {c0 w E} (h : WInv c0 w E) {f : Formula} (hp : PTop cfg w.cnt f) :
    TrStep IsNnf c0 w E (It.of true f) (nnf C cfg f w) :=
  nnfG_ok C (P := fun f _ => PTop cfg w.cnt f) (PTop.closed cfg w.cnt) (fun _ _ hp => ⟨hp.1, hp.2.2⟩)
    (fun _ _ _ _ hc hp hw hx => nnfCon2_ok hcfg hw hc (hp.mono hx)) f true w E hp h (GExt.refl _ _)

end Verif
