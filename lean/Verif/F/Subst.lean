import Verif.F.Restrict
import Mathlib.Data.List.Forall2

/-
Substitution of variables by formulas.
-/
namespace Verif

/-- `Substitution` (a `HashMap`), src/operations/transformations/substitution.rs:8. -/
abbrev Subst := Var → Option Formula

/-- The assignment that gives a substituted variable the value of its image
(specification). -/
def Subst.asg (S : Subst) (σ : Asg) : Asg := fun v => match S v with
  | some g => g.eval σ
  | none => σ v

/-- `substitute` on literals, substitution.rs:36-37. -/
def substLit (C : Canon) (S : Subst) (l : Lit) : Formula :=
  match S l.v with
  | none => .lit l
  | some g => if l.pos then g else Formula.mkNeg C g

/-- The loop of `handle_cc`, substitution.rs:68-84, and of `handle_pbc`, 98-117, which differ
in the literals they accept (`ok`) and in that `handle_cc` has coefficient 1 everywhere;
`none` is the panic. -/
def substTerms (C : Canon) (S : Subst) (ok : Lit → Bool) :
    List (Lit × Int) → List (Lit × Int) × Int → Option (List (Lit × Int) × Int)
  | [], s => some s
  | t :: ts, s =>
    let g := substLit C S t.1
    if g = .lit t.1 then substTerms C S ok ts (s.1 ++ [t], s.2)
    else match g with
      | .tru => substTerms C S ok ts (s.1, w64 (s.2 + t.2))
      | .fls => substTerms C S ok ts s
      | .lit l => if ok l then substTerms C S ok ts (s.1 ++ [(l, t.2)], s.2) else none
      | _ => none

/-- `handle_cc`, substitution.rs:65-92, and `handle_pbc`, 94-123. -/
def substPbc (C : Canon) (S : Subst) (ok : Lit → Bool) (c : Cmp) (rhs : Int) (ts : List (Lit × Int)) : Option Formula :=
  match substTerms C S ok ts ([], 0) with
  | none => none
  | some (ts', fixed) =>
    if ts' = [] then some (Formula.const (c.test fixed rhs)) else some (Formula.mkPbc c (w64 (rhs - fixed)) ts')

mutual
/-- `substitute`, substitution.rs:32-63; `none` is a panic. -/
def Formula.subst (C : Canon) (S : Subst) : Formula → Option Formula
  | .tru => some .tru
  | .fls => some .fls
  | .lit l => some (substLit C S l)
  | .not f => (Formula.subst C S f).map (mkNeg C)
  | .nary o fs => (Formula.substs C S fs).map (mkNary C o)
  | .impl a b =>
    match Formula.subst C S a, Formula.subst C S b with
    | some a', some b' => some (mkImpl C a' b')
    | _, _ => none
  | .equiv a b =>
    match Formula.subst C S a, Formula.subst C S b with
    | some a', some b' => some (mkEquiv C a' b')
    | _, _ => none
  | .cc c => substPbc C S (fun l => l.pos) c.cmp c.rhs (c.vars.map fun v => (v.p, 1))
  | .pbc p => substPbc C S (fun _ => true) p.cmp p.rhs p.terms
def Formula.substs (C : Canon) (S : Subst) : List Formula → Option (List Formula)
  | [] => some []
  | f :: fs =>
    match Formula.subst C S f, Formula.substs C S fs with
    | some g, some gs => some (g :: gs)
    | _, _ => none
end

/-- Where the variables of the result come from (specification). -/
def Subst.From (S : Subst) (occ : Var → Prop) (v : Var) : Prop :=
  (occ v ∧ S v = none) ∨ ∃ w g, occ w ∧ S w = some g ∧ Occ v g

/-- All images are built by the factory. -/
def Subst.Norm (S : Subst) : Prop := ∀ v g, S v = some g → g.Norm

theorem eval_substLit {C : Canon} {S : Subst} (hS : S.Norm) (σ : Asg) (l : Lit) :
    (substLit C S l).eval σ = l.eval (S.asg σ) := by
  rcases l with ⟨v, p⟩
  unfold substLit Lit.eval Subst.asg
  cases h : S v with
  | none => simp [Lit.eval]
  | some g => cases p <;> simp [Formula.eval_mkNeg _ _ _ (hS v g h).fits1]

theorem norm_substLit {C : Canon} {S : Subst} (hS : S.Norm) (l : Lit) : (substLit C S l).Norm := by
  unfold substLit
  cases h : S l.v with
  | none => exact .lit _
  | some g =>
    simp only
    split
    · exact hS _ _ h
    · exact Formula.norm_mkNeg C (hS _ _ h)

theorem occ_substLit {C : Canon} {S : Subst} {l : Lit} {v} (hv : Occ v (substLit C S l)) : S.From (· = l.v) v := by
  unfold substLit at hv
  cases h : S l.v with
  | none => rw [h] at hv; simp only [Formula.occ_lit] at hv; exact .inl ⟨hv.symm, by rw [← hv, h]⟩
  | some g =>
    rw [h] at hv
    refine .inr ⟨_, g, rfl, h, ?_⟩
    simp only at hv
    split at hv
    · exact hv
    · exact Formula.occ_mkNeg hv

theorem substTerms_spec {C : Canon} {S : Subst} (hS : S.Norm) {ok : Lit → Bool} (ts : List (Lit × Int)) : ∀ {T a r},
    substTerms C S ok ts (T, w64 a) = some r → ∃ T2 b, r = (T ++ T2, w64 (a + b)) ∧
      (∀ σ, PBC.lhs (S.asg σ) ts = b + PBC.lhs σ T2) ∧
      absSum T2 + (if b ≥ 0 then b else -b) ≤ absSum ts ∧ ((∀ t ∈ ts, 0 ≤ t.2) → 0 ≤ b) ∧
      (∀ t ∈ T2, S.From (fun w => ∃ u ∈ ts, u.1.v = w) t.1.v) := by
  have mono : ∀ {t : Lit × Int} {ts : List (Lit × Int)} {v}, S.From (fun w => ∃ u ∈ ts, u.1.v = w) v →
      S.From (fun w => ∃ u ∈ t :: ts, u.1.v = w) v := by
    rintro t ts v (⟨⟨u, hu, e⟩, h⟩ | ⟨w, g, ⟨u, hu, e⟩, h⟩)
    · exact .inl ⟨⟨u, by simp [hu], e⟩, h⟩
    · exact .inr ⟨w, g, ⟨u, by simp [hu], e⟩, h⟩
  induction ts with
  | nil =>
    intro T a r h
    simp only [substTerms, Option.some.injEq] at h
    exact ⟨[], 0, by simp [← h], by simp [PBC.lhs], by simp [absSum], by simp, by simp⟩
  | cons t ts ih =>
    intro T a r h
    have he := fun σ => eval_substLit (C := C) hS σ t.1
    have push : ∀ (l : Lit) {r}, substLit C S t.1 = .lit l → substTerms C S ok ts (T ++ [(l, t.2)], w64 a) = some r →
        ∃ T2 b, r = (T ++ T2, w64 (a + b)) ∧ (∀ σ, PBC.lhs (S.asg σ) (t :: ts) = b + PBC.lhs σ T2) ∧
        absSum T2 + (if b ≥ 0 then b else -b) ≤ absSum (t :: ts) ∧ ((∀ u ∈ t :: ts, 0 ≤ u.2) → 0 ≤ b) ∧
        (∀ u ∈ T2, S.From (fun w => ∃ u ∈ t :: ts, u.1.v = w) u.1.v) := by
      intro l r hl hr
      obtain ⟨T2, b, e, h1, h2, h3, h4⟩ := ih hr
      refine ⟨(l, t.2) :: T2, b, by simp [e], fun σ => ?_, ?_, fun hp => h3 fun u hu => hp u (by simp [hu]), ?_⟩
      · have := he σ
        rw [hl] at this
        simp only [Formula.eval_lit] at this
        simp only [PBC.lhs, this, h1]
        omega
      · simp only [absSum]; omega
      · intro u hu
        rcases List.mem_cons.1 hu with rfl | hu
        · have : Occ l.v (substLit C S t.1) := by rw [hl]; simp
          rcases occ_substLit this with ⟨e, h⟩ | ⟨w, g, e, h⟩
          · exact .inl ⟨⟨t, by simp, e.symm⟩, h⟩
          · exact .inr ⟨w, g, ⟨t, by simp, e.symm⟩, h⟩
        · exact mono (h4 u hu)
    simp only [substTerms] at h
    split at h
    · exact push t.1 ‹_› h
    · split at h
      · rename_i hg
        rw [w64_add] at h
        obtain ⟨T2, b, e, h1, h2, h3, h4⟩ := ih h
        refine ⟨T2, t.2 + b, by simp [e, Int.add_assoc], fun σ => ?_, ?_, fun hp => ?_, fun u hu => mono (h4 u hu)⟩
        · have := he σ
          rw [hg] at this
          simp only [Formula.eval_tru] at this
          simp only [PBC.lhs, ← this, h1, if_true]
          omega
        · simp only [absSum]
          split at h2 <;> split <;> split <;> omega
        · have := h3 fun u hu => hp u (by simp [hu])
          have := hp t (by simp)
          omega
      · rename_i hg
        obtain ⟨T2, b, e, h1, h2, h3, h4⟩ := ih h
        refine ⟨T2, b, by simp [e], fun σ => ?_, ?_, fun hp => h3 fun u hu => hp u (by simp [hu]), fun u hu => mono (h4 u hu)⟩
        · have := he σ
          rw [hg] at this
          simp only [Formula.eval_fls] at this
          simp [PBC.lhs, ← this, h1]
        · simp only [absSum]
          split at h2 <;> split <;> omega
      · split at h
        · exact push _ ‹_› h
        · simp at h
      · simp at h

/-- Bound under which substitution can neither overflow nor cut a right-hand side. -/
def PBC.Fits32 (p : PBC) : Prop := absSum p.terms + (if p.rhs ≥ 0 then p.rhs else -p.rhs) < 2 ^ 32

/-- What substitution has to do. -/
structure SubstOk (S : Subst) (f g : Formula) : Prop where
  norm : g.Norm
  eval : ∀ σ, g.eval σ = f.eval (S.asg σ)
  occ : ∀ v, Occ v g → S.From (Occ · f) v

theorem substPbc_spec {C : Canon} {S : Subst} (hS : S.Norm) {ok c rhs ts g}
    (hb : absSum ts + (if rhs ≥ 0 then rhs else -rhs) < 2 ^ 32 ∨ (0 ≤ rhs ∧ rhs < 2 ^ 32 ∧ absSum ts < 2 ^ 32 ∧ ∀ t ∈ ts, 0 ≤ t.2))
    (h : substPbc C S ok c rhs ts = some g) :
    g.Norm ∧ (∀ σ, g.eval σ = c.test (PBC.lhs (S.asg σ) ts) rhs) ∧
      ∀ v, Occ v g → S.From (fun w => ∃ u ∈ ts, u.1.v = w) v := by
  unfold substPbc at h
  split at h
  · simp at h
  · rename_i ts' fixed hst
    rw [← w64_zero] at hst
    obtain ⟨T2, b, e, h1, h2, h3, h4⟩ := substTerms_spec hS ts hst
    simp only [List.nil_append, Int.zero_add, Prod.mk.injEq] at e
    obtain ⟨rfl, rfl⟩ := e
    have hn := absSum_nonneg ts'
    have hr : rhs - b < 2 ^ 32 ∧ I64 (rhs - b) ∧ I64 b ∧ absSum ts' < 2 ^ 32 := by
      rcases hb with hb | ⟨hb1, hb2, hb3, hb4⟩
      · refine ⟨?_, ⟨?_, ?_⟩, ⟨?_, ?_⟩, ?_⟩ <;> (split at hb <;> split at h2 <;> omega)
      · have := h3 hb4
        rw [if_pos (by omega)] at h2
        refine ⟨?_, ⟨?_, ?_⟩, ⟨?_, ?_⟩, ?_⟩ <;> omega
    obtain ⟨hr1, hr2, hr3, hr4⟩ := hr
    rw [w64_id hr3] at h
    split at h
    · rename_i he
      subst he
      cases h
      exact ⟨Formula.norm_const _, fun σ => by simp [h1, PBC.lhs], by simp⟩
    · cases h
      rw [w64_id hr2]
      have hf : Formula.RhsFits (rhs - b) ts' := fun _ _ => hr1
      refine ⟨Formula.norm_mkPbc hf hr2 fun t ht => ?_, fun σ => ?_, fun v hv => ?_⟩
      · have := coef_le_absSum ht
        constructor <;> omega
      · rw [Formula.eval_mkPbc _ _ _ _ hf, test_sub, h1]
      · obtain ⟨t, ht, rfl⟩ := Formula.occ_mkPbc hv
        exact h4 t ht

theorem absSum_vars (vs : List Var) : absSum (vs.map fun v => (v.p, (1 : Int))) = vs.length := by
  induction vs with
  | nil => rfl
  | cons v vs ih => simp only [List.map_cons, absSum, ih, List.length_cons]; simp; omega

theorem Subst.From.mono {S : Subst} {P Q : Var → Prop} (h : ∀ v, P v → Q v) {v} (hv : S.From P v) : S.From Q v := by
  rcases hv with ⟨a, b⟩ | ⟨w, g, a, b⟩
  · exact .inl ⟨h _ a, b⟩
  · exact .inr ⟨w, g, h _ a, b⟩

theorem substs_ok {C : Canon} {S : Subst} (fs : List Formula) (h : ∀ f ∈ fs, ∀ g, f.subst C S = some g → SubstOk S f g) :
    ∀ {gs}, Formula.substs C S fs = some gs → (∀ g ∈ gs, ∃ f ∈ fs, SubstOk S f g) ∧ (∀ f ∈ fs, ∃ g ∈ gs, SubstOk S f g) := by
  induction fs with
  | nil => intro gs e; simp [Formula.substs] at e; subst e; simp
  | cons f fs ih =>
    intro gs e
    simp only [Formula.substs] at e
    split at e
    · rename_i g gs' e1 e2
      cases e
      have hg := h f (by simp) g e1
      obtain ⟨h1, h2⟩ := ih (fun f hf => h f (by simp [hf])) e2
      constructor
      · intro x hx
        rcases List.mem_cons.1 hx with rfl | hx
        · exact ⟨f, by simp, hg⟩
        · obtain ⟨y, hy, h3⟩ := h1 x hx
          exact ⟨y, by simp [hy], h3⟩
      · intro x hx
        rcases List.mem_cons.1 hx with rfl | hx
        · exact ⟨g, by simp, hg⟩
        · obtain ⟨y, hy, h3⟩ := h2 x hx
          exact ⟨y, by simp [hy], h3⟩
    · simp at e

/-- The general case: `B` is inherited by operands and gives the claim for constraints. -/
theorem subst_ok_of (C : Canon) {S : Subst} (hS : S.Norm) {B : Formula → Prop} (hB1 : ∀ f, B (.not f) → B f)
    (hB2 : ∀ a b, B (.impl a b) → B a ∧ B b) (hB3 : ∀ a b, B (.equiv a b) → B a ∧ B b)
    (hB4 : ∀ o fs, B (.nary o fs) → ∀ f ∈ fs, B f)
    (hcc : ∀ c g, CC.Ok c → B (.cc c) → Formula.subst C S (.cc c) = some g → SubstOk S (.cc c) g)
    (hpbc : ∀ p g, PBC.Ok p → B (.pbc p) → Formula.subst C S (.pbc p) = some g → SubstOk S (.pbc p) g)
    {f : Formula} (hn : f.Norm) (hb : B f) : ∀ g, f.subst C S = some g → SubstOk S f g := by
  induction f using Formula.ind with
  | tru => intro g e; simp [Formula.subst] at e; subst e; exact ⟨.tru, by simp, by simp⟩
  | fls => intro g e; simp [Formula.subst] at e; subst e; exact ⟨.fls, by simp, by simp⟩
  | lit l =>
    intro g e; simp only [Formula.subst, Option.some.injEq] at e; subst e
    refine ⟨norm_substLit hS l, fun σ => by rw [eval_substLit hS]; simp, fun v hv => ?_⟩
    exact (occ_substLit hv).mono fun w hw => by simp [hw]
  | not f ih =>
    intro g e
    cases hn with
    | not hn _ _ _ =>
    have hb := hB1 _ hb
    simp only [Formula.subst, Option.map_eq_some_iff] at e
    obtain ⟨g', e, rfl⟩ := e
    have hg := ih hn hb g' e
    refine ⟨Formula.norm_mkNeg C hg.norm, fun σ => by rw [Formula.eval_mkNeg _ _ _ hg.norm.fits1]; simp [hg.eval], fun v hv => ?_⟩
    exact (hg.occ v (Formula.occ_mkNeg hv)).mono fun w hw => by simpa using hw
  | impl a b iha ihb =>
    intro g e
    cases hn with
    | impl ha hb' _ _ _ =>
    obtain ⟨ba, bb⟩ := hB2 _ _ hb
    simp only [Formula.subst] at e
    split at e
    · rename_i x y ex ey
      cases e
      have hx := iha ha ba x ex
      have hy := ihb hb' bb y ey
      refine ⟨Formula.norm_mkImpl C hx.norm hy.norm,
        fun σ => by rw [Formula.eval_mkImpl _ _ _ _ hy.norm.fits1, hx.eval, hy.eval]; simp, fun v hv => ?_⟩
      rcases Formula.occ_mkImpl hv with h | h
      · exact (hx.occ v h).mono fun w hw => by simp [hw]
      · exact (hy.occ v h).mono fun w hw => by simp [hw]
    · simp at e
  | equiv a b iha ihb =>
    intro g e
    cases hn with
    | equiv ha hb' _ _ _ =>
    obtain ⟨ba, bb⟩ := hB3 _ _ hb
    simp only [Formula.subst] at e
    split at e
    · rename_i x y ex ey
      cases e
      have hx := iha ha ba x ex
      have hy := ihb hb' bb y ey
      refine ⟨Formula.norm_mkEquiv C hx.norm hy.norm,
        fun σ => by rw [Formula.eval_mkEquiv _ _ _ _ hy.norm.fits1, hx.eval, hy.eval]; simp, fun v hv => ?_⟩
      rcases Formula.occ_mkEquiv hv with h | h
      · exact (hx.occ v h).mono fun w hw => by simp [hw]
      · exact (hy.occ v h).mono fun w hw => by simp [hw]
    · simp at e
  | nary o fs ih =>
    intro g e
    cases hn with
    | nary _ hn _ =>
    have hb := hB4 _ _ hb
    simp only [Formula.subst, Option.map_eq_some_iff] at e
    obtain ⟨gs, e, rfl⟩ := e
    obtain ⟨h1, h2⟩ := substs_ok fs (fun f hf => ih f hf (hn f hf) (hb f hf)) e
    refine ⟨Formula.norm_mkNary C o fun g hg => ?_, fun σ => ?_, fun v hv => ?_⟩
    · obtain ⟨_, _, h⟩ := h1 g hg; exact h.norm
    · rw [Formula.eval_mkNary, Formula.eval_nary]
      cases o
      · simp only [Op.eval]
        rw [Bool.eq_iff_iff, List.all_eq_true, List.all_eq_true]
        constructor
        · intro h f hf; obtain ⟨g, hg, h3⟩ := h2 f hf; rw [← h3.eval]; exact h g hg
        · intro h g hg; obtain ⟨f, hf, h3⟩ := h1 g hg; rw [h3.eval]; exact h f hf
      · simp only [Op.eval]
        rw [Bool.eq_iff_iff, List.any_eq_true, List.any_eq_true]
        constructor
        · rintro ⟨g, hg, h⟩; obtain ⟨f, hf, h3⟩ := h1 g hg; exact ⟨f, hf, by rw [← h3.eval]; exact h⟩
        · rintro ⟨f, hf, h⟩; obtain ⟨g, hg, h3⟩ := h2 f hf; exact ⟨g, hg, by rw [h3.eval]; exact h⟩
    · obtain ⟨g, hg, ho⟩ := Formula.occ_mkNary hv
      obtain ⟨f, hf, h3⟩ := h1 g hg
      exact (h3.occ v ho).mono fun w hw => by rw [Formula.occ_nary]; exact ⟨f, hf, hw⟩
  | cc c => intro g e; cases hn with | cc hc => exact hcc c g hc hb e
  | pbc p => intro g e; cases hn with | pbc hp => exact hpbc p g hp hb e

theorem subst_ok (C : Canon) {S : Subst} (hS : S.Norm) {f : Formula} (hn : f.Norm) (hb : Bounded PBC.Fits32 f) :
    ∀ g, f.subst C S = some g → SubstOk S f g := by
  refine subst_ok_of C hS (B := Bounded PBC.Fits32) (fun f h => by cases h; assumption) (fun a b h => by cases h; exact ⟨‹_›, ‹_›⟩)
    (fun a b h => by cases h; exact ⟨‹_›, ‹_›⟩) (fun o fs h => by cases h; assumption) (fun c g hc hb e => ?_) (fun p g hp hb e => ?_) hn hb
  · cases hb with
    | cc hl =>
    simp only [Formula.subst] at e
    have hr := hc.rhs
    obtain ⟨h1, h2, h3⟩ := substPbc_spec hS (.inr ⟨by omega, by omega, by rw [absSum_vars]; omega, by simp⟩) e
    refine ⟨h1, fun σ => by rw [h2, Formula.lhs_vars]; simp [CC.eval], fun v hv => ?_⟩
    exact (h3 v hv).mono fun w hw => by simpa using hw
  · cases hb with
    | pbc hp =>
    simp only [Formula.subst] at e
    obtain ⟨h1, h2, h3⟩ := substPbc_spec hS (.inl hp) e
    refine ⟨h1, fun σ => by rw [h2]; simp [PBC.eval], fun v hv => ?_⟩
    exact (h3 v hv).mono fun w hw => by rw [Formula.occ_pbc]; exact hw

/-! ### Renaming -/

/-- All images are variables. -/
def Subst.Ren (S : Subst) : Prop := ∀ v g, S v = some g → ∃ w : Var, g = .lit w.p

theorem Subst.Ren.norm {S : Subst} (h : S.Ren) : S.Norm := fun v g e => by obtain ⟨w, rfl⟩ := h v g e; exact .lit _

theorem Subst.Ren.lit (C : Canon) {S : Subst} (h : S.Ren) (l : Lit) : ∃ w, substLit C S l = .lit ⟨w, l.pos⟩ := by
  rcases l with ⟨v, p⟩
  unfold substLit
  cases e : S v with
  | none => exact ⟨v, rfl⟩
  | some g =>
    obtain ⟨w, rfl⟩ := h v g e
    cases p
    · exact ⟨w, rfl⟩
    · exact ⟨w, rfl⟩

theorem Subst.Ren.terms (C : Canon) {S : Subst} (h : S.Ren) {ok : Lit → Bool} (ts : List (Lit × Int)) (hok : ∀ t ∈ ts, ∀ w, ok ⟨w, t.1.pos⟩ = true) :
    ∀ T a, ∃ T2, substTerms C S ok ts (T, a) = some (T ++ T2, a) ∧ List.Forall₂ (fun (t u : Lit × Int) => substLit C S t.1 = .lit u.1 ∧ u.1.pos = t.1.pos ∧ u.2 = t.2) ts T2 := by
  induction ts with
  | nil => intro T a; exact ⟨[], by simp [substTerms], .nil⟩
  | cons t ts ih =>
    intro T a
    obtain ⟨w, e⟩ := h.lit C t.1
    obtain ⟨T2, e2, h2⟩ := ih (fun u hu => hok u (by simp [hu])) (T ++ [(⟨w, t.1.pos⟩, t.2)]) a
    refine ⟨(⟨w, t.1.pos⟩, t.2) :: T2, ?_, .cons ⟨e, rfl, rfl⟩ h2⟩
    simp only [substTerms]
    rw [e]
    split
    · next h' =>
      injection h' with h'
      rw [show T ++ [t] = T ++ [(⟨w, t.1.pos⟩, t.2)] by rw [h']]
      exact e2.trans (by simp)
    · simp only [hok t (by simp), if_true]
      exact e2.trans (by simp)

theorem Subst.Ren.pbc (C : Canon) {S : Subst} (h : S.Ren) {ok c rhs ts} (hok : ∀ t ∈ ts, ∀ w, ok ⟨w, t.1.pos⟩ = true)
    (hr : I64 rhs) (hc : ∀ t ∈ ts, I64 t.2) (hf : Formula.RhsFits rhs ts) (hne : ts ≠ []) :
    ∃ g, substPbc C S ok c rhs ts = some g ∧ g.Norm ∧ (∀ σ, g.eval σ = c.test (PBC.lhs (S.asg σ) ts) rhs) ∧
      ∀ v, Occ v g → S.From (fun w => ∃ u ∈ ts, u.1.v = w) v := by
  obtain ⟨T2, e, h2⟩ := h.terms C ts hok [] 0
  have hm : ∀ u ∈ T2, ∃ t ∈ ts, substLit C S t.1 = .lit u.1 ∧ u.1.pos = t.1.pos ∧ u.2 = t.2 := by
    clear e hok hc hf hne
    induction h2 with
    | nil => intro u hu; cases hu
    | @cons a b as bs hab _ ih =>
      intro u hu
      rcases List.mem_cons.1 hu with rfl | hu
      · exact ⟨a, by simp, hab⟩
      · obtain ⟨t, ht, h⟩ := ih u hu; exact ⟨t, by simp [ht], h⟩
  have hm' : ∀ t ∈ ts, ∃ u ∈ T2, substLit C S t.1 = .lit u.1 ∧ u.1.pos = t.1.pos ∧ u.2 = t.2 := by
    clear e hok hc hf hne hm
    induction h2 with
    | nil => intro u hu; cases hu
    | @cons a b as bs hab _ ih =>
      intro u hu
      rcases List.mem_cons.1 hu with rfl | hu
      · exact ⟨b, by simp, hab⟩
      · obtain ⟨t, ht, h⟩ := ih u hu; exact ⟨t, by simp [ht], h⟩
  have hl : ∀ σ, PBC.lhs (S.asg σ) ts = PBC.lhs σ T2 := by
    intro σ
    clear e hok hc hf hne hm hm'
    induction h2 with
    | nil => rfl
    | @cons a b as bs hab _ ih =>
      have := eval_substLit (C := C) h.norm σ a.1
      rw [hab.1, Formula.eval_lit] at this
      simp only [PBC.lhs, ih, hab.2.2, this]
  have hne2 : T2 ≠ [] := by
    rintro rfl
    cases h2
    exact hne rfl
  have hf2 : Formula.RhsFits rhs T2 := by
    intro h1 h2
    refine hf (fun t ht => ?_) (fun t ht => ?_)
    · obtain ⟨u, hu, h⟩ := hm' t ht; rw [← h.2.1]; exact h1 u hu
    · obtain ⟨u, hu, h⟩ := hm' t ht; rw [← h.2.2]; exact h2 u hu
  refine ⟨Formula.mkPbc c rhs T2, ?_, Formula.norm_mkPbc hf2 hr fun t ht => ?_, fun σ => by rw [Formula.eval_mkPbc _ _ _ _ hf2, hl], fun v hv => ?_⟩
  · unfold substPbc
    rw [e]
    simp only [List.nil_append, if_neg hne2, Int.sub_zero]
    rw [w64_id hr]
  · obtain ⟨u, hu, h⟩ := hm t ht; rw [h.2.2]; exact hc u hu
  · obtain ⟨t, ht, rfl⟩ := Formula.occ_mkPbc hv
    obtain ⟨u, hu, h'⟩ := hm t ht
    have : Occ t.1.v (substLit C S u.1) := by rw [h'.1]; simp
    exact (occ_substLit this).mono fun w hw => ⟨u, hu, hw.symm⟩

/-- Renaming variables is correct without any bounds. -/
theorem rename_ok (C : Canon) {S : Subst} (hS : S.Ren) {f : Formula} (hn : f.Norm) :
    ∀ g, f.subst C S = some g → SubstOk S f g := by
  refine subst_ok_of C hS.norm (B := fun _ => True) (fun _ h => h) (fun _ _ h => ⟨h, h⟩) (fun _ _ h => ⟨h, h⟩)
    (fun _ _ h _ _ => h) (fun c g hc _ e => ?_) (fun p g hp _ e => ?_) hn trivial
  · simp only [Formula.subst] at e
    have hr := hc.rhs
    obtain ⟨g', e', h1, h2, h3⟩ := hS.pbc C (ok := fun l => l.pos) (c := c.cmp) (rhs := c.rhs) (ts := c.vars.map fun v => (v.p, (1 : Int)))
      (by simp) (by unfold I64; omega) (by simp [I64]) (Formula.rhsFits_cc _ _ hr) (by simpa using hc.ne)
    cases e.symm.trans e'
    refine ⟨h1, fun σ => by rw [h2, Formula.lhs_vars]; simp [CC.eval], fun v hv => ?_⟩
    exact (h3 v hv).mono fun w hw => by simpa using hw
  · simp only [Formula.subst] at e
    obtain ⟨g', e', h1, h2, h3⟩ := hS.pbc C (ok := fun _ => true) (c := p.cmp) (rhs := p.rhs) (ts := p.terms)
      (by simp) hp.rhs hp.coef (Formula.Norm.pbc hp).fits1 hp.ne
    cases e.symm.trans e'
    refine ⟨h1, fun σ => by rw [h2]; simp [PBC.eval], fun v hv => ?_⟩
    exact (h3 v hv).mono fun w hw => by rw [Formula.occ_pbc]; exact hw

/-! ### No panic -/

/-- Variables of cardinality constraints are only replaced by constants or variables,
variables of pseudo-Boolean constraints only by constants or literals. -/
inductive Subst.Simple (S : Subst) : Formula → Prop
  | tru : Simple S .tru
  | fls : Simple S .fls
  | lit (l) : Simple S (.lit l)
  | not {f} : Simple S f → Simple S (.not f)
  | impl {a b} : Simple S a → Simple S b → Simple S (.impl a b)
  | equiv {a b} : Simple S a → Simple S b → Simple S (.equiv a b)
  | nary {o fs} : (∀ f ∈ fs, Simple S f) → Simple S (.nary o fs)
  | cc {c : CC} : (∀ v ∈ c.vars, ∀ g, S v = some g → g = .tru ∨ g = .fls ∨ ∃ w, g = .lit (Var.p w)) → Simple S (.cc c)
  | pbc {p : PBC} : (∀ t ∈ p.terms, ∀ g, S t.1.v = some g → g = .tru ∨ g = .fls ∨ ∃ l, g = .lit l) → Simple S (.pbc p)

theorem substTerms_total {C : Canon} {S : Subst} {ok : Lit → Bool} (ts : List (Lit × Int))
    (h : ∀ t ∈ ts, substLit C S t.1 = .lit t.1 ∨ substLit C S t.1 = .tru ∨ substLit C S t.1 = .fls ∨
      ∃ l, substLit C S t.1 = .lit l ∧ ok l = true) : ∀ s, (substTerms C S ok ts s).isSome := by
  induction ts with
  | nil => intro s; simp [substTerms]
  | cons t ts ih =>
    intro s
    have ih := ih fun u hu => h u (by simp [hu])
    simp only [substTerms]
    split
    · exact ih _
    · rcases h t (by simp) with h1 | h1 | h1 | ⟨l, h1, h2⟩
      · exact absurd h1 ‹_›
      · rw [h1]; exact ih _
      · rw [h1]; exact ih _
      · rw [h1]; simp only [h2, if_true]; exact ih _

theorem subst_total (C : Canon) {S : Subst} {f : Formula} (h : S.Simple f) : (f.subst C S).isSome := by
  induction f using Formula.ind with
  | tru => simp [Formula.subst]
  | fls => simp [Formula.subst]
  | lit l => simp [Formula.subst]
  | not f ih => cases h with | not h => simpa [Formula.subst] using ih h
  | impl a b iha ihb =>
    cases h with
    | impl h1 h2 =>
    obtain ⟨x, ex⟩ := Option.isSome_iff_exists.1 (iha h1)
    obtain ⟨y, ey⟩ := Option.isSome_iff_exists.1 (ihb h2)
    simp [Formula.subst, ex, ey]
  | equiv a b iha ihb =>
    cases h with
    | equiv h1 h2 =>
    obtain ⟨x, ex⟩ := Option.isSome_iff_exists.1 (iha h1)
    obtain ⟨y, ey⟩ := Option.isSome_iff_exists.1 (ihb h2)
    simp [Formula.subst, ex, ey]
  | nary o fs ih =>
    cases h with
    | nary h =>
    have : (Formula.substs C S fs).isSome := by
      induction fs with
      | nil => simp [Formula.substs]
      | cons f fs ihl =>
        obtain ⟨x, ex⟩ := Option.isSome_iff_exists.1 (ih f (by simp) (h f (by simp)))
        obtain ⟨y, ey⟩ := Option.isSome_iff_exists.1 (ihl (fun g hg => ih g (by simp [hg])) fun g hg => h g (by simp [hg]))
        simp [Formula.substs, ex, ey]
    simpa [Formula.subst] using this
  | cc c =>
    cases h with
    | cc h =>
    have := substTerms_total (C := C) (S := S) (ok := fun l => l.pos) (c.vars.map fun v => (v.p, (1 : Int))) (by
      intro t ht
      obtain ⟨v, hv, rfl⟩ := List.mem_map.1 ht
      cases hs : S v with
      | none => left; simp [substLit, hs]
      | some g =>
        rcases h v hv g hs with rfl | rfl | ⟨w, rfl⟩
        · right; left; simp [substLit, hs]
        · right; right; left; simp [substLit, hs]
        · right; right; right; exact ⟨w.p, by simp [substLit, hs], rfl⟩) ([], 0)
    obtain ⟨x, ex⟩ := Option.isSome_iff_exists.1 this
    simp only [Formula.subst, substPbc, ex]
    split <;> simp
  | pbc p =>
    cases h with
    | pbc h =>
    have := substTerms_total (C := C) (S := S) (ok := fun _ => true) p.terms (by
      intro t ht
      cases hs : S t.1.v with
      | none => left; simp [substLit, hs]
      | some g =>
        right
        rcases h t ht g hs with rfl | rfl | ⟨w, rfl⟩
        · cases hp : t.1.pos
          · right; left; simp [substLit, hs, hp, Formula.mkNeg]
          · left; simp [substLit, hs, hp]
        · cases hp : t.1.pos
          · left; simp [substLit, hs, hp, Formula.mkNeg]
          · right; left; simp [substLit, hs, hp]
        · right; right
          cases hp : t.1.pos
          · exact ⟨w.neg, by simp [substLit, hs, hp, Formula.mkNeg], rfl⟩
          · exact ⟨w, by simp [substLit, hs, hp], rfl⟩) ([], 0)
    obtain ⟨x, ex⟩ := Option.isSome_iff_exists.1 this
    simp only [Formula.subst, substPbc, ex]
    split <;> simp

end Verif
