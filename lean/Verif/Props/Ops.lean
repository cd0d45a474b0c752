import Verif.F.Subst
import Verif.F.PbNorm
import Verif.F.Funcs
import Verif.Props.Factory

/-
C09, C10, C16 (DNF, NNF), C17, C19, C20, C50, C51, C52: operations on formulas.

The operations are modelled on trees.  `C : Canon` stands for whatever operand order the
factory's tables return (C03-C08 relate handles and trees); all theorems hold for every `C`.
`f.Norm` holds for every formula built by the factory (C05).
-/
namespace Verif

private abbrev va : Var := .named 0
private abbrev vb : Var := .named 1
private abbrev vc : Var := .named 2

/-- Some operand order for the examples. -/
def canon0 : Canon := ⟨fun _ fs => fs, fun _ _ => .refl _, fun _ _ => false⟩

/-! ### C09 -/

/-- C09: restricting by a partial assignment gives a formula without the assigned variables,
whose value is that of the original under the overridden assignment.  Partial: pseudo-Boolean
constraints have to satisfy the bounds of `PBC.Bounded` (see the counterexample). -/
theorem C09_restrict_partial (C : Canon) (A : PAsg) {f : Formula} (hn : f.Norm) (hb : Bounded PBC.Bounded f) :
    ∃ g, f.restrict C A = some g ∧ g.Norm ∧ (∀ σ, g.eval σ = f.eval (A.over σ)) ∧
      ∀ v, Occ v g → v ∉ A.pos ∧ v ∉ A.neg ∧ Occ v f := by
  obtain ⟨g, e, h⟩ := restrict_ok C A hn hb
  refine ⟨g, e, h.norm, h.eval, fun v hv => ?_⟩
  obtain ⟨h1, h2⟩ := h.occ v hv
  simp only [PAsg.Dom, not_or] at h1
  exact ⟨h1.1, h1.2, h2⟩

/-- Example: `~(2a + b - 3c <= 1)`, with `a` true. -/
example : let f : Formula := .not (.pbc ⟨[(va.p, 2), (vb.p, 1), (vc.p, -3)], .le, 1⟩)
    f.Norm ∧ Bounded PBC.Bounded f ∧
    f.restrict canon0 ⟨[va], []⟩ = some (.not (.pbc ⟨[(vb.p, 1), (vc.p, -3)], .le, -1⟩)) := by
  refine ⟨.not (.pbc ⟨by decide, by decide, ?_, ?_⟩) rfl rfl rfl, .not (.pbc ⟨by decide, by decide, by decide⟩), by decide⟩
  · unfold I64; decide
  · unfold I64; decide

/-- Without the bounds the claim is false: `-2^32 a + b = 0` with `a` true becomes
`b = 2^32`, which the factory turns into the cardinality constraint `b = 0`. -/
theorem C09_truncated_counterexample : ∃ (f g : Formula) (A : PAsg) (σ : Asg), f.Norm ∧
    f.restrict canon0 A = some g ∧ g.eval σ ≠ f.eval (A.over σ) := by
  refine ⟨.pbc ⟨[(va.p, -2 ^ 32), (vb.p, 1)], .eq, 0⟩, .cc ⟨[vb], .eq, 0⟩, ⟨[va], []⟩, fun _ => false, .pbc ⟨by decide, by decide, ?_, ?_⟩,
    by decide, by decide⟩
  · unfold I64; decide
  · unfold I64; decide

/-! ### C20 -/

/-- C20, the test itself: if the left-hand side is known to lie between `mn` and `mx` and the
test answers, the answer is right for every possible value. -/
theorem C20_coefficients {mn mx rhs x : Int} {c : Cmp} {b : Bool} (h1 : mn ≤ x) (h2 : x ≤ mx)
    (h : evalCoeffs mn mx rhs c = some b) : (c.Rel x rhs ↔ b = true) := by
  rw [← test_rel, evalCoeffs_sound h1 h2 h]

/-- Example: a sum between -3 and 4 is always below 7. -/
example : evalCoeffs (-3) 4 7 .lt = some true := by decide

/-- C20: if restricting a constraint decides it, every extension of the assignment gives it
that value.  Partial: the sum of the absolute values has to fit into 63 bits. -/
theorem C20_decided_partial {p : PBC} (A : PAsg) {b : Bool}
    (hs : absSum p.terms + (if p.rhs ≥ 0 then p.rhs else -p.rhs) < 2 ^ 63)
    (h : p.restrict A = Formula.const b) (σ : Asg) (hσ : (∀ v ∈ A.pos, σ v = true) ∧ ∀ v ∈ A.neg, v ∉ A.pos → σ v = false) :
    p.eval σ = b := by
  have hover : A.over σ = σ := by
    funext v
    unfold PAsg.over
    split
    · rename_i h; exact (hσ.1 v h).symm
    · split
      · rename_i h1 h2; exact (hσ.2 v h2 h1).symm
      · rfl
  have hs' := sum_abs (A.open p.terms)
  have ha := abs_open A p.terms
  have hn := absSum_nonneg (A.open p.terms)
  have hfix : I64 (A.fix p.terms) := by constructor <;> (split at ha <;> split at hs <;> omega)
  have hmn : I64 (sumNeg (A.open p.terms)) := by constructor <;> (split at ha <;> split at hs <;> omega)
  have hmx : I64 (sumPos (A.open p.terms)) := by constructor <;> (split at ha <;> split at hs <;> omega)
  have hrhs : I64 (p.rhs - A.fix p.terms) := by constructor <;> (split at ha <;> split at hs <;> omega)
  have hsc : scan A p.terms ⟨[], 0, 0, 0⟩ = ⟨A.open p.terms, A.fix p.terms, sumNeg (A.open p.terms), sumPos (A.open p.terms)⟩ := by
    have := scan_eq A p.terms [] 0 0 0
    simpa [w64_id hfix, w64_id hmn, w64_id hmx] using this
  have hl := lhs_over A σ p.terms
  rw [hover] at hl
  have hmk : ∀ c rhs ts, ts ≠ [] → Formula.mkPbc c rhs ts ≠ Formula.const b := by
    intro c rhs ts hne
    unfold Formula.mkPbc Formula.constructCc
    rw [if_neg hne]
    split
    · rw [if_neg (by simpa using hne)]
      split <;> cases b <;> simp [Formula.const]
    · cases b <;> simp [Formula.const]
  have hconst : ∀ b', Formula.const b' = Formula.const b → b' = b := by
    intro b' h; cases b <;> cases b' <;> first | rfl | exact nomatch h
  unfold PBC.restrict at h
  rw [hsc] at h
  simp only at h
  split at h
  · rename_i he
    have hb : p.cmp.test (A.fix p.terms) p.rhs = b := by
      cases b <;> cases ht : p.cmp.test (A.fix p.terms) p.rhs <;> rw [ht] at h <;> simp_all [Formula.const]
    rw [PBC.eval, hl, he]
    simpa [PBC.lhs] using hb
  · rename_i he
    rw [w64_id hrhs] at h
    have hsd : ∀ b', evalCoeffs (sumNeg (A.open p.terms)) (sumPos (A.open p.terms)) (p.rhs - A.fix p.terms) p.cmp = some b' →
        p.eval σ = b' := by
      intro b' hb
      have hb2 := lhs_bounds σ (A.open p.terms)
      have := evalCoeffs_sound hb2.1 hb2.2 hb
      rw [test_sub] at this
      rw [PBC.eval, hl, this]
    split at h
    · split at h
      · rename_i h1; rw [hsd _ h1]; exact hconst _ h
      · rename_i h1; rw [hsd _ h1]; exact hconst _ h
      · exact absurd h (hmk _ _ _ he)
    · exact absurd h (hmk _ _ _ he)

/-- Example: `5a + 2b - c >= 4` is decided by `a`. -/
example : PBC.restrict ⟨[(va.p, 5), (vb.p, 2), (vc.p, -1)], .ge, 4⟩ ⟨[va], []⟩ = Formula.const true := by decide

/-- Beyond 63 bits the claim is false: the satisfied sum of `(2^63 - 1) a + b >= 0` overflows
(release profile). -/
theorem C20_overflow_counterexample : ∃ (p : PBC) (A : PAsg) (σ : Asg), (∀ v ∈ A.pos, σ v = true) ∧ (∀ v ∈ A.neg, σ v = false) ∧
    (∀ t ∈ p.terms, I64 t.2) ∧ p.restrict A = Formula.const false ∧ p.eval σ = true := by
  refine ⟨⟨[(va.p, 2 ^ 63 - 1), (vb.p, 1)], .ge, 0⟩, ⟨[va, vb], []⟩, fun _ => true, by simp, by simp, ?_, by decide, by decide⟩
  unfold I64; decide

/-! ### C10 -/

/-- C10: the substitution lemma.  Partial: pseudo-Boolean constraints with
`sum |c| + |rhs| < 2^32`. -/
theorem C10_substitute_partial (C : Canon) {S : Subst} (hS : S.Norm) {f g : Formula} (hn : f.Norm) (hb : Bounded PBC.Fits32 f)
    (h : f.subst C S = some g) :
    g.Norm ∧ (∀ σ, g.eval σ = f.eval (S.asg σ)) ∧
      ∀ v, Occ v g → (Occ v f ∧ S v = none) ∨ ∃ w k, Occ w f ∧ S w = some k ∧ Occ v k := by
  have := subst_ok C hS hn hb g h
  exact ⟨this.norm, this.eval, this.occ⟩

/-- C10: no panic if variables in constraints are replaced by constants or literals (by
constants or variables in cardinality constraints). -/
theorem C10_substitute_total (C : Canon) {S : Subst} {f : Formula} (h : S.Simple f) : ∃ g, f.subst C S = some g :=
  Option.isSome_iff_exists.1 (subst_total C h)

/-- The substitution of the examples: `a := ~b`, `b := a`. -/
private def swapSub : Subst := fun v => if v = va then some (.lit vb.n) else if v = vb then some (.lit va.p) else none

/-- Example: simultaneous substitution in `a => b` and in `2a + b >= 2`. -/
example : swapSub.Norm ∧ swapSub.Simple (.impl (.lit va.p) (.pbc ⟨[(va.p, 2), (vb.p, 1)], .ge, 2⟩)) ∧
    Bounded PBC.Fits32 (.impl (.lit va.p) (.pbc ⟨[(va.p, 2), (vb.p, 1)], .ge, 2⟩)) ∧
    (Formula.impl (.lit va.p) (.pbc ⟨[(va.p, 2), (vb.p, 1)], .ge, 2⟩)).subst canon0 swapSub =
      some (.impl (.lit vb.n) (.pbc ⟨[(vb.n, 2), (va.p, 1)], .ge, 2⟩)) := by
  refine ⟨?_, .impl (.lit _) (.pbc ?_), .impl (.lit _) (.pbc ?_), by decide⟩
  · intro v g h
    unfold swapSub at h
    split at h
    · cases h; exact .lit _
    · split at h
      · cases h; exact .lit _
      · simp at h
  · intro t ht g hg
    simp only [List.mem_cons, List.not_mem_nil, or_false] at ht
    rcases ht with rfl | rfl
    · right; right; exact ⟨vb.n, by simpa [swapSub, va, vb] using hg.symm⟩
    · right; right; exact ⟨va.p, by simpa [swapSub, va, vb] using hg.symm⟩
  · unfold PBC.Fits32; decide

/-- A formula in place of a variable of a constraint panics. -/
theorem C10_panic : (Formula.cc ⟨[va, vb], .le, 1⟩).subst canon0 (fun v => if v = va then some (.lit vb.n) else none) = none := by
  decide

/-- Without the bound the claim is false: `-2^32 a + b = 0` with `a := true` becomes `b = 0`. -/
theorem C10_truncated_counterexample : ∃ (f g : Formula) (S : Subst) (σ : Asg), f.Norm ∧ S.Norm ∧
    f.subst canon0 S = some g ∧ g.eval σ ≠ f.eval (S.asg σ) := by
  refine ⟨.pbc ⟨[(va.p, -2 ^ 32), (vb.p, 1)], .eq, 0⟩, .cc ⟨[vb], .eq, 0⟩, fun v => if v = va then some .tru else none, fun _ => false,
    .pbc ⟨by decide, by decide, ?_, ?_⟩, ?_, by decide, by decide⟩
  · unfold I64; decide
  · unfold I64; decide
  · intro v g h
    simp only at h
    split at h
    · cases h; exact .tru
    · simp at h

/-! ### C19 -/

/-- C19: normalization terminates, preserves the meaning, and gives a constant, a `<=`
constraint with positive coefficients over distinct variables, or, for an equation, the
conjunction of two of these.  Partial: `sum |c| + |rhs| < 2^63 - 1` and fewer than `2^32`
terms. -/
theorem C19_normalize_partial (C : Canon) {p : PBC} (hl : p.terms.length < 2 ^ 32)
    (hb : absSum p.terms + (if p.rhs ≥ 0 then p.rhs else -p.rhs) < 2 ^ 63 - 1) :
    ∃ f, p.normalize C = some f ∧ (∀ σ, f.eval σ = p.eval σ) ∧ f.Norm ∧
      (IsNormLe f ∨ p.cmp = .eq ∧ ∃ g h, f = Formula.mkAnd C [g, h] ∧ IsNormLe g ∧ IsNormLe h) := by
  obtain ⟨f, h1, h2, h3, h4, h5⟩ := normalize_spec C hl hb
  refine ⟨f, h1, h5, h4, ?_⟩
  by_cases hc : p.cmp = .eq
  · exact h2.imp id fun h => ⟨hc, h⟩
  · exact .inl (h3 hc)

/-- Example: repeated, complementary, negative and zero terms. -/
example : (PBC.mk [(va.p, 2), (vb.p, -4), (va.n, 2), (vc.p, 6), (vc.p, 0)] .gt 3).normalize canon0 =
    some (.pbc ⟨[(vb.p, 2), (vc.n, 3)], .le, 2⟩) := by decide +kernel

/-- Beyond the bound the claim is false: `a >= -2^63` is true, but its right-hand side cannot
be negated (release profile). -/
theorem C19_overflow_counterexample : ∃ (p : PBC) (σ : Asg) (f : Formula), I64 p.rhs ∧ (∀ t ∈ p.terms, I64 t.2) ∧
    p.normalize canon0 = some f ∧ f.eval σ ≠ p.eval σ := by
  refine ⟨⟨[(va.p, 1)], .ge, -2 ^ 63⟩, fun _ => false, .fls, ?_, ?_, by decide, by decide⟩
  · unfold I64; decide
  · unfold I64; decide

/-! ### C16 -/

/-- Terms (specification). -/
inductive IsTerm : Formula → Prop
  | tru : IsTerm .tru
  | fls : IsTerm .fls
  | lit (l) : IsTerm (.lit l)
  | and {fs} : (∀ f ∈ fs, ∃ l, f = .lit l) → IsTerm (.nary .conj fs)

/-- Disjunctive normal form (specification). -/
inductive IsDnf : Formula → Prop
  | term {f} : IsTerm f → IsDnf f
  | or {fs} : (∀ f ∈ fs, IsTerm f) → IsDnf (.nary .disj fs)

/-- Negation normal form: conjunctions and disjunctions of literals and constants
(specification). -/
inductive IsNnf : Formula → Prop
  | tru : IsNnf .tru
  | fls : IsNnf .fls
  | lit (l) : IsNnf (.lit l)
  | nary {o fs} : (∀ f ∈ fs, IsNnf f) → IsNnf (.nary o fs)

theorem allLit_iff (fs : List Formula) : fs.all Formula.isLit = true ↔ ∀ f ∈ fs, ∃ l, f = .lit l := by
  simp only [List.all_eq_true]
  constructor
  · intro h f hf
    have := h f hf
    cases f <;> simp [Formula.isLit] at this
    exact ⟨_, rfl⟩
  · intro h f hf
    obtain ⟨l, rfl⟩ := h f hf
    rfl

theorem isMinterm_iff (f : Formula) : f.isMinterm = true ↔ IsTerm f := by
  constructor
  · intro h
    cases f with
    | tru => exact .tru
    | fls => exact .fls
    | lit l => exact .lit l
    | nary o fs =>
      cases o
      · exact .and ((allLit_iff fs).1 h)
      · simp [Formula.isMinterm] at h
    | _ => simp [Formula.isMinterm] at h
  · intro h
    cases h with
    | and h => exact (allLit_iff _).2 h
    | _ => rfl

/-- C16: `is_minterm` and `is_maxterm`. -/
theorem C16_terms (f : Formula) : (f.isMinterm = true ↔ IsTerm f) ∧ (f.isMaxterm = true ↔ IsClause f) := by
  refine ⟨isMinterm_iff f, ?_⟩
  constructor
  · intro h
    cases f with
    | tru => exact .tru
    | fls => exact .fls
    | lit l => exact .lit l
    | nary o fs =>
      cases o
      · simp [Formula.isMaxterm] at h
      · exact .or ((allLit_iff fs).1 h)
    | _ => simp [Formula.isMaxterm] at h
  · intro h
    cases h with
    | or h => exact (allLit_iff _).2 h
    | _ => rfl

/-- C16: `is_dnf` is exact in every state of its cache. -/
theorem C16_is_dnf {on : Bool} {m : Memo Bool} (hm : fnDnf.Reach on m) (f : Formula) :
    (fnDnf.run on f m).1 = true ↔ IsDnf f := by
  rw [(fnDnf.run_ok on f m hm.valid).1]
  have e : fnDnf.val f = fnDnf.fin f () := by rw [Fn.val_eq]; rfl
  rw [e]
  constructor
  · intro h
    cases f with
    | tru => exact .term .tru
    | fls => exact .term .fls
    | lit l => exact .term (.lit l)
    | nary o fs =>
      cases o
      · exact .term (.and ((allLit_iff fs).1 h))
      · refine .or fun g hg => (isMinterm_iff g).1 ?_
        simp only [fnDnf, List.all_eq_true] at h
        exact h g hg
    | _ => simp [fnDnf] at h
  · intro h
    cases h with
    | term h =>
      cases h with
      | and h => exact (allLit_iff _).2 h
      | _ => rfl
    | or h =>
      simp only [fnDnf, List.all_eq_true]
      exact fun g hg => (isMinterm_iff g).2 (h g hg)

/-- C16: `is_nnf` is exact in every state of its cache. -/
theorem C16_is_nnf {on : Bool} {m : Memo Bool} (hm : fnNnf.Reach on m) (f : Formula) :
    (fnNnf.run on f m).1 = true ↔ IsNnf f := by
  rw [(fnNnf.run_ok on f m hm.valid).1]
  clear hm
  have hall : ∀ (fs : List Formula) (b : Bool), (fs.foldl (fun (b : Bool) g => if !b then b else fnNnf.val g) b = true ↔
      b = true ∧ ∀ g ∈ fs, fnNnf.val g = true) := by
    intro fs
    induction fs with
    | nil => simp
    | cons g fs ih =>
      intro b
      simp only [List.foldl_cons, ih]
      cases b <;> simp
  induction f using Formula.ind with
  | tru => exact ⟨fun _ => .tru, fun _ => rfl⟩
  | fls => exact ⟨fun _ => .fls, fun _ => rfl⟩
  | lit l => exact ⟨fun _ => .lit l, fun _ => rfl⟩
  | nary o fs ih =>
    have e : fnNnf.val (.nary o fs) = fs.foldl (fun (b : Bool) g => if !b then b else fnNnf.val g) true := by rw [Fn.val_eq]; rfl
    rw [e, hall]
    simp only [true_and]
    constructor
    · intro h; exact .nary fun g hg => (ih g hg).1 (h g hg)
    · intro h g hg; cases h with | nary h => exact (ih g hg).2 (h g hg)
  | not f _ => exact ⟨fun h => by rw [Fn.val_eq] at h; simp [Formula.operands, fnNnf, Fn.nextV] at h, fun h => nomatch h⟩
  | impl a b _ _ => exact ⟨fun h => by rw [Fn.val_eq] at h; simp [Formula.operands, fnNnf, Fn.nextV] at h, fun h => nomatch h⟩
  | equiv a b _ _ => exact ⟨fun h => by rw [Fn.val_eq] at h; simp [Formula.operands, fnNnf, Fn.nextV] at h, fun h => nomatch h⟩
  | cc c => exact ⟨fun h => by rw [Fn.val_eq] at h; simp [Formula.operands, fnNnf] at h, fun h => nomatch h⟩
  | pbc p => exact ⟨fun h => by rw [Fn.val_eq] at h; simp [Formula.operands, fnNnf] at h, fun h => nomatch h⟩

/-- Example: a cache filled by an earlier call is used for a sub-formula. -/
example : let g : Formula := .nary .disj [.lit va.p, .not (.nary .conj [.lit vb.p, .lit vc.p])]
    let m := (fnNnf.run true g fun _ => none).2
    fnNnf.Reach true m ∧ m g = some false ∧ (fnNnf.run true (.nary .conj [.lit vc.p, g]) m).1 = false :=
  ⟨.call _ .empty, by decide, by decide⟩

/-! ### C17 -/

/-- C17: `variables` returns exactly the occurring variables, in every state of its cache,
and no other variable influences the value. -/
theorem C17_variables {on : Bool} {m : Memo (List Var)} (hm : fnVars.Reach on m) (f : Formula) :
    (∀ v, v ∈ (fnVars.run on f m).1 ↔ Occ v f) ∧ (fnVars.run on f m).1.Nodup ∧
    ∀ σ τ : Asg, (∀ v ∈ (fnVars.run on f m).1, σ v = τ v) → f.eval σ = f.eval τ := by
  rw [(fnVars.run_ok on f m hm.valid).1]
  obtain ⟨h1, h2⟩ := vars_val f
  exact ⟨h1, h2, fun σ τ h => Formula.eval_congr fun v hv => h v ((h1 v).2 hv)⟩

/-- C17: `literals` returns exactly the occurring literals, in every state of its cache. -/
theorem C17_literals {on : Bool} {m : Memo (List Lit)} (hm : fnLits.Reach on m) (f : Formula) :
    (∀ l, l ∈ (fnLits.run on f m).1 ↔ OccL l f) ∧ (fnLits.run on f m).1.Nodup := by
  rw [(fnLits.run_ok on f m hm.valid).1]
  exact lits_val f

/-- C17: `sub_nodes` lists every sub-formula exactly once, operands before the formulas they
belong to, the formula itself last; in every state of its cache. -/
theorem C17_sub_nodes {m : Memo (List Formula)} (hm : fnSub.Reach true m) (f : Formula) :
    (∀ g, g ∈ (fnSub.run true f m).1 ↔ Sub g f) ∧ (fnSub.run true f m).1.Nodup ∧
    (∀ l1 g l2, (fnSub.run true f m).1 = l1 ++ g :: l2 → ∀ o ∈ g.operands, o ∈ l1) ∧
    ∃ l, (fnSub.run true f m).1 = l ++ [f] := by
  rw [(fnSub.run_ok true f m hm.valid).1]
  exact sub_val f

/-- Example: shared sub-formulas are listed once. -/
example : (fnSub.run true (.impl (.nary .conj [.lit va.p, .lit vb.n]) (.not (.nary .conj [.lit va.p, .lit vb.n]))) fun _ => none).1 =
    [.lit va.p, .lit vb.n, .nary .conj [.lit va.p, .lit vb.n], .not (.nary .conj [.lit va.p, .lit vb.n]),
      .impl (.nary .conj [.lit va.p, .lit vb.n]) (.not (.nary .conj [.lit va.p, .lit vb.n]))] ∧
    (fnVars.run true (.impl (.nary .conj [.lit va.p, .lit vb.n]) (.cc ⟨[vc, va], .le, 1⟩)) fun _ => none).1 = [va, vb, vc] := by
  constructor <;> decide

/-! ### C50 -/

/-- C50: `evaluate` returns the truth value with unassigned variables false.  Partial: the
left-hand sides of pseudo-Boolean constraints have to stay within 64 bits; the assignment
does not contain a variable in both phases. -/
theorem C50_evaluate_partial {A : PAsg} (hd : ∀ v ∈ A.pos, v ∉ A.neg) {f : Formula} (hb : Bounded PBC.SumFits f) :
    f.evaluate A = f.eval fun v => decide (v ∈ A.pos) := by
  rw [evaluate_eq hd hb]
  congr 1
  funext v
  unfold PAsg.over
  split
  · rename_i h; simp [h]
  · rename_i h; simp [h]

/-- Example. -/
example : let f : Formula := .equiv (.lit vb.n) (.pbc ⟨[(va.p, 2), (vb.n, 3)], .gt, 4⟩)
    Bounded PBC.SumFits f ∧ f.evaluate ⟨[va], [vc]⟩ = true := by
  refine ⟨.equiv (.lit _) (.pbc ?_), by decide⟩
  unfold PBC.SumFits; decide

/-- With a variable in both phases (`add_literal` does not remove the other phase,
assignment.rs:266), both literals are true. -/
theorem C50_both_phases : Formula.evaluate ⟨[va], [va]⟩ (.nary .conj [.lit va.p, .lit va.n]) = true := by decide

/-- The restriction of `C50_evaluate_partial` is needed: the sum of `(2^63 - 1) a + b >= 0`
overflows (release profile), and the constraint is evaluated to false. -/
theorem C50_overflow_counterexample : ∃ (p : PBC) (A : PAsg), (∀ v ∈ A.pos, v ∉ A.neg) ∧ (∀ t ∈ p.terms, I64 t.2) ∧ I64 p.rhs ∧
    Formula.evaluate A (.pbc p) = false ∧ (Formula.pbc p).eval (fun v => decide (v ∈ A.pos)) = true := by
  refine ⟨⟨[(va.p, 2 ^ 63 - 1), (vb.p, 1)], .ge, 0⟩, ⟨[va, vb], []⟩, by simp, ?_, ?_, by decide, by decide⟩ <;> · unfold I64; decide

/-! ### C51 -/

/-- C51: `contains_node` ends and finds a formula exactly if it is a sub-formula, or the
variable or literal of a constraint in it. -/
theorem C51_contains_node (f node : Formula) : ∃ b, f.containsNode node = some b ∧
    (b = true ↔ Sub node f ∨ (∃ c v, Sub (.cc c) f ∧ v ∈ c.vars ∧ node = .lit v.p) ∨
      ∃ p t, Sub (.pbc p) f ∧ t ∈ p.terms ∧ (node = .lit t.1 ∨ node = .lit t.1.v.p)) := by
  obtain ⟨b, h1, h2⟩ := dfs_root (fun c => decide (c = node) || match c with
    | .cc k => k.vars.any fun v => decide (Formula.lit v.p = node)
    | .pbc p => p.terms.any fun t => decide (Formula.lit t.1 = node) || decide (Formula.lit t.1.v.p = node)
    | _ => false) (fun _ => true) f (by simp)
  refine ⟨b, h1, h2.trans ?_⟩
  constructor
  · rintro ⟨g, hg, ht⟩
    simp only [Bool.or_eq_true, decide_eq_true_eq] at ht
    rcases ht with rfl | ht
    · exact .inl hg
    · cases g with
      | cc c =>
        simp only [List.any_eq_true, decide_eq_true_eq] at ht
        obtain ⟨v, hv, rfl⟩ := ht
        exact .inr (.inl ⟨c, v, hg, hv, rfl⟩)
      | pbc p =>
        simp only [List.any_eq_true, decide_eq_true_eq, Bool.or_eq_true] at ht
        obtain ⟨t, hv, h⟩ := ht
        exact .inr (.inr ⟨p, t, hg, hv, h.imp Eq.symm Eq.symm⟩)
      | _ => simp at ht
  · rintro (h | ⟨c, v, h, hv, rfl⟩ | ⟨p, t, h, ht, e⟩)
    · exact ⟨node, h, by simp⟩
    · refine ⟨.cc c, h, ?_⟩
      simp only [Bool.or_eq_true, List.any_eq_true, decide_eq_true_eq]
      exact .inr ⟨v, hv, rfl⟩
    · refine ⟨.pbc p, h, ?_⟩
      simp only [Bool.or_eq_true, List.any_eq_true, decide_eq_true_eq]
      exact .inr ⟨t, ht, e.imp Eq.symm Eq.symm⟩

theorem occ_sub {x : Var} {g f : Formula} (h : Sub g f) : Occ x g → Occ x f := by
  induction h with
  | refl => exact id
  | @op o f ho _ ih =>
    intro hx
    have := ih hx
    cases f <;> simp only [Formula.operands, List.not_mem_nil, List.mem_cons, or_false] at ho
    · subst ho; exact .not this
    · rcases ho with rfl | rfl; exacts [.implL this, .implR this]
    · rcases ho with rfl | rfl; exacts [.equivL this, .equivR this]
    · exact .nary ho this

/-- C51: `contains_var_name` ends and finds exactly the occurring variables. -/
theorem C51_contains_variable (f : Formula) (x : Var) : ∃ b, f.containsVar x = some b ∧ (b = true ↔ Occ x f) := by
  obtain ⟨b, h1, h2⟩ := dfs_root (fun c => match c with
    | .lit l => decide (l.v = x)
    | .cc k => k.vars.any fun v => decide (v = x)
    | .pbc p => p.terms.any fun t => decide (t.1.v = x)
    | _ => false) (fun _ => true) f (by simp)
  refine ⟨b, h1, h2.trans ?_⟩
  clear h1 h2
  constructor
  · rintro ⟨g, hg, ht⟩
    have hx : Occ x g := by
      cases g <;> simp at ht
      · simpa using ht
      · simpa using ht
      · obtain ⟨l, h, e⟩ := ht; simp only [Formula.occ_pbc]; exact ⟨(l, _), h.choose_spec, e⟩
    exact occ_sub hg hx
  · intro h
    induction h with
    | lit p => exact ⟨_, .refl _, by simp⟩
    | cc h => exact ⟨_, .refl _, by simpa using h⟩
    | pbc h e => exact ⟨_, .refl _, by simp only [List.any_eq_true, decide_eq_true_eq]; exact ⟨_, h, e⟩⟩
    | not _ ih => obtain ⟨g, h1, h2⟩ := ih; exact ⟨g, .op (by simp [Formula.operands]) h1, h2⟩
    | implL _ ih => obtain ⟨g, h1, h2⟩ := ih; exact ⟨g, .op (by simp [Formula.operands]) h1, h2⟩
    | implR _ ih => obtain ⟨g, h1, h2⟩ := ih; exact ⟨g, .op (by simp [Formula.operands]) h1, h2⟩
    | equivL _ ih => obtain ⟨g, h1, h2⟩ := ih; exact ⟨g, .op (by simp [Formula.operands]) h1, h2⟩
    | equivR _ ih => obtain ⟨g, h1, h2⟩ := ih; exact ⟨g, .op (by simp [Formula.operands]) h1, h2⟩
    | nary hf _ ih => obtain ⟨g, h1, h2⟩ := ih; exact ⟨g, .op hf h1, h2⟩

/-- The caches `contains_pbc` can produce. -/
inductive PbcReach (on : Bool) : Memo Bool → Prop
  | empty : PbcReach on fun _ => none
  | call {m} (f : Formula) : PbcReach on m → PbcReach on (f.containsPbc on m).2

/-- A constraint occurs in the formula (specification). -/
def HasPbc (f : Formula) : Prop := ∃ g, Sub g f ∧ ((∃ p, g = .pbc p) ∨ ∃ c, g = .cc c)

theorem containsPbc_ok {on m} (h : PbcReach on m) :
    (∀ f b, m f = some b → b = true ∧ HasPbc f) ∧ ∀ f, ∃ b, (f.containsPbc on m).1 = some b ∧ (b = true ↔ HasPbc f) := by
  have step : ∀ m : Memo Bool, (∀ f b, m f = some b → b = true ∧ HasPbc f) → ∀ f, ∃ b, (f.containsPbc on m).1 = some b ∧ (b = true ↔ HasPbc f) := by
    intro m hm f
    obtain ⟨b, h1, h2⟩ := dfs_root (fun c => match m c with
      | some b => b
      | none => match c with
        | .pbc _ => true
        | .cc _ => true
        | _ => false) (fun c => (m c).isNone) f (by
        intro g he ht
        cases hg : m g with
        | none => rw [hg] at he; simp at he
        | some b => rw [hg] at ht; simp only at ht; have := (hm g b hg).1; rw [this] at ht; simp at ht)
    refine ⟨b, h1, h2.trans ?_⟩
    constructor
    · rintro ⟨g, hg, ht⟩
      cases hm' : m g with
      | some b =>
        obtain ⟨k, hk, hk'⟩ := (hm g b hm').2
        exact ⟨k, hk.trans hg, hk'⟩
      | none =>
        rw [hm'] at ht
        cases g <;> simp at ht
        · exact ⟨_, hg, .inr ⟨_, rfl⟩⟩
        · exact ⟨_, hg, .inl ⟨_, rfl⟩⟩
    · rintro ⟨g, hg, ht⟩
      refine ⟨g, hg, ?_⟩
      cases hm' : m g with
      | some b => exact (hm g b hm').1
      | none => rcases ht with ⟨_, rfl⟩ | ⟨_, rfl⟩ <;> rfl
  induction h with
  | empty => exact ⟨by simp, step _ (by simp)⟩
  | @call m f _ ih =>
    have hm : ∀ g b, (f.containsPbc on m).2 g = some b → b = true ∧ HasPbc g := by
      obtain ⟨b, h1, h2⟩ := ih.2 f
      intro g b' hg
      unfold Formula.containsPbc at hg h1
      simp only at hg h1
      rw [h1] at hg
      split at hg
      · rename_i hc
        simp only [Memo.insert] at hg
        split at hg
        · rename_i e; subst e
          simp at hc
          have hp := h2.1 hc.1
          cases hmg : m g with
          | none => rw [hmg] at hg; cases hg; exact ⟨rfl, hp⟩
          | some b2 => rw [hmg] at hg; cases hg; exact ih.1 g _ hmg
        · exact ih.1 g b' hg
      · exact ih.1 g b' hg
    exact ⟨hm, step _ hm⟩

/-- C51: `contains_pbc` ends and finds exactly the formulas with a cardinality or
pseudo-Boolean constraint, in every state of its cache. -/
theorem C51_contains_pbc {on : Bool} {m : Memo Bool} (h : PbcReach on m) (f : Formula) :
    ∃ b, (f.containsPbc on m).1 = some b ∧ (b = true ↔ ∃ g, Sub g f ∧ ((∃ p, g = .pbc p) ∨ ∃ c, g = .cc c)) :=
  (containsPbc_ok h).2 f

/-- Example: the variable of a constraint is found, the variable below a negative literal is
not (the literal is atomic). -/
example : (Formula.impl (.lit va.n) (.cc ⟨[vb, vc], .le, 1⟩)).containsNode (.lit vb.p) = some true ∧
    (Formula.impl (.lit va.n) (.cc ⟨[vb, vc], .le, 1⟩)).containsNode (.lit va.p) = some false ∧
    (Formula.impl (.lit va.n) (.cc ⟨[vb, vc], .le, 1⟩)).containsVar va = some true := by decide

/-- Example: the second call uses the cache filled by the first. -/
example : let g : Formula := .not (.cc ⟨[vb, vc], .le, 1⟩)
    let m := (g.containsPbc true fun _ => none).2
    PbcReach true m ∧ m g = some true ∧ ((Formula.nary .conj [.lit va.p, g]).containsPbc true m).1 = some true :=
  ⟨.call _ .empty, by decide, by decide⟩

/-! ### C52 -/

/-- C52: `depth` is the length of the longest chain of operands, in every state of its
cache. -/
theorem C52_depth {on : Bool} {m : Memo Nat} (hm : fnDepth.Reach on m) {f : Formula} (hn : f.Norm) :
    Chain (fnDepth.run on f m).1 f ∧ ∀ n, Chain n f → n ≤ (fnDepth.run on f m).1 := by
  rw [(fnDepth.run_ok on f m hm.valid).1]
  exact depth_val hn

/-- C52: `number_of_atoms` counts the atomic formulas at the ends of all paths, in every state
of its cache. -/
theorem C52_atoms {on : Bool} {m : Memo Nat} (hm : fnAtoms.Reach on m) {f : Formula} (hn : f.Norm) (n : Nat) (h : sizeOf f ≤ n) :
    (fnAtoms.run on f m).1 = (leaves n f).length := by
  rw [(fnAtoms.run_ok on f m hm.valid).1]
  exact atoms_val hn n h

/-- C52: `variable_profile` counts every occurrence and has no entry for other variables. -/
theorem C52_profile (f : Formula) (v : Var) :
    profile f (fun _ => none) v = (if v ∈ occList f then some ((occList f).count v) else none) ∧ (v ∈ occList f ↔ Occ v f) := by
  refine ⟨?_, mem_occList v f⟩
  rw [profile_eq, foldl_bump]
  simp

/-- Example. -/
example : let f : Formula := .equiv (.nary .disj [.lit va.p, .not (.nary .conj [.lit va.n, .lit vb.p])]) (.cc ⟨[va, vb], .le, 1⟩)
    (fnDepth.run true f fun _ => none).1 = 4 ∧ (fnAtoms.run true f fun _ => none).1 = 4 ∧
    profile f (fun _ => none) va = some 3 ∧ profile f (fun _ => none) vc = none := by decide

end Verif
