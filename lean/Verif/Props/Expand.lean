import Verif.F.Expand
import Verif.F.Anon
import Verif.F.CnfAlg
import Verif.Props.Factory

/-
C47: pure expansion and anonymization.  As in `Verif.Props.Ops`, the operations are modelled
on trees and `C : Canon` is any operand order.
-/
namespace Verif

private abbrev va : Var := .named 0
private abbrev vb : Var := .named 1
private abbrev vc : Var := .named 2

private def canonE : Canon := ⟨fun _ fs => fs, fun _ _ => .refl _, fun _ _ => false⟩

/-- C47: pure expansion succeeds exactly on formulas whose constraints are all at-most-one or
exactly-one cardinality constraints. -/
theorem C47_expansion_total (C : Canon) (f : Formula) : (f.pureExp C).isSome ↔ OneCons f := pureExp_isSome C f

/-- C47: the result of pure expansion has the same value under every assignment, no new
variables, and no constraints. -/
theorem C47_expansion (C : Canon) {f g : Formula} (h : f.pureExp C = some g) :
    (∀ σ, g.eval σ = f.eval σ) ∧ (∀ v, Occ v g → Occ v f) ∧ g.Norm ∧ ∀ x, Sub x g → (∀ c, x ≠ .cc c) ∧ ∀ p, x ≠ .pbc p := by
  have k := pureExp_ok C f g h
  exact ⟨k.eval, k.occ, k.norm, k.noCon⟩

/-- C47: a constraint on its own is replaced by a CNF. -/
theorem C47_cnf (C : Canon) {c : CC} {g : Formula} (h : Formula.pureExp C (.cc c) = some g) : IsCnf g := by
  simp only [Formula.pureExp, pureCc] at h
  split at h
  · cases h
    refine isCnf_mkAnd C _ fun g hg => ?_
    have hcl : ∀ cl : Clause, IsCnf (Formula.mkClause C cl) := fun cl => .clause (isCl_disj.1 (isCl_mkClause C cl))
    rcases List.mem_append.1 hg with hg | hg
    · obtain ⟨cl, _, rfl⟩ := List.mem_map.1 hg
      exact hcl cl
    · split at hg
      · rw [List.mem_singleton.1 hg]
        have := hcl (c.vars.map Var.p)
        unfold Formula.mkClause at this
        rw [List.map_map] at this
        exact this
      · cases hg
  · cases h

/-- C47, exactly-one: the expansion of `v₁ + … + vₙ = 1` is true exactly under the assignments
that make one position of the list true. -/
theorem C47_exactly_one (C : Canon) (vs : List Var) : ∃ g, Formula.pureExp C (.cc ⟨vs, .eq, 1⟩) = some g ∧
    ∀ σ : Asg, g.eval σ = true ↔ ∃! i, ∃ h : i < vs.length, σ vs[i] = true := by
  obtain ⟨g, e⟩ := Option.isSome_iff_exists.1 ((C47_expansion_total C (.cc ⟨vs, .eq, 1⟩)).2 fun x hx => by
    rcases sub_operands.1 hx with rfl | ⟨y, hy, _⟩
    · exact ⟨(fun p e => nomatch e), fun c e => by cases e; exact .inr (.inr ⟨rfl, rfl⟩)⟩
    · simp [Formula.operands] at hy)
  refine ⟨g, e, fun σ => ?_⟩
  rw [(C47_expansion C e).1]
  have : Formula.eval σ (.cc ⟨vs, .eq, 1⟩) = true ↔ cntV σ vs = 1 := by
    rw [Formula.eval_cc]; simp only [CC.eval, Cmp.test_eq]; omega
  rw [this]
  unfold cntV
  clear this e g
  induction vs with
  | nil => simp [ExistsUnique]
  | cons v vs ih =>
    rw [List.countP_cons]
    have hz : vs.countP (fun v => σ v) = 0 ↔ ∀ i, ¬ ∃ h : i < vs.length, σ vs[i] = true := by
      rw [List.countP_eq_zero]
      constructor
      · rintro h i ⟨hi, e⟩; exact h _ (List.getElem_mem hi) e
      · intro h w hw e
        obtain ⟨i, hi, rfl⟩ := List.getElem_of_mem hw
        exact h i ⟨hi, e⟩
    cases hv : σ v with
    | true =>
      rw [if_pos rfl]
      constructor
      · intro h
        have h := hz.1 (by omega)
        refine ⟨0, ⟨by simp, by simpa using hv⟩, fun j hj => ?_⟩
        obtain ⟨hj, e⟩ := hj
        cases j with
        | zero => rfl
        | succ j => exact absurd ⟨by simpa using hj, by simpa using e⟩ (h j)
      · rintro ⟨i, hi, hu⟩
        have h0 := hu 0 ⟨by simp, by simpa using hv⟩
        have : vs.countP (fun v => σ v) = 0 := hz.2 fun j hj => by
          obtain ⟨hj, e⟩ := hj
          have := hu (j + 1) ⟨by simpa using hj, by simpa using e⟩
          omega
        omega
    | false =>
      rw [if_neg (by simp), Nat.add_zero]
      refine Iff.trans ih ?_
      constructor
      · rintro ⟨i, ⟨hi, e⟩, hu⟩
        refine ⟨i + 1, ⟨by simpa using hi, by simpa using e⟩, fun j hj => ?_⟩
        obtain ⟨hj, e'⟩ := hj
        cases j with
        | zero => simp only [List.getElem_cons_zero, hv] at e'; cases e'
        | succ j => rw [hu j ⟨by simpa using hj, by simpa using e'⟩]
      · rintro ⟨i, ⟨hi, e⟩, hu⟩
        cases i with
        | zero => simp only [List.getElem_cons_zero, hv] at e; cases e
        | succ i =>
          refine ⟨i, ⟨by simpa using hi, by simpa using e⟩, fun j hj => ?_⟩
          obtain ⟨hj, e'⟩ := hj
          have := hu (j + 1) ⟨by simpa using hj, by simpa using e'⟩
          omega

/-- Example: `~(a + b = 1)` and `a => (a + b + c <= 1)`. -/
example : Formula.pureExp canonE (.not (.cc ⟨[va, vb], .eq, 1⟩)) =
      some (.not (.nary .conj [.nary .disj [.lit va.n, .lit vb.n], .nary .disj [.lit va.p, .lit vb.p]])) ∧
    Formula.pureExp canonE (.impl (.lit va.p) (.cc ⟨[va, vb, vc], .le, 1⟩)) = some (.impl (.lit va.p)
      (.nary .conj [.nary .disj [.lit va.n, .lit vb.n], .nary .disj [.lit va.n, .lit vc.n], .nary .disj [.lit vb.n, .lit vc.n]])) ∧
    Formula.pureExp canonE (.cc ⟨[va, vb, vc], .le, 2⟩) = none := by decide

/-- C47: after any sequence of calls, anonymizing a formula succeeds; the variables are
renamed injectively, into numbered variables only, and consistently with all earlier calls;
the value of the new formula is that of the old one with the variables renamed. -/
theorem C47_anonymize {C : Canon} {fresh : Nat → Var} (hf : Function.Injective fresh) {a : Anon} (ha : a.Reach C fresh)
    {f : Formula} (hn : f.Norm) {vs : List Var} (hvs : ∀ v, v ∈ vs ↔ Occ v f) :
    ∃ g a', a.anonymize C fresh vs f = (some g, a') ∧ g.Norm ∧
      (∀ v x, a.sub v = some x → a'.sub v = some x) ∧
      ∃ ρ : Var → Var, (∀ v, Occ v f → a'.sub v = some (.lit (ρ v).p)) ∧ (∀ v, Occ v f → ∃ k < a'.counter, ρ v = fresh k) ∧
        (∀ v w, Occ v f → Occ w f → ρ v = ρ w → v = w) ∧
        (∀ w, Occ w g → ∃ v, Occ v f ∧ w = ρ v) ∧ ∀ σ, g.eval σ = f.eval fun v => σ (ρ v) := by
  rcases e : a.anonymize C fresh vs f with ⟨r1, a'⟩
  obtain ⟨h1, h2, h3, g, rfl, h4, h5, h6⟩ := anonymize_ok hf (ha.inv hf) hn hvs e
  refine ⟨g, a', rfl, h4, h2, a'.ren, fun v hv => (h1.ren_spec (h3 v hv)).1, fun v hv => (h1.ren_spec (h3 v hv)).2, fun v w hv hw e => ?_, h6, h5⟩
  have k1 := (h1.ren_spec (h3 v hv)).1
  have k2 := (h1.ren_spec (h3 w hw)).1
  rw [e] at k1
  exact h1.inj v w _ k1 k2

/-- C47: anonymization changes neither satisfiability nor, over any set `V` of variables the
anonymizer knows and that contains those of the formula, the number of models. -/
theorem C47_models {C : Canon} {fresh : Nat → Var} (hf : Function.Injective fresh) {a : Anon} (ha : a.Reach C fresh)
    {f : Formula} (hn : f.Norm) {vs : List Var} (hvs : ∀ v, v ∈ vs ↔ Occ v f) :
    ∃ g a', a.anonymize C fresh vs f = (some g, a') ∧ ((∃ σ, g.eval σ = true) ↔ ∃ σ, f.eval σ = true) ∧
      ∀ (V W : Finset Var), (∀ v, Occ v f → v ∈ V) → (∀ v ∈ V, (a'.sub v).isSome) →
        (∀ w, w ∈ W ↔ ∃ v ∈ V, a'.sub v = some (.lit w.p)) → (modelsOver W g).card = (modelsOver V f).card := by
  rcases e : a.anonymize C fresh vs f with ⟨r1, a'⟩
  obtain ⟨h1, h2, h3, g, rfl, h4, h5, h6⟩ := anonymize_ok hf (ha.inv hf) hn hvs e
  have hinj : ∀ v w, (a'.sub v).isSome → (a'.sub w).isSome → a'.ren v = a'.ren w → v = w := by
    intro v w hv hw e
    have k1 := (h1.ren_spec hv).1
    rw [e] at k1
    exact h1.inj v w _ k1 (h1.ren_spec hw).1
  refine ⟨g, a', rfl, ⟨?_, ?_⟩, fun V W hV hk hW => ?_⟩
  · rintro ⟨σ, h⟩; exact ⟨_, (h5 σ).symm.trans h⟩
  · rintro ⟨σ, h⟩
    classical
    refine ⟨fun w => decide (∃ v, Occ v f ∧ a'.ren v = w ∧ σ v = true), ?_⟩
    rw [h5]
    refine Eq.trans ?_ h
    refine Formula.eval_congr fun v hv => ?_
    rw [Bool.eq_iff_iff, decide_eq_true_iff]
    constructor
    · rintro ⟨w, ow, e, hw⟩; rw [← hinj w v (h3 w ow) (h3 v hv) e]; exact hw
    · intro h; exact ⟨v, hv, rfl, h⟩
  · have : W = V.image a'.ren := by
      ext w
      rw [hW, Finset.mem_image]
      constructor
      · rintro ⟨v, hv, e⟩
        refine ⟨v, hv, ?_⟩
        rw [(h1.ren_spec (hk v hv)).1] at e
        simpa [Var.p] using e
      · rintro ⟨v, hv, rfl⟩; exact ⟨v, hv, (h1.ren_spec (hk v hv)).1⟩
    rw [this]
    exact card_modelsOver (fun v hv w hw e => hinj v w (hk v hv) (hk w hw) e) hV h5

/-- Example: the prefix names clash with the names in the formula: `a & b & (a + b + c <= 1)`
where `a`, `b`, `c` are already called `v2`, `v0`, `v1`. -/
example : let fresh : Nat → Var := fun k => .named k
    let f : Formula := .nary .conj [.lit (Var.named 2).p, .lit (Var.named 0).n, .cc ⟨[.named 2, .named 0, .named 1], .le, 1⟩]
    let r := Anon.new.anonymize canonE fresh [.named 2, .named 0, .named 1] f
    f.Norm ∧ r.1 = some (.nary .conj [.lit (Var.named 0).p, .lit (Var.named 1).n, .cc ⟨[.named 0, .named 1, .named 2], .le, 1⟩]) ∧
    r.2.counter = 3 ∧ Function.Injective fresh := by
  refine ⟨?_, by decide, by decide, fun a b h => by simpa using h⟩
  rw [show Formula.nary .conj [.lit (Var.named 2).p, .lit (Var.named 0).n, .cc ⟨[.named 2, .named 0, .named 1], .le, 1⟩] =
    Formula.mkNary canonE .conj [.lit (Var.named 2).p, .lit (Var.named 0).n, .cc ⟨[.named 2, .named 0, .named 1], .le, 1⟩] by decide]
  refine Formula.norm_mkNary _ _ fun f hf => ?_
  simp only [List.mem_cons, List.not_mem_nil, or_false] at hf
  rcases hf with rfl | rfl | rfl
  · exact .lit _
  · exact .lit _
  · exact .cc ⟨by decide, by decide, by decide⟩

end Verif
