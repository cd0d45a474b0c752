import Verif.Props.TermFun
/-
C58 outside the bounds of C09: backbone simplification changes the models of a formula with a
large coefficient.
-/
namespace Verif.Sat
open St

private abbrev a : Var := .named 0
private abbrev b : Var := .named 1
private abbrev x : Var := .named 2
private abbrev y : Var := .named 3

private def bigP : PBC := ⟨[(a.p, -2 ^ 32), (b.p, 1)], .eq, 0⟩

/-- `a & (-2^32 a + b = 0 | x | y)` -/
def exBig : Formula := .nary .conj [.lit a.p, .nary .disj [.pbc bigP, .lit x.p, .lit y.p]]

theorem exBig_norm : exBig.Norm := by
  have hp : Formula.Norm (.pbc bigP) := by
    refine .pbc ⟨by decide, by decide, ?_, ?_⟩
    · unfold I64; decide
    · unfold I64; decide
  refine .nary (by decide) ?_ ⟨by decide, by decide, ?_, ?_, ?_⟩
  · simp only [List.mem_cons, List.not_mem_nil, or_false, forall_eq_or_imp, forall_eq]
    refine ⟨.lit _, .nary (by decide) ?_ ⟨by decide, by decide, ?_, ?_, ?_⟩⟩
    · simp only [List.mem_cons, List.not_mem_nil, or_false, forall_eq_or_imp, forall_eq]
      exact ⟨hp, .lit _, .lit _⟩
    · simp
    · intro l hl h
      simp [Lit.neg] at hl h
      rcases hl with rfl | rfl <;> simp at h
    · simp
  · simp
  · intro l hl h
    simp [Lit.neg] at hl h
    subst hl
    simp at h
  · simp

theorem exBig_occ {v : Var} (h : Occ v exBig) : v = a ∨ v = b ∨ v = x ∨ v = y := by
  simp only [exBig, bigP, Formula.occ_nary, List.mem_cons, List.not_mem_nil, or_false, exists_eq_or_imp, exists_eq_left, Formula.occ_lit,
    Formula.occ_pbc] at h
  rcases h with h | (h | h) | h | h
  all_goals simp_all

theorem exBig_input (cfg : FCfg) (c : AuxTy → Nat) : Input cfg c exBig := by
  refine ⟨exBig_norm, ?_, fun v hv => ?_⟩
  · have hP : TFit cfg bigP.terms bigP.rhs := ⟨by decide, by decide, fun _ => by decide⟩
    have hf := fit_leaf_pbc hP
    have hs : ∀ g, Sub g exBig → g = exBig ∨ (∃ l, g = .lit l) ∨ g = .nary .disj [.pbc bigP, .lit x.p, .lit y.p] ∨ g = .pbc bigP := by
      intro g hg
      have hl : ∀ l, Sub g (.lit l) → g = .lit l := by
        intro l h
        rcases sub_operands.1 h with h | ⟨o, ho, _⟩
        · exact h
        · simp [Formula.operands] at ho
      have hp : Sub g (.pbc bigP) → g = .pbc bigP := by
        intro h
        rcases sub_operands.1 h with h | ⟨o, ho, _⟩
        · exact h
        · simp [Formula.operands] at ho
      rcases sub_operands.1 hg with h | ⟨o, ho, h⟩
      · exact .inl h
      · simp only [exBig, Formula.operands, List.mem_cons, List.not_mem_nil, or_false] at ho
        rcases ho with rfl | rfl
        · exact .inr (.inl ⟨_, hl _ h⟩)
        · rcases sub_operands.1 h with h | ⟨o, ho, h⟩
          · exact .inr (.inr (.inl h))
          · simp only [Formula.operands, List.mem_cons, List.not_mem_nil, or_false] at ho
            rcases ho with rfl | rfl | rfl
            · exact .inr (.inr (.inr (hp h)))
            · exact .inr (.inl ⟨_, hl _ h⟩)
            · exact .inr (.inl ⟨_, hl _ h⟩)
    constructor
    · intro c hc
      rcases hs _ hc with h | ⟨l, h⟩ | h | h <;> cases h
    · intro p hp
      rcases hs _ hp with h | ⟨l, h⟩ | h | h
      · cases h
      · cases h
      · cases h
      · cases h; exact hP
  · rcases exBig_occ hv with rfl | rfl | rfl | rfl <;> trivial

theorem exBig_eval (σ : Asg) : exBig.eval σ = (σ a && (decide (¬ σ a = true ∧ ¬ σ b = true) || (σ x || σ y))) := by
  simp only [exBig, bigP, Formula.eval_nary, Op.eval, List.all_cons, List.all_nil, List.any_cons, List.any_nil, Formula.eval,
    PBC.eval, PBC.lhs, Lit.eval, Cmp.test]
  cases ha : σ a <;> cases hb : σ b <;> simp [ha, hb, Formula.evalAny, Formula.eval, PBC.eval, PBC.lhs, Lit.eval, Cmp.test]

/-- With `a` set, the constraint becomes `b = 2^32`, which the factory takes for `b = 0`. -/
theorem exBig_restrict (K : Canon) {A : PAsg} (h1 : ∀ v, v ∈ A.pos ↔ v = a) (h2 : A.neg = []) :
    exBig.restrict K A = some (Formula.mkNary K .conj [.tru, Formula.mkNary K .disj [.cc ⟨[b], .eq, 0⟩, .lit x.p, .lit y.p]]) := by
  have hp : bigP.restrict A = .cc ⟨[b], .eq, 0⟩ := by
    have : bigP.restrict A = bigP.restrict ⟨[a], []⟩ := by
      simp [PBC.restrict, bigP, scan, PAsg.restrictLit, h1, h2]
    rw [this]
    decide
  simp [exBig, Formula.restrict, Formula.restricts, hp, PAsg.restrictLit, h1, h2, Formula.const]

section
variable {F : Type} [LinearOrder F] [Flt F] {E : PEnv F} {c : AuxTy → Nat}

/-- The full C58 is false: in a new factory, whatever its configuration, backbone simplification
of `a & (-2^32 a + b = 0 | x | y)` ends with a formula that has a model the original has not. -/
theorem C58_overflow_counterexample (hm : E.C.clauseMin = .deep) (hE : ∀ n, Ends E.C.toCfg n) (hcfg : E.cfg.cc.Good) :
    Input E.cfg c exBig ∧ ∃ f0 g s', (∀ fuel ≥ f0, backboneSimp E fuel exBig ⟨World.fresh c, [], fun _ => none, fun _ => none⟩ = .ok (g, s')) ∧
    ∃ σ, exBig.eval σ = false ∧ g.eval σ = true := by
  have hm' : E.C.clauseMin ≠ .none := by rw [hm]; exact nofun
  have hin := exBig_input E.cfg c
  refine ⟨hin, ?_⟩
  obtain ⟨G, h⟩ := (PRuns.new (E := E) (c := c)).inv hm' hcfg
  have ho : Direct c exBig := .inl fun v hv => hin.known v hv
  have key : ∀ fuel, match backboneSimp E fuel exBig ⟨World.fresh c, [], fun _ => none, fun _ => none⟩ with
      | .panic => False
      | .diverge => True
      | .ok (g, _) => ∃ σ, exBig.eval σ = false ∧ g.eval σ = true := by
    intro fuel
    unfold backboneSimp
    obtain ⟨z, e, Y, G', i, ha⟩ := (h.solver (E := E) .pg).add hm' hcfg hin
    simp only [e]
    match he : z.m.backbone E.C fuel (fnVars.val exBig) .positiveAndNegative with
    | .panic => exact C34_no_panic_partial hm' i.runs fuel _ _ he
    | .diverge => trivial
    | .ok (m, r) =>
      have hb := (C34_backbone_partial hm' i.runs he).1
      have sat1 : ∀ σ, Sats σ Y.cls → exBig.eval σ = true := fun σ hσ => i.models.1 σ hσ exBig (by simp)
      have sat2 : ∀ σ, exBig.eval σ = true → ∃ σ', (∀ v, Occ v exBig → σ' v = σ v) ∧ Sats σ' Y.cls := fun σ hσ => direct_sat i ha ho hσ
      have m1 : exBig.eval (fun v => v = a ∨ v = x) = true := by rw [exBig_eval]; decide
      have m2 : exBig.eval (fun v => v = a ∨ v = b ∨ v = y) = true := by rw [exBig_eval]; decide
      obtain ⟨τ1, ag1, s1⟩ := sat2 _ m1
      obtain ⟨τ2, ag2, s2⟩ := sat2 _ m2
      match r with
      | none => exact absurd s1 (hb τ1)
      | some bb =>
        obtain ⟨_, h1, h2, _⟩ := hb
        simp only [reduceCtorEq, if_false] at h1 h2
        obtain ⟨l1, e1, k1⟩ := h1
        obtain ⟨l2, e2, k2⟩ := h2
        have hoa : Occ a exBig := .nary (List.mem_cons_self ..) (.lit true)
        have hpos : ∀ v, v ∈ l1 ↔ v = a := by
          intro v
          rw [k1, (vars_val exBig).1]
          constructor
          · rintro ⟨hv, hf⟩
            have t1 := hf τ1 s1
            have t2 := hf τ2 s2
            rw [ag1 v hv] at t1
            rw [ag2 v hv] at t2
            simp only [decide_eq_true_eq] at t1 t2
            rcases t1 with t1 | t1
            · exact t1
            · subst t1; simp at t2
          · rintro rfl
            refine ⟨hoa, fun σ hσ => ?_⟩
            have := sat1 σ hσ
            rw [exBig_eval, Bool.and_eq_true] at this
            exact this.1
        have hneg : l2 = [] := by
          refine List.eq_nil_iff_forall_not_mem.2 fun v hv => ?_
          rw [k2, (vars_val exBig).1] at hv
          obtain ⟨hv, hf⟩ := hv
          have t1 := hf τ1 s1
          have t2 := hf τ2 s2
          rw [ag1 v hv] at t1
          rw [ag2 v hv] at t2
          rcases exBig_occ hv with rfl | rfl | rfl | rfl <;> simp at t1 t2
        have hne : bb.pos.getD [] ≠ [] ∨ bb.neg.getD [] ≠ [] := by
          left
          rw [e1]
          exact List.ne_nil_of_mem ((hpos a).2 rfl)
        have hr := exBig_restrict E.K (A := ⟨bb.pos.getD [], bb.neg.getD []⟩) (by simpa [e1] using hpos) (by simpa [e2] using hneg)
        simp only [simplifyWith, if_pos hne, hr, Option.map_some]
        refine ⟨fun v => v = a, by rw [exBig_eval]; decide, ?_⟩
        have hl : ∀ l ∈ bb.lits, l.eval (fun v => decide (v = a)) = true := by
          intro l hl
          rw [mem_lits, e1, e2, hneg] at hl
          rcases l with ⟨v, _ | _⟩
          · simp at hl
          · simp only [if_true, Option.getD_some] at hl
            simp [Lit.eval, (hpos v).1 hl]
        simp only [Formula.eval_mkAnd, Formula.eval_mkNary]
        simp [Op.eval, Formula.eval, Formula.eval_mkAnd]
        exact ⟨hl, by decide⟩
  obtain ⟨f0, ⟨g, s'⟩, hf⟩ := (backboneSimp_conv hm' hE hcfg h hin).value fun fuel e => by
    have := key fuel
    rw [e] at this
    exact this
  refine ⟨f0, g, s', hf, ?_⟩
  have := key f0
  rw [hf f0 (Nat.le_refl _)] at this
  exact this

end

/-- Case: the configuration of the other examples, with adder networks, for which the constraint
has few clauses. -/
example : let E : PEnv Int := ⟨canon0, exFCfg .adder true, .tseitin 0, demoM, true, true⟩
    E.C.clauseMin = .deep ∧ (∀ n, Ends E.C.toCfg n) ∧ E.cfg.cc.Good := ⟨rfl, ends_demoM, trivial⟩

end Verif.Sat
