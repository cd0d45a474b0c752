import Verif.Props.Term
import Verif.Sat.ConvMini
import Verif.Props.SatPred
/-
Property C67, for the functions built on solving: they end, and by C28, C29 and C33-C35, C57, C58 with the right result.

The condition is `Ends` for all numbers of variables (the functions add variables); see Props/Term.lean.  For incremental solvers it says that
`restart_first` is at least 1.  "Ends" means: from some number of rounds on, the model returns one result, which is not `diverge`.
-/
namespace Verif.Sat
open St

section
variable {F : Type} [LinearOrder F] [Flt F] {C : MCfg F} {X : NSpec} {m : Mini F}

/-- From some number of rounds on, there is one result. -/
theorem Conv.value {α : Type} {g : Nat → Res α} (h : Conv g) (hp : ∀ f, g f ≠ .panic) : ∃ f0 a, ∀ f ≥ f0, g f = .ok a := by
  obtain ⟨f0, r, hr, h⟩ := h
  match r, hr, h with
  | .ok a, _, h => exact ⟨f0, a, h⟩
  | .panic, _, h => exact absurd (h f0 (Nat.le_refl _)) (hp f0)
  | .diverge, hr, _ => exact absurd rfl hr

/-- C67: `sat_with` (and `sat`) ends with the right answer. -/
theorem C67_sat_with_partial (hm : C.clauseMin ≠ .none) (hE : ∀ n, Ends C.toCfg n) (h : NRuns C X m) (sel as : List Lit) :
    ∃ f0 m' b, (∀ f ≥ f0, m.solve C f sel as = .ok (m', b)) ∧ (b = true ↔ ∃ σ, Sats σ X.cls ∧ ∀ a ∈ as, a.eval σ = true) := by
  have hh := h.holds hm
  obtain ⟨f0, ⟨m', b⟩, hf⟩ := (solve_conv_mini hm hE hh sel as).value fun f e => by
    have := hh.solve hm f sel as
    rw [e] at this
    exact this
  refine ⟨f0, m', b, hf, ?_⟩
  have hs := hh.solve hm f0 sel as
  rw [hf f0 (Nat.le_refl _)] at hs
  obtain ⟨_, _, _, _, h1, h2⟩ := hs
  cases b with
  | true => exact iff_of_true rfl ⟨_, (h1 rfl).2⟩
  | false => exact iff_of_false nofun fun ⟨σ, a, b⟩ => h2 rfl σ a b

/-- C67: enumeration ends; without a bound every assignment that satisfies the clauses agrees with exactly one of the models reported. -/
theorem C67_enumeration_partial (hm : C.clauseMin ≠ .none) (hi : C.incremental = true) (hE : ∀ n, Ends C.toCfg n) (h : NRuns C X m) {cfg : EnumCfg}
    (hrel : ∀ v ∈ relVars C cfg X.names, isRelevant C v = true) :
    ∃ f0 m' ms, (∀ f ≥ f0, m.enumerate C f cfg = .ok (m', ms)) ∧
      (cfg.max = none → ∀ σ, Sats σ X.cls → ms.countP (fun M => decide (AgreesOn (relVars C cfg X.names) M σ)) = 1) := by
  obtain ⟨f0, ⟨m', ms⟩, hf⟩ := (enumerate_conv (cfg := cfg) hm hi hE (h.holds hm)).value fun f => C33_no_panic_partial hm hi h hrel f
  exact ⟨f0, m', ms, hf, fun hmax => (C33_enumeration_partial hm hi h hmax hrel (hf f0 (Nat.le_refl _))).2.1⟩

/-- C67: `count_models` ends; the number is that of assignments that satisfy the clauses and differ on the variables, up to the bound. -/
theorem C67_count_partial (hm : C.clauseMin ≠ .none) (hE : ∀ n, Ends C.toCfg n) (h : NRuns C X m) (max : Nat) :
    ∃ f0 m' k, (∀ f ≥ f0, m.countModels C f max = .ok (m', k)) ∧
      ∃ vals : List Asg, vals.length = k ∧ (∀ σ ∈ vals, Sats σ X.cls) ∧ (vals.Pairwise fun σ τ => ∃ v ∈ X.names, σ v ≠ τ v) ∧
        (k ≤ max → ∀ σ, Sats σ X.cls → ∃ τ ∈ vals, ∀ v ∈ X.names, σ v = τ v) := by
  obtain ⟨f0, ⟨m', k⟩, hf⟩ := (countModels_conv (max := max) hm hE (h.holds hm)).value fun f e => by
    have := countModels_ok hm f max (h.holds hm)
    rw [e] at this
    exact this
  obtain ⟨vals, h1, h2, h3, _, h4⟩ := C33_count_partial hm h (hf f0 (Nat.le_refl _))
  exact ⟨f0, m', k, hf, vals, h1, h2, h3, h4⟩

/-- C67: computing a backbone ends, with the right backbone. -/
theorem C67_backbone_partial (hm : C.clauseMin ≠ .none) (hE : ∀ n, Ends C.toCfg n) (h : NRuns C X m) (vars : List Var) (t : BbType) :
    ∃ f0 m' r, (∀ f ≥ f0, m.backbone C f vars t = .ok (m', r)) ∧
      match (generalizing := false) r with
      | none => ∀ σ, ¬ Sats σ X.cls
      | some b => (∃ σ, Sats σ X.cls) ∧ BbSpec X.cls t vars b := by
  obtain ⟨f0, ⟨m', r⟩, hf⟩ := (backbone_conv hm hE (h.holds hm) vars t).value fun f => C34_no_panic_partial hm h f vars t
  exact ⟨f0, m', r, hf, (C34_backbone_partial hm h (hf f0 (Nat.le_refl _))).1⟩

/-- C67: optimization ends, with an optimal model. -/
theorem C67_optimize_partial (hm : C.clauseMin ≠ .none) (hE : ∀ n, Ends C.toCfg n) (h : NRuns C X m) (cc : CcCfg) {o : OptF} {sm : List (Var × Lit)} {cnt : AuxTy → Nat}
    (ho : OptOK X o sm cnt) :
    ∃ f0 m' r, (∀ f ≥ f0, m.optimize C cc f o sm cnt = .ok (m', r)) ∧
      match (generalizing := false) r with
      | none => ∀ σ, ¬ Sats σ X.cls
      | some M => ∃ σ, Sats σ X.cls ∧ M = restrictTo (optVars C X.names o) σ ∧
        ∀ τ, Sats τ X.cls → if o.maximize then cntL τ o.lits ≤ cntL σ o.lits else cntL σ o.lits ≤ cntL τ o.lits := by
  obtain ⟨f0, ⟨m', r⟩, hf⟩ := (optimize_conv hm hE cc (o := o) (sm := sm) (cnt := cnt) (h.holds hm)).value fun f => C35_no_panic_partial hm h cc f ho
  exact ⟨f0, m', r, hf, (C35_optimal_partial hm h ho (hf f0 (Nat.le_refl _))).1⟩

end

/-! ### Operations of the factory -/

section
variable {F : Type} [LinearOrder F] [Flt F] {E : PEnv F} {c : AuxTy → Nat} {s : PState} {G : List Verif.Ent}

theorem isSat_conv (hm : E.C.clauseMin ≠ .none) (hE : ∀ n, Ends E.C.toCfg n) (hcfg : E.cfg.cc.Good) (h : PInv E.K c s G) {f : Formula} (hin : Input E.cfg s.w.cnt f) :
    Conv fun fuel => isSat E fuel f s := by
  unfold isSat
  cases hs : s.sat f with
  | some b => exact .ok _
  | none =>
    obtain ⟨x, e, Y, G', i, _⟩ := (h.solver (E := E) .factory).add hm hcfg hin
    simp only [e]
    refine ((solve_conv_mini hm hE (i.runs.holds hm) [] []).bind
      (k := fun _ a => Res.ok (a.2, { s with w := x.w, es := x.es, sat := if E.cSat then insKeep s.sat f a.2 else s.sat })) fun _ _ _ => .ok _).congr fun fuel => ?_
    cases x.m.solve E.C fuel [] [] <;> rfl

theorem isTautology_conv (hm : E.C.clauseMin ≠ .none) (hE : ∀ n, Ends E.C.toCfg n) (hcfg : E.cfg.cc.Good) (h : PInv E.K c s G) {f : Formula}
    (hin : Input E.cfg s.w.cnt (Formula.mkNeg E.K f)) : Conv fun fuel => isTautology E fuel f s := by
  refine ((isSat_conv hm hE hcfg h hin).bind (k := fun _ a => Res.ok (!a.1, a.2)) fun _ _ _ => .ok _).congr fun fuel => ?_
  unfold isTautology
  cases isSat E fuel (Formula.mkNeg E.K f) s <;> rfl

theorem backboneSimp_conv (hm : E.C.clauseMin ≠ .none) (hE : ∀ n, Ends E.C.toCfg n) (hcfg : E.cfg.cc.Good) (h : PInv E.K c s G) {f : Formula} (hin : Input E.cfg s.w.cnt f) :
    Conv fun fuel => backboneSimp E fuel f s := by
  unfold backboneSimp
  cases hs : s.bbs f with
  | some b => exact .ok _
  | none =>
    obtain ⟨x, e, Y, G', i, _⟩ := (h.solver (E := E) .pg).add hm hcfg hin
    simp only [e]
    refine ((backbone_conv hm hE (i.runs.holds hm) (fnVars.val f) .positiveAndNegative).bind
      (k := fun _ a => match simplifyWith E.K f a.2 with
        | none => Res.panic
        | some g => .ok (g, { s with w := x.w, es := x.es, bbs := if E.cBb then insKeep s.bbs f g else s.bbs })) ?_).congr fun fuel => ?_
    · rintro _ ⟨_, r⟩ _
      simp only
      cases simplifyWith E.K f r with
      | none => exact .panic
      | some g => exact .ok _
    · cases x.m.backbone E.C fuel (fnVars.val f) .positiveAndNegative <;> rfl

/-- C67: `is_sat` ends and tells whether the formula has a model. -/
theorem C67_is_sat_partial (hm : E.C.clauseMin = .deep) (hE : ∀ n, Ends E.C.toCfg n) (hcfg : E.cfg.cc.Good) (h : PRuns E c s) {f : Formula} (hin : Input E.cfg s.w.cnt f)
    (ho : (∀ v, Occ v f → Verif.Known c v) ∨ IsCnf f) :
    ∃ f0 s' b, (∀ fuel ≥ f0, isSat E fuel f s = .ok (b, s')) ∧ (b = true ↔ ∃ σ, f.eval σ = true) := by
  have hm' : E.C.clauseMin ≠ .none := by rw [hm]; exact nofun
  obtain ⟨G, i⟩ := h.inv hm' hcfg
  obtain ⟨f0, ⟨b, s'⟩, hf⟩ := (isSat_conv hm' hE hcfg i hin).value fun fuel => C57_sat_no_panic hm hcfg h hin fuel
  exact ⟨f0, s', b, hf, C57_sat hm hcfg h hin ho (hf f0 (Nat.le_refl _))⟩

/-- C67: `is_tautology` ends and tells whether all assignments are models. -/
theorem C67_is_tautology_partial (hm : E.C.clauseMin = .deep) (hE : ∀ n, Ends E.C.toCfg n) (hcfg : E.cfg.cc.Good) (h : PRuns E c s) {f : Formula} (hn : f.Norm)
    (hin : Input E.cfg s.w.cnt (Formula.mkNeg E.K f)) (ho : ∀ v, Occ v f → Verif.Known c v) :
    ∃ f0 s' b, (∀ fuel ≥ f0, isTautology E fuel f s = .ok (b, s')) ∧ (b = true ↔ ∀ σ, f.eval σ = true) := by
  have hm' : E.C.clauseMin ≠ .none := by rw [hm]; exact nofun
  obtain ⟨G, i⟩ := h.inv hm' hcfg
  obtain ⟨f0, ⟨b, s'⟩, hf⟩ := (isTautology_conv hm' hE hcfg i hin).value fun fuel => C57_tautology_no_panic hm hcfg h hn hin fuel
  exact ⟨f0, s', b, hf, C57_tautology hm hcfg h hn hin ho (hf f0 (Nat.le_refl _))⟩

/-- C67: backbone simplification ends with an equivalent formula. -/
theorem C67_backbone_simplification_partial (hm : E.C.clauseMin = .deep) (hE : ∀ n, Ends E.C.toCfg n) (hcfg : E.cfg.cc.Good) (h : PRuns E c s) {f : Formula} (hin : Input E.cfg s.w.cnt f)
    (hbd : Bounded PBC.Bounded f) (ho : (∀ v, Occ v f → Verif.Known c v) ∨ IsCnf f) :
    ∃ f0 s' g, (∀ fuel ≥ f0, backboneSimp E fuel f s = .ok (g, s')) ∧ ∀ σ, g.eval σ = f.eval σ := by
  have hm' : E.C.clauseMin ≠ .none := by rw [hm]; exact nofun
  obtain ⟨G, i⟩ := h.inv hm' hcfg
  obtain ⟨f0, ⟨g, s'⟩, hf⟩ := (backboneSimp_conv hm' hE hcfg i hin).value fun fuel => C58_no_panic_partial hm hcfg h hin hbd fuel
  exact ⟨f0, s', g, hf, (C58_simplified_partial hm hcfg h hin hbd ho (hf f0 (Nat.le_refl _))).2.2.1⟩

end

/-! ### Cases that meet the hypotheses -/

/-- The condition holds for the configuration of the examples. -/
theorem ends_demoM (n : Nat) : Ends demoM.toCfg n := .inr ⟨rfl, by decide⟩

/-- A solver with clauses over four variables; the examples of Props/SatFun.lean and Props/SatPred.lean show solvers and formulas that meet the other hypotheses. -/
example : ∃ X m, NRuns demoM X m ∧ X.names.length = 4 ∧ (∃ f0 m' b, ∀ f ≥ f0, m.solve demoM f [] [vC.n] = .ok (m', b)) ∧
    ∃ f0 m' r, ∀ f ≥ f0, m.backbone demoM f [vA, vB] .positiveAndNegative = .ok (m', r) := by
  obtain ⟨X, m, h, hp⟩ := runN_ex (C := demoM) demoN (fun X _ => decide (X.names.length = 4)) (by decide +kernel)
  obtain ⟨f0, m', b, h1, _⟩ := C67_sat_with_partial (by decide) ends_demoM h [] [vC.n]
  obtain ⟨f1, m1, r, h2, _⟩ := C67_backbone_partial (by decide) ends_demoM h [vA, vB] .positiveAndNegative
  exact ⟨X, m, h, of_decide_eq_true hp, ⟨f0, m', b, h1⟩, f1, m1, r, h2⟩

/-- `is_sat` of a formula in a new factory. -/
example : ∃ f0 s' b, ∀ fuel ≥ f0, isSat exP fuel exB exP0 = .ok (b, s') := by
  obtain ⟨f0, s', b, h, _⟩ := C67_is_sat_partial (E := exP) (c := fun _ => 7) (s := exP0) (f := exB) rfl ends_demoM trivial .new exB_input (.inl fun v hv => exB_input.known v hv)
  exact ⟨f0, s', b, h⟩

end Verif.Sat
