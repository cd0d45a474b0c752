import Verif.Dnnf.Pipe
import Verif.Props.Dnnf
/-
C55 for the whole of `compile_dnnf`: CNF, backbone simplification, subsumption and compilation.

As specification `Formula.eval`, `Ddnnf`, `Occ` and `modelsOver` are used.  `PRuns E c s` (Props/SatPred.lean) is the state of the factory after any sequence of calls.
-/
namespace Verif.Dnnf
open Verif.Sat Verif.Sat.St Verif.Bdd

section
variable {F : Type} [LinearOrder F] [Flt F]

/-- Where the CNF is only literals, the answer of the SAT solver is not used. -/
theorem compile_atomic {K : Canon} {C : Cfg F} {ord : List Lit → List Lit} {byName : List Var → List Var} {fuel : Nat} {f : Formula} (h : (initClauses K f).2.isAtomic = true)
    (a b : Bool) : compile K C ord byName a fuel f = compile K C ord byName b fuel f := by
  unfold compile
  simp only [h, if_true]

variable [LinearOrder Lit] {E : PEnv F} {c : AuxTy → Nat} {s : PState}

/-- **C55**, for the runs in which the solver of the compiler meets no conflict: the result is a d-DNNF, the variables reported are those of the formula, every model of the
result is a model of the formula, and every model of the formula can be extended to the variables of the CNF to be a model of the result.  Missing: runs with conflicts, for
which it is false (`C55_pipeline_false_wrong`, `C55_pipeline_lost_wrong`). -/
theorem C55_pipeline_partial (hm : E.C.clauseMin = .deep) (hC : E.C.incremental = true) (hcfg : E.cfg.cc.Good) (h : PRuns E c s) {f : Formula} (hin : Input E.cfg s.w.cnt f)
    {ordS : List Nat → List Nat} (hS : ∀ l n, n ∈ ordS l ↔ n ∈ l) {ord : List Lit → List Lit} (ho : ∀ l, (ord l).Perm l) {byName : List Var → List Var} {fuel : Nat}
    {g : Formula} {vars : List Var} {d : DSt F} {s' : PState} (e : compileDnnf E ordS ord byName fuel f s = .ok (g, vars, d, s')) (hd : d.confl = 0) :
    Ddnnf g ∧ (∀ v, v ∈ vars ↔ Occ v f) ∧ (∀ σ, g.eval σ = true → f.eval σ = true) ∧
    ((∀ v, Occ v f → Verif.Known c v) → ∀ σ, f.eval σ = true → ∃ σ' : Asg, (∀ v, Verif.Known c v → σ' v = σ v) ∧ g.eval σ' = true) ∧
    (IsCnf f → (∀ σ, g.eval σ = f.eval σ) ∧ dnnfCountOver vars.toFinset g = some (modelsOver f.varSet f).card) := by
  have hm : E.C.clauseMin ≠ .none := by rw [hm]; exact fun h => by cases h
  obtain ⟨G, i⟩ := h.inv hm hcfg
  rcases compileDnnf_prep hm hcfg hS (ord := ord) (byName := byName) (fuel := fuel) i hin with e0 | ⟨sub, b, s1, hp, hb, _, e0⟩
  · rw [e0] at e; cases e
  rw [e0] at e
  revert e
  match hcp : compile E.K E.C.toCfg ord byName b fuel sub with
  | none => exact fun e => by cases e
  | some (g0, d0) =>
    intro e
    simp only [Res.ok.injEq, Prod.mk.injEq] at e
    obtain ⟨rfl, rfl, rfl, rfl⟩ := e
    have hok : (∀ σ, g0.eval σ = sub.eval σ) ∧ Ddnnf g0 ∧ ∀ v, Occ v g0 → Occ v sub := by
      cases ha : (initClauses E.K sub).2.isAtomic with
      | false => exact compile_ok hC ho hp.norm hp.cnf hp.units (hb ha) hcp hd
      | true =>
        classical
        rw [compile_atomic ha b (decide (∃ σ, sub.eval σ = true))] at hcp
        exact compile_ok hC ho hp.norm hp.cnf hp.units (by simp) hcp hd
    obtain ⟨h1, h2, h3⟩ := hok
    have hv : ∀ v, v ∈ fnVars.val f ↔ Occ v f := fun v => (vars_val f).1 v
    refine ⟨h2, hv, fun σ hσ => hp.sound σ (by rwa [← h1]), fun hk σ hσ => ?_, fun hf => ?_⟩
    · obtain ⟨σ', a, b⟩ := hp.compl hk σ hσ
      exact ⟨σ', a, by rwa [h1]⟩
    · obtain ⟨q1, q2⟩ := hp.same hf
      have he : ∀ σ, g0.eval σ = f.eval σ := fun σ => (h1 σ).trans (q1 σ)
      refine ⟨he, ?_⟩
      have hvs : (fnVars.val f).toFinset = f.varSet := by
        ext v; rw [List.mem_toFinset, hv, mem_varSet]
      rw [hvs, C46_dnnf_count h2 fun v hv => mem_varSet.2 (q2 v (h3 v hv)), modelsOver_eq, modelsOver_eq, show g0.eval = f.eval from funext he]

/-- The steps before the compilation end in a CNF or go on for ever, they do not panic; what the compiler gets is a CNF whose literals that hold in all models are operands,
and has the models of the formula, whether or not conflicts occur later. -/
theorem C55_prepared_partial (hm : E.C.clauseMin = .deep) (hcfg : E.cfg.cc.Good) (h : PRuns E c s) {f : Formula} (hin : Input E.cfg s.w.cnt f)
    {ordS : List Nat → List Nat} (hS : ∀ l n, n ∈ ordS l ↔ n ∈ l) (ord : List Lit → List Lit) (byName : List Var → List Var) (fuel : Nat) :
    compileDnnf E ordS ord byName fuel f s = .diverge ∨
    ∃ cnf sat s', IsCnf cnf ∧ (∀ l : Lit, Occ l.v cnf → (∀ σ, cnf.eval σ = true → l.eval σ = true) → .lit l ∈ cnf.parts .conj) ∧ (∀ σ, cnf.eval σ = true → f.eval σ = true) ∧
      ((∀ v, Occ v f → Verif.Known c v) → ∀ σ, f.eval σ = true → ∃ σ' : Asg, (∀ v, Verif.Known c v → σ' v = σ v) ∧ cnf.eval σ' = true) ∧
      (IsCnf f → ∀ σ, cnf.eval σ = f.eval σ) ∧
      compileDnnf E ordS ord byName fuel f s = match compile E.K E.C.toCfg ord byName sat fuel cnf with | none => .panic | some (g, d) => .ok (g, fnVars.val f, d, s') := by
  have hm : E.C.clauseMin ≠ .none := by rw [hm]; exact fun h => by cases h
  obtain ⟨G, i⟩ := h.inv hm hcfg
  rcases compileDnnf_prep hm hcfg hS (ord := ord) (byName := byName) (fuel := fuel) i hin with e0 | ⟨sub, b, s1, hp, _, _, e0⟩
  · exact .inl e0
  · exact .inr ⟨sub, b, s1, hp.cnf, hp.units, hp.sound, hp.compl, fun hf => (hp.same hf).1, e0⟩

end

/-! ### Whole runs -/

/-- An order of the literals. -/
abbrev litOrd : LinearOrder Lit := LinearOrder.lift' litKey litKey_inj

/-- `compile_dnnf` on a CNF in a fresh factory. -/
def runPipe (cs : List (List Nat)) : St.Res (Formula × List Var × DSt Int × PState) :=
  @compileDnnf Int _ _ litOrd exP id ordLits ordVars 1000 (cnfOf cs) exP0

theorem input_cnfOf {cs : List (List Nat)} (h : cnfOf cs = .mkAnd canon0 (cs.map fun c => .mkOr canon0 (c.map fun l => .lit ⟨.named (l / 2), l % 2 == 0⟩))) :
    Input exP.cfg exP0.w.cnt (cnfOf cs) := by
  obtain ⟨h1, h2⟩ := norm_cnfOf h
  refine cnf_input h1 h2 fun v hv => ?_
  unfold cnfOf at hv
  cases hv with | nary hm hv =>
  obtain ⟨c, _, rfl⟩ := List.mem_map.1 hm
  cases hv with | nary hm hv =>
  obtain ⟨l, _, rfl⟩ := List.mem_map.1 hm
  cases hv
  trivial

/-- Ten variables, twelve clauses. -/
def pipeFalse : List (List Nat) := [[13, 7, 4, 3], [6, 5], [5, 12, 16], [6, 1], [0, 9, 11, 12, 4, 2], [1, 3], [11, 16, 0, 15], [7, 9, 18, 3], [4, 10], [10, 7, 16], [2, 5, 15, 18], [14, 16]]

/-- **C55** is false: `compile_dnnf` compiles a CNF with 144 models to `false`. -/
theorem C55_pipeline_false_wrong : ∃ f : Formula, Input exP.cfg exP0.w.cnt f ∧ PRuns exP (fun _ => 7) exP0 ∧ IsCnf f ∧ (modelsOver f.varSet f).card = 144 ∧
    ∃ vars d s', @compileDnnf Int _ _ litOrd exP id ordLits ordVars 1000 f exP0 = .ok (.fls, vars, d, s') := by
  have h0 : cnfOf pipeFalse = .mkAnd canon0 (pipeFalse.map fun c => .mkOr canon0 (c.map fun l => .lit ⟨.named (l / 2), l % 2 == 0⟩)) := by decide +kernel
  refine ⟨cnfOf pipeFalse, input_cnfOf h0, .new, (norm_cnfOf h0).2, card_models (n := 10) (by decide +kernel) (by decide +kernel), ?_⟩
  have h : okB (runPipe pipeFalse) (fun r => decide (r.1 = .fls)) = true := by decide +kernel
  obtain ⟨⟨g, vs, d, s'⟩, e, h⟩ := okB_ok h
  have h := of_decide_eq_true h
  simp only at h
  subst h
  exact ⟨vs, d, s', e⟩

/-- **C55** is false: `compile_dnnf` loses a model of a CNF, and the count is 47 instead of 40. -/
theorem C55_pipeline_lost_wrong : ∃ f : Formula, Input exP.cfg exP0.w.cnt f ∧ PRuns exP (fun _ => 7) exP0 ∧ IsCnf f ∧ (modelsOver f.varSet f).card = 40 ∧
    ∃ g vars d s', @compileDnnf Int _ _ litOrd exP id ordLits ordVars 1000 f exP0 = .ok (g, vars, d, s') ∧ dnnfCountOver vars.toFinset g = some 47 ∧
      ∃ σ, f.eval σ = true ∧ g.eval σ = false := by
  have h0 : cnfOf badLost = .mkAnd canon0 (badLost.map fun c => .mkOr canon0 (c.map fun l => .lit ⟨.named (l / 2), l % 2 == 0⟩)) := by decide +kernel
  refine ⟨cnfOf badLost, input_cnfOf h0, .new, (norm_cnfOf h0).2, card_models (n := 8) (by decide +kernel) (by decide +kernel), ?_⟩
  have h : okB (runPipe badLost) (fun r => decide (dnnfCountOver r.2.1.toFinset r.1 = some 47) &&
      (vecs 8).any fun m => (cnfOf badLost).eval (asgVec (firstVars 8) m) && !r.1.eval (asgVec (firstVars 8) m)) = true := by decide +kernel
  obtain ⟨⟨g, vs, d, s'⟩, e, h⟩ := okB_ok h
  rw [Bool.and_eq_true, List.any_eq_true] at h
  obtain ⟨h1, m, _, h2⟩ := h
  rw [Bool.and_eq_true, Bool.not_eq_true'] at h2
  exact ⟨g, vs, d, s', e, of_decide_eq_true h1, _, h2⟩

/-- Example: a whole run without a conflict, with ten models. -/
example : exP.C.clauseMin = .deep ∧ exP.C.incremental = true ∧ exP.cfg.cc.Good ∧ PRuns exP (fun _ => 7) exP0 ∧ Input exP.cfg exP0.w.cnt (cnfOf goodRun) ∧
    (∀ l : List Nat, ∀ n, n ∈ id l ↔ n ∈ l) ∧ (∀ l, (ordLits l).Perm l) ∧
    ∃ g vars d s', @compileDnnf Int _ _ litOrd exP id ordLits ordVars 1000 (cnfOf goodRun) exP0 = .ok (g, vars, d, s') ∧ d.confl = 0 ∧ dnnfCountOver vars.toFinset g = some 10 := by
  have h0 : cnfOf goodRun = .mkAnd canon0 (goodRun.map fun c => .mkOr canon0 (c.map fun l => .lit ⟨.named (l / 2), l % 2 == 0⟩)) := by decide +kernel
  refine ⟨rfl, rfl, trivial, .new, input_cnfOf h0, fun _ _ => Iff.rfl, ordLits_perm, ?_⟩
  have h : okB (runPipe goodRun) (fun r => r.2.2.1.confl == 0 && decide (dnnfCountOver r.2.1.toFinset r.1 = some 10)) = true := by decide +kernel
  obtain ⟨⟨g, vs, d, s'⟩, e, h⟩ := okB_ok h
  rw [Bool.and_eq_true] at h
  exact ⟨g, vs, d, s', e, by simpa using h.1, of_decide_eq_true h.2⟩

end Verif.Dnnf
