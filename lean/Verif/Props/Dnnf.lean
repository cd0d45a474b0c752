import Verif.Dnnf.Whole
import Verif.Props.Count
import Verif.Props.Ops
import Verif.F.Subsume
import Verif.Sat.Demo
import Mathlib.Data.List.Sort
/-
C55: compilation to d-DNNF.
-/
namespace Verif.Dnnf
open Verif.Sat Verif.Bdd

/-! ### Runs of the compiler that go wrong -/

/-- Number of a named variable. -/
def numOf : Var → Nat
  | .named n => n
  | _ => 0

/-- Positive literals first, then by variable: the order of the encoded literals of a factory whose variables are created in order. -/
def ordLits (l : List Lit) : List Lit := l.insertionSort fun a b => (if a.pos then 0 else 1000) + numOf a.v ≤ (if b.pos then 0 else 1000) + numOf b.v

/-- Variables by name. -/
def ordVars (l : List Var) : List Var := l.insertionSort fun a b => numOf a ≤ numOf b

/-- A CNF from numbers: `2 v` for variable `v`, `2 v + 1` for its negation. -/
def cnfOf (cs : List (List Nat)) : Formula := .nary .conj (cs.map fun c => .nary .disj (c.map fun l => .lit ⟨.named (l / 2), l % 2 == 0⟩))

/-- The variables `0 … n - 1`. -/
def firstVars (n : Nat) : List Var := (List.range n).map .named

/-- Six variables, eight clauses. -/
def badCount : List (List Nat) := [[10, 9, 3], [1, 9], [1, 11], [2, 0, 4], [4, 8, 11], [10, 0, 8], [7, 2, 5], [6, 2]]
/-- Eight variables, nine clauses. -/
def badLost : List (List Nat) := [[2, 13], [1, 3, 12], [12, 8], [0, 2], [13, 0, 5, 15], [8, 3, 5], [14, 7], [11, 5], [9, 5, 15, 10]]
/-- Ten variables, twelve clauses. -/
def badFalse : List (List Nat) := [[2, 13], [14, 13, 5, 16], [1, 3, 12, 15], [12, 6], [8, 19, 7, 0, 12, 14], [13, 0, 10], [4, 10], [3, 19, 16, 15], [9, 15], [6, 3, 10], [2, 9], [7, 10, 8, 5]]

/-- A CNF as `backbone_simplification` and `cnf_subsumption` leave it: the literals it entails are operands, and no clause subsumes another
(specification). -/
structure Simplified (f : Formula) : Prop where
  backbone : ∀ l : Lit, Occ l.v f → (∀ σ, f.eval σ = true → l.eval σ = true) → Formula.lit l ∈ f.parts .conj
  subsumed : ∀ c ∈ f.parts .conj, ∀ d ∈ f.parts .conj, Subsumes c d → c = d

theorem simplified_of {cs : List (List Nat)} {n : Nat}
    (h1 : ∀ v ∈ fnVars.val (cnfOf cs), ∀ b : Bool, ∃ m ∈ vecs n, (cnfOf cs).eval (asgVec (firstVars n) m) = true ∧ (Lit.mk v b).eval (asgVec (firstVars n) m) = false)
    (h2 : ∀ c ∈ (cnfOf cs).parts .conj, ∀ d ∈ (cnfOf cs).parts .conj, c ≠ d → ∃ l ∈ fnLits.val c, l ∉ fnLits.val d) : Simplified (cnfOf cs) where
  backbone l hl he := by
    obtain ⟨m, _, h, h'⟩ := h1 l.v (((vars_val _).1 _).2 hl) l.pos
    rw [he _ h] at h'; cases h'
  subsumed c hc d hd hs := by
    by_contra hne
    obtain ⟨l, hl, hl'⟩ := h2 c hc d hd hne
    exact hl' (((lits_val d).1 l).2 (hs l (((lits_val c).1 l).1 hl)))

theorem norm_cnfOf {cs : List (List Nat)} (h : cnfOf cs = .mkAnd canon0 (cs.map fun c => .mkOr canon0 (c.map fun l => .lit ⟨.named (l / 2), l % 2 == 0⟩))) :
    (cnfOf cs).Norm ∧ IsCnf (cnfOf cs) := by
  refine ⟨?_, .and ?_⟩
  · rw [h]
    refine Formula.norm_mkNary _ _ fun f hf => ?_
    obtain ⟨c, _, rfl⟩ := List.mem_map.1 hf
    refine Formula.norm_mkNary _ _ fun f hf => ?_
    obtain ⟨l, _, rfl⟩ := List.mem_map.1 hf
    exact .lit _
  · intro f hf
    obtain ⟨c, _, rfl⟩ := List.mem_map.1 hf
    exact .or fun f hf => by obtain ⟨l, _, rfl⟩ := List.mem_map.1 hf; exact ⟨_, rfl⟩

theorem card_models {cs : List (List Nat)} {n k : Nat} (h1 : (cnfOf cs).varSet = (firstVars n).toFinset)
    (h2 : ((vecs n).filter fun m => (cnfOf cs).eval (asgVec (firstVars n) m)).length = k) : (modelsOver (cnfOf cs).varSet (cnfOf cs)).card = k := by
  have hn : (firstVars n).Nodup := List.nodup_range.map fun a b h => by injection h
  have hd : DepOn (firstVars n).toFinset (cnfOf cs).eval := by rw [← h1]; exact dep_varSet _
  rw [modelsOver_eq, h1, card_satOver_vec hn hd ((vecs_nodup n).filter fun m => (cnfOf cs).eval (asgVec (firstVars n) m)) (fun v => by rw [List.mem_filter, mem_vecs]; simp [firstVars]), h2]

/-- **C55** is false: a satisfiable simplified CNF over ten variables, with 144 models, is compiled to `false`. -/
theorem C55_false_wrong : ∃ f : Formula, f.Norm ∧ IsCnf f ∧ Simplified f ∧ (modelsOver f.varSet f).card = 144 ∧
    ∃ d, compile canon0 demoCfg ordLits ordVars true 100 f = some (.fls, d) := by
  obtain ⟨h1, h2⟩ := norm_cnfOf (cs := badFalse) (by decide +kernel)
  refine ⟨cnfOf badFalse, h1, h2, simplified_of (n := 10) (by decide +kernel) (by decide +kernel), card_models (n := 10) (by decide +kernel) (by decide +kernel), ?_⟩
  have h : (compile canon0 demoCfg ordLits ordVars true 100 (cnfOf badFalse)).map (·.1) = some .fls := by decide +kernel
  obtain ⟨⟨g, d⟩, e, rfl⟩ := Option.map_eq_some_iff.1 h
  exact ⟨d, e⟩

/-- **C55** is false: a model of a simplified CNF is lost although the result is satisfiable, and the count is 47 instead of 40. -/
theorem C55_lost_wrong : ∃ f : Formula, f.Norm ∧ IsCnf f ∧ Simplified f ∧ (modelsOver f.varSet f).card = 40 ∧
    ∃ g d, compile canon0 demoCfg ordLits ordVars true 100 f = some (g, d) ∧ dnnfCountOver f.varSet g = some 47 ∧
      ∃ σ, f.eval σ = true ∧ g.eval σ = false := by
  obtain ⟨h1, h2⟩ := norm_cnfOf (cs := badLost) (by decide +kernel)
  refine ⟨cnfOf badLost, h1, h2, simplified_of (n := 8) (by decide +kernel) (by decide +kernel), card_models (n := 8) (by decide +kernel) (by decide +kernel), ?_⟩
  have h : ∃ g ∈ (compile canon0 demoCfg ordLits ordVars true 100 (cnfOf badLost)).map (·.1), dnnfCountOver (cnfOf badLost).varSet g = some 47 ∧
      ∃ m ∈ vecs 8, (cnfOf badLost).eval (asgVec (firstVars 8) m) = true ∧ g.eval (asgVec (firstVars 8) m) = false := by decide +kernel
  obtain ⟨g, hg, hc, m, _, hm⟩ := h
  obtain ⟨⟨g, d⟩, e, rfl⟩ := Option.map_eq_some_iff.1 hg
  exact ⟨g, d, e, hc, _, hm⟩

/-- **C46** is false for d-DNNFs: for a simplified CNF over six variables the compiled formula is counted as 13 models instead of 11. -/
theorem C46_dnnf_wrong : ∃ f : Formula, f.Norm ∧ IsCnf f ∧ Simplified f ∧ (modelsOver f.varSet f).card = 11 ∧
    ∃ g d, compile canon0 demoCfg ordLits ordVars true 100 f = some (g, d) ∧ dnnfCountOver f.varSet g = some 13 := by
  obtain ⟨h1, h2⟩ := norm_cnfOf (cs := badCount) (by decide +kernel)
  refine ⟨cnfOf badCount, h1, h2, simplified_of (n := 6) (by decide +kernel) (by decide +kernel), card_models (n := 6) (by decide +kernel) (by decide +kernel), ?_⟩
  have h : ∃ g ∈ (compile canon0 demoCfg ordLits ordVars true 100 (cnfOf badCount)).map (·.1), dnnfCountOver (cnfOf badCount).varSet g = some 13 := by decide +kernel
  obtain ⟨g, hg, hc⟩ := h
  obtain ⟨⟨g, d⟩, e, rfl⟩ := Option.map_eq_some_iff.1 hg
  exact ⟨g, d, e, hc⟩

/-! ### Runs of the compiler without a conflict -/

/-- **C55**, for the runs in which the solver meets no conflict: for every simplified CNF, every order of the literals and variables and every
configuration of the (incremental) solver the result has the models of the CNF and is a d-DNNF, and the count is right.  Missing: runs with
conflicts, for which it is false (`C55_false_wrong`, `C55_lost_wrong`, `C46_dnnf_wrong`), and the simplification of the CNF beforehand, which is the
hypothesis `hs`; `sat` stands for the answer of the SAT solver.  See Props/DnnfPipe.lean for the whole of `compile_dnnf`. -/
theorem C55_compile_partial {F : Type} [LinearOrder F] [Flt F] {K : Canon} {C : Cfg F} (hC : C.incremental = true) {ord : List Lit → List Lit} (ho : ∀ l, (ord l).Perm l)
    {byName : List Var → List Var} {cnf : Formula} (hn : cnf.Norm) (hc : IsCnf cnf) (hs : Simplified cnf) {sat : Bool} (hsat : sat = true ↔ ∃ σ, cnf.eval σ = true)
    {fuel : Nat} {g : Formula} {d : DSt F} (e : compile K C ord byName sat fuel cnf = some (g, d)) (hd : d.confl = 0) :
    (∀ σ, g.eval σ = cnf.eval σ) ∧ Ddnnf g ∧ dnnfCountOver cnf.varSet g = some (modelsOver cnf.varSet cnf).card := by
  obtain ⟨h1, h2, h3⟩ := compile_ok hC ho hn hc hs.backbone hsat e hd
  refine ⟨h1, h2, ?_⟩
  rw [C46_dnnf_count h2 fun v hv => mem_varSet.2 (h3 v hv), modelsOver_eq, modelsOver_eq, show g.eval = cnf.eval from funext h1]

/-- Five variables, four clauses. -/
def goodRun : List (List Nat) := [[0, 2, 4], [1, 6], [3, 7, 8], [5, 9]]

theorem ordLits_perm (l : List Lit) : (ordLits l).Perm l := List.perm_insertionSort _ l

/-- Example: a simplified CNF with ten models whose compilation branches without a conflict. -/
example : (cnfOf goodRun).Norm ∧ IsCnf (cnfOf goodRun) ∧ Simplified (cnfOf goodRun) ∧ (∃ σ, (cnfOf goodRun).eval σ = true) ∧ (∀ l, (ordLits l).Perm l) ∧ demoCfg.incremental = true ∧
    ∃ g d, compile canon0 demoCfg ordLits ordVars true 100 (cnfOf goodRun) = some (g, d) ∧ d.confl = 0 ∧ dnnfCountOver (cnfOf goodRun).varSet g = some 10 := by
  obtain ⟨h1, h2⟩ := norm_cnfOf (cs := goodRun) (by decide +kernel)
  refine ⟨h1, h2, simplified_of (n := 5) (by decide +kernel) (by decide +kernel), ?_, ordLits_perm, rfl, ?_⟩
  · have h : ∃ m ∈ vecs 5, (cnfOf goodRun).eval (asgVec (firstVars 5) m) = true := by decide +kernel
    obtain ⟨m, _, h⟩ := h
    exact ⟨_, h⟩
  · have h : ∃ x ∈ (compile canon0 demoCfg ordLits ordVars true 100 (cnfOf goodRun)).map (fun r => (r.1, r.2.confl)), x.2 = 0 ∧
        dnnfCountOver (cnfOf goodRun).varSet x.1 = some 10 := by decide +kernel
    obtain ⟨x, hx, h1, h2⟩ := h
    obtain ⟨⟨g, d⟩, e, rfl⟩ := Option.map_eq_some_iff.1 hx
    exact ⟨g, d, e, h1, h2⟩

end Verif.Dnnf
