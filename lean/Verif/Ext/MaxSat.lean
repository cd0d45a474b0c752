import Verif.F.CnfAlg
import Verif.F.Funcs
/-
The MaxSAT solver: src/solver/maxsat_solver.rs and src/solver/maxsat_ffi.rs, which translate formulas into weighted
clauses for the external library OpenWBO.  The library itself is not modelled: its answer is an argument of `solve`, and
`Right` says what it has to satisfy.
-/
namespace Verif.MaxSat
open ER

/-- What OpenWBO is given (`ffi::MaxSATFormula`): clauses over the numbers `1..nVars`, negative for negated variables. -/
structure Prob where
  hard : List (List Int)
  soft : List (Nat × List Int)
  nVars : Nat
deriving DecidableEq

/-- `ffi::StatusCode` with cost and model of the library: `Satisfiable` and `Optimum` are treated alike by the code
(maxsat_ffi.rs:153 and 167). -/
inductive Status
  | unknown
  | unsat
  | opt (cost : Nat) (model : List Bool)
deriving DecidableEq

/-- `Model`. -/
structure MModel where
  pos : List Var
  neg : List Var
deriving DecidableEq

/-- `MaxSatSolver`, maxsat_solver.rs:119-124, with `OpenWboSolver`, maxsat_ffi.rs:30-39.  `weighted` is
`algorithm.weighted(config)`; `vars` is `var_map_up`, `var_map_down` gives positions in it; `sels` is the set of selectors. -/
structure Solver where
  weighted : Bool
  prob : Prob
  vars : List Var
  sels : List Var
  status : Status
  model : Option MModel
deriving DecidableEq

/-- `MaxSatSolver::from_config`, maxsat_solver.rs:159-163, maxsat_ffi.rs:42-67, and `reset`, maxsat_solver.rs:216-221. -/
def Solver.new (weighted : Bool) : Solver := ⟨weighted, ⟨[], [], 0⟩, [], [], .unknown, none⟩

/-- `add_var`, maxsat_ffi.rs:116-126.  Simplified: fewer than 2^31 variables, no truncation to 32 bits. -/
def addVar (v : Var) (vs : List Var) : Nat × List Var := if v ∈ vs then (vs.idxOf v, vs) else (vs.length, vs ++ [v])

/-- The loop of `convert_clause`, maxsat_ffi.rs:97-113, with `add_literal` of the library, which adds missing variables. -/
def conv : List Lit → List Var → Nat → List Int × List Var × Nat
  | [], vs, n => ([], vs, n)
  | l :: ls, vs, n =>
    let p := addVar l.v vs
    let q := conv ls p.2 (max n (p.1 + 1))
    ((if l.pos then ((p.1 : Int) + 1) else -((p.1 : Int) + 1)) :: q.1, q.2)

/-- `add_hard_clause`, maxsat_ffi.rs:84-88. -/
def Solver.addHardC (s : Solver) (f : Formula) : Solver :=
  let q := conv (fnLits.val f) s.vars s.prob.nVars
  { s with vars := q.2.1, prob := { s.prob with hard := s.prob.hard ++ [q.1], nVars := q.2.2 } }

/-- `add_soft_clause`, maxsat_ffi.rs:69-82; `false` is `IllegalWeightedClause`. -/
def Solver.addSoftC (s : Solver) (w : Nat) (f : Formula) : Bool × Solver :=
  if w < 1 ∨ (1 < w ∧ s.weighted = false) then (false, s)
  else
    let q := conv (fnLits.val f) s.vars s.prob.nVars
    (true, { s with vars := q.2.1, prob := { s.prob with soft := s.prob.soft ++ [(w, q.1)], nVars := q.2.2 } })

/-- `add_cnf` without weight, maxsat_solver.rs:465-485; `none` is a panic. -/
def Solver.addCnf (s : Solver) : Formula → Option Solver
  | .tru => some s
  | .fls => some (s.addHardC .fls)
  | .lit l => some (s.addHardC (.lit l))
  | .nary .disj fs => some (s.addHardC (.nary .disj fs))
  | .nary .conj fs => some (fs.foldl Solver.addHardC s)
  | _ => none

/-- `FormulaFactory::cnf_of`, formula_factory.rs:1020-1022. -/
def cnfOf (C : Canon) (cfg : FCfg) (alg : CnfAlg) (f : Formula) (w : World) : Option (Formula × World) :=
  (alg.transform C cfg f .stateless w).map fun r => (r.1, r.2.2)

/-- `add_hard_formula`, maxsat_solver.rs:242-244. -/
def Solver.addHard (C : Canon) (cfg : FCfg) (alg : CnfAlg) (f : Formula) (s : Solver) (w : World) : Option (Solver × World) :=
  (cnfOf C cfg alg f w).bind fun p => (s.addCnf p.1).map fun s => (s, p.2)

/-- The condition of `add_soft_formula`, maxsat_solver.rs:286. -/
def isSoftClause : Formula → Bool
  | .lit l => (Formula.lit l).isCnfF
  | .nary .disj fs => (Formula.nary .disj fs).isCnfF
  | _ => false

/-- `add_soft_formula`, maxsat_solver.rs:285-300.  `sel n` is the variable `@SEL_SOFT_n`. -/
def Solver.addSoft (C : Canon) (cfg : FCfg) (alg : CnfAlg) (sel : Nat → Var) (n : Nat) (f : Formula) (s : Solver) (w : World) : Option (Bool × Solver × World) :=
  if isSoftClause f then
    let r := s.addSoftC n f
    some (r.1, r.2, w)
  else
    let x := sel s.sels.length
    let s := { s with sels := if x ∈ s.sels then s.sels else s.sels ++ [x] }
    (s.addHard C cfg alg (Formula.mkOr C [.lit x.n, f]) w).bind fun p =>
    (p.1.addHard C cfg alg (Formula.mkOr C [Formula.mkNeg C f, .lit x.p]) p.2).map fun p =>
      let r := p.1.addSoftC n (.lit x.p)
      (r.1, r.2, p.2)

/-- `MaxSatResult`. -/
inductive Result
  | unsat
  | optimum (cost : Nat)
  | undef
deriving DecidableEq

/-- `status`, maxsat_ffi.rs:151-162.  Errors of the library are left out. -/
def Status.result : Status → Result
  | .unknown => .undef
  | .unsat => .unsat
  | .opt c _ => .optimum c

/-- `solve`, maxsat_solver.rs:327-330, with `search`, maxsat_ffi.rs:128-149.  `ans` is the answer of the library for the
clauses, which are then gone. -/
def Solver.solve (ans : Prob → Status) (s : Solver) : Result × Solver :=
  match s.status with
  | .unknown => ((ans s.prob).result, { s with status := ans s.prob, prob := ⟨[], [], 0⟩ })
  | st => (st.result, s)

/-- `model`, maxsat_ffi.rs:164-173, with `create_model`, 186-220.  `none` is a panic, `some (none, _)` an error. -/
def Solver.getModel (s : Solver) : Option (Option MModel × Solver) :=
  match s.model with
  | some m => some (some m, s)
  | none =>
    match s.status with
    | .opt _ m =>
      if m.length = 0 then some (none, s)
      else if m.length ≤ s.vars.length then
        let ps := (s.vars.zip m).filter fun p => decide (p.1 ∉ s.sels)
        let r : MModel := ⟨(ps.filter (·.2)).map (·.1), (ps.filter fun p => !p.2).map (·.1)⟩
        some (some r, { s with model := some r })
      else none
    | _ => some (none, s)

/-! ### What the library has to do (specification) -/

/-- Value of a literal of the library. -/
def litV (ρ : Nat → Bool) (i : Int) : Bool := if 0 < i then ρ (i.natAbs - 1) else !ρ (i.natAbs - 1)

/-- All hard clauses hold. -/
def Prob.Ok (P : Prob) (ρ : Nat → Bool) : Prop := ∀ c ∈ P.hard, c.any (litV ρ) = true

/-- Weights of the soft clauses that do not hold. -/
def Prob.cost (P : Prob) (ρ : Nat → Bool) : Nat := (P.soft.map fun p => if p.2.any (litV ρ) then 0 else p.1).sum

/-- A right answer. -/
inductive Right (P : Prob) : Status → Prop
  | unsat : (∀ ρ, ¬ P.Ok ρ) → Right P .unsat
  | opt {c m} : m.length = P.nVars → P.Ok (fun i => m.getD i false) → P.cost (fun i => m.getD i false) = c → (∀ ρ, P.Ok ρ → c ≤ P.cost ρ) → Right P (.opt c m)

/-! ### Clauses -/

/-- Values of the library's variables and of ours agree. -/
def Agr (vs : List Var) (ρ : Nat → Bool) (σ : Asg) : Prop := ∀ i v, vs[i]? = some v → ρ i = σ v

theorem Agr.prefix {a b : List Var} (h : a <+: b) {ρ : Nat → Bool} {σ : Asg} (ha : Agr b ρ σ) : Agr a ρ σ := fun i v hv => by
  obtain ⟨t, rfl⟩ := h
  have hlt : i < a.length := by
    rcases Nat.lt_or_ge i a.length with h | h
    · exact h
    · rw [List.getElem?_eq_none h] at hv; cases hv
  exact ha i v (by rw [List.getElem?_append_left hlt]; exact hv)

theorem addVar_ok {v : Var} {vs : List Var} (hn : vs.Nodup) :
    vs <+: (addVar v vs).2 ∧ (addVar v vs).2.Nodup ∧ (addVar v vs).2[(addVar v vs).1]? = some v ∧ max vs.length ((addVar v vs).1 + 1) = (addVar v vs).2.length := by
  unfold addVar
  by_cases h : v ∈ vs
  · rw [if_pos h]
    have hlt := List.idxOf_lt_length_iff.2 h
    refine ⟨List.prefix_rfl, hn, ?_, ?_⟩
    · show vs[vs.idxOf v]? = _
      rw [List.getElem?_eq_getElem hlt, List.getElem_idxOf]
    · show max vs.length (vs.idxOf v + 1) = vs.length; omega
  · rw [if_neg h]
    refine ⟨List.prefix_append _ _, ?_, by simp, by simp⟩
    rw [List.nodup_append]
    refine ⟨hn, by simp, fun a ha b hb => ?_⟩
    rw [List.mem_singleton] at hb
    rintro rfl
    exact h (hb ▸ ha)

theorem conv_ok : ∀ (ls : List Lit) {vs : List Var}, vs.Nodup →
    vs <+: (conv ls vs vs.length).2.1 ∧ (conv ls vs vs.length).2.1.Nodup ∧ (conv ls vs vs.length).2.2 = (conv ls vs vs.length).2.1.length ∧
    ∀ ρ σ, Agr (conv ls vs vs.length).2.1 ρ σ → (conv ls vs vs.length).1.any (litV ρ) = ls.any (Lit.eval σ)
  | [], vs, hn => ⟨List.prefix_rfl, hn, rfl, fun _ _ _ => rfl⟩
  | l :: ls, vs, hn => by
    obtain ⟨h1, h2, h3, h4⟩ := addVar_ok (v := l.v) hn
    obtain ⟨k1, k2, k3, k4⟩ := conv_ok ls h2
    simp only [conv, h4]
    refine ⟨h1.trans k1, k2, k3, fun ρ σ ha => ?_⟩
    have hv := (ha.prefix k1) _ _ h3
    simp only [List.any_cons, k4 ρ σ ha]
    congr 1
    cases hp : l.pos with
    | true =>
      rw [if_pos rfl]
      have : 0 < ((addVar l.v vs).1 : Int) + 1 := by omega
      have e : (((addVar l.v vs).1 : Int) + 1).natAbs - 1 = (addVar l.v vs).1 := by omega
      rw [litV, if_pos this, e, hv]; simp [Lit.eval, hp]
    | false =>
      rw [if_neg (by simp)]
      have : ¬ 0 < -(((addVar l.v vs).1 : Int) + 1) := by omega
      have e : (-(((addVar l.v vs).1 : Int) + 1)).natAbs - 1 = (addVar l.v vs).1 := by omega
      rw [litV, if_neg this, e, hv]; simp [Lit.eval, hp]

end Verif.MaxSat
