import Verif.Ext.MaxSat
import Mathlib.Data.Finset.Powerset
import Mathlib.Data.Finset.Range
/-
The wrapper of the model counter sharpSAT, src/solver/sharpsat.rs.  The library itself is not modelled: its answer is a
parameter of `solve`.
-/
namespace Verif.SharpSat
open ER MaxSat

/-- `SharpSatSolver`, sharpsat.rs:42-47: the clauses given to the library, `var_map_up`, `constant`.  `var_map_down` gives positions in `var_map_up`. -/
structure Solver where
  clauses : List (List Int)
  vars : List Var
  const : Option Bool
deriving DecidableEq

/-- `new`, sharpsat.rs:67-69. -/
def Solver.new : Solver := ⟨[], [], none⟩

/-- `add_clause`, sharpsat.rs:86-114.  Variables are numbered as in the MaxSAT solver (`conv`).  Simplified: fewer than 2^31 variables. -/
def Solver.addClause (ls : List Lit) (s : Solver) : Solver :=
  if ls = [] then { s with const := some false }
  else { s with clauses := s.clauses ++ [(conv ls s.vars s.vars.length).1], vars := (conv ls s.vars s.vars.length).2.1 }

/-- `as_literal().expect(..)` for all operands, sharpsat.rs:135. -/
def asLits : List Formula → Option (List Lit)
  | [] => some []
  | .lit l :: fs => (asLits fs).map (l :: ·)
  | _ => none

/-- The `filter_map` of sharpsat.rs:142-153, with `constant_true`. -/
def orLits : List Formula → Option (Bool × List Lit)
  | [] => some (false, [])
  | .lit l :: fs => (orLits fs).map fun p => (p.1, l :: p.2)
  | .tru :: fs => (orLits fs).map fun p => (true, p.2)
  | .fls :: fs => orLits fs
  | _ => none

/-- The loop over the operands of a conjunction, sharpsat.rs:138-167. -/
def addOps : List Formula → Solver → Option Solver
  | [], s => some s
  | .nary .disj fs :: r, s => (orLits fs).bind fun p => addOps r (if p.1 then s else s.addClause p.2)
  | .lit l :: r, s => addOps r (s.addClause [l])
  | .fls :: _, s => some { s with const := some false }
  | .tru :: r, s => addOps r s
  | _, _ => none

/-- `add_cnf`, sharpsat.rs:132-173; `none` is a panic. -/
def Solver.addCnf (f : Formula) (s : Solver) : Option Solver :=
  match f with
  | .nary .disj fs => (asLits fs).map fun ls => s.addClause ls
  | .nary .conj fs => addOps fs s
  | .lit l => some (s.addClause [l])
  | .tru => some { s with const := some true }
  | .fls => some { s with const := some false }
  | _ => none

/-- `solve`, sharpsat.rs:196-210; `ans` is the library, given the number of variables and the clauses. -/
def Solver.solve (ans : Nat → List (List Int) → Nat) (s : Solver) : Nat :=
  match s.const with
  | some true => 1
  | some false => 0
  | none => if s.vars = [] then 1 else ans s.vars.length s.clauses

/-- Several formulas. -/
def Solver.addAll : List Formula → Solver → Option Solver
  | [], s => some s
  | f :: fs, s => (s.addCnf f).bind (Solver.addAll fs)

/-- What the library has to answer: the number of assignments of the variables `1..n` that satisfy all clauses (specification). -/
def countC (n : Nat) (P : List (List Int)) : Nat :=
  ((Finset.range n).powerset.filter fun A => ∀ c ∈ P, c.any (litV fun i => decide (i ∈ A)) = true).card

/-- `count_formula` with `ModelCountAlgorithm::SharpSat`, model_count.rs:125-130. -/
def count (ans : Nat → List (List Int) → Nat) (f : Formula) (_ : World) : Option Nat := (Solver.new.addCnf f).map (Solver.solve ans)

end Verif.SharpSat
