import Verif.Sat.Write
import Verif.F.PgSolver
import Verif.F.CnfAlg
/-
Formulas added to `MiniSat` (solver/minisat_solver.rs:85-161).
-/
namespace Verif.Sat
open St

/-- `SolverCnfMethod`, solver/minisat_config.rs -/
inductive CnfMethod
  | factory
  | pg
  | fullPg
  deriving DecidableEq

/-- What the solver and the factory are configured with: `K` is the canonical form of operand lists in the factory, `cfg` and `alg` the configuration of the
factory (`alg` is that of `cnf_config`), `C` and `me` that of the solver. -/
structure Env (F : Type) where
  K : Canon
  cfg : FCfg
  alg : CnfAlg
  C : MCfg F
  me : CnfMethod

/-- `MiniSat` with the variable cache of the transformation it uses (minisat_solver.rs:31-32: of the two caches the method, which is fixed, uses one),
together with the factory and the CNF encoders of the user. -/
structure FMini (F : Type) where
  m : Mini F
  cache : Formula → Option PgEntry
  w : World
  es : List (CnfAlg × EncSt)

/-- `literals_for_clause_or_term`, operations/functions/literals.rs:84-94.  Simplified: the panics (other formulas) are left out; it is only called
for clauses, see `cnfClauses`. -/
def litsOf : Formula → List Lit
  | .nary _ fs => fs.filterMap fun f => match f with | .lit l => some l | _ => none
  | .lit l => [l]
  | _ => []

namespace FMini
variable {F : Type} [LinearOrder F] [Flt F]

/-- `add_all_original_variables`, minisat_solver.rs:342-346 -/
def known (E : Env F) (f : Formula) (x : FMini F) (r : Res (Mini F)) : Res (FMini F) :=
  match r with
  | .panic => .panic
  | .diverge => .diverge
  | .ok m =>
    match m.knowAll E.C (!E.C.initialPhase) (fnVars.val f) with
    | .panic => .panic
    | .diverge => .diverge
    | .ok m => .ok { x with m := m }

/-- The clauses from a CNF on the factory: minisat_solver.rs:101-104 with `add_clause_set`, 348-355 -/
def addFactory (E : Env F) (f : Formula) (x : FMini F) : Res (FMini F) :=
  match E.alg.transform E.K E.cfg f EncSt.stateless x.w with
  | none => .panic
  | some (g, _, w) =>
    match cnfClauses litsOf g with
    | none => .panic
    | some L => known E f { x with w := w } (x.m.addAll E.C L)

/-- The clauses of Plaisted and Greenbaum: minisat_solver.rs:105-126.  Simplified: the clauses are collected first and added to the solver afterwards
(the transformation does not look at the solver). -/
def addPg (E : Env F) (full : Bool) (f : Formula) (x : FMini F) : Res (FMini F) :=
  match addCnfToSolver E.K E.cfg full f ⟨x.cache, x.w, []⟩ with
  | none => .panic
  | some s => known E f { x with cache := s.cache, w := s.w } (x.m.addAll E.C s.out)

/-- A cardinality constraint is encoded on the solver: minisat_solver.rs:95-97 -/
def addCc (E : Env F) (c : CC) (x : FMini F) : Res (FMini F) :=
  match encodeConstraint E.cfg.cc (c.vars.length + 1) c (cER x.w.cnt) with
  | .ok s => known E (.cc c) { x with w := { x.w with cnt := s.cnt } } (x.m.write E.C (cER x.w.cnt) s)
  | _ => .panic

/-- `add`, minisat_solver.rs:93-130 (`add_all`, 86-90, repeats it).  Simplified: running out of fuel in an encoder counts as a panic. -/
def add (E : Env F) (f : Formula) (x : FMini F) : Res (FMini F) :=
  match f with
  | .cc c => addCc E c x
  | f =>
    match E.me with
    | .factory => addFactory E f x
    | .pg => addPg E false f x
    | .fullPg => addPg E true f x

/-- `add_proposition` of a proposition with the formula `f`, minisat_solver.rs:135-162 (`add_propositions`, 130-132, repeats it): the algorithm is factorization whatever the
factory is configured with, constraints are not treated apart, and variables without a clause are not made known.  What the solver remembers of the proposition is in
Props/Core.lean. -/
def addProp (E : Env F) (f : Formula) (x : FMini F) : Res (FMini F) :=
  match E.me with
  | .factory =>
    match CnfAlg.factorization.transform E.K E.cfg f EncSt.stateless x.w with
    | none => .panic
    | some (g, _, w) =>
      match cnfClauses litsOf g with
      | none => .panic
      | some L =>
        match x.m.addAll E.C L with
        | .ok m => .ok { x with m := m, w := w }
        | .panic => .panic
        | .diverge => .diverge
  | me =>
    match addCnfToSolver E.K E.cfg (decide (me = .fullPg)) f ⟨x.cache, x.w, []⟩ with
    | none => .panic
    | some s =>
      match x.m.addAll E.C s.out with
      | .ok m => .ok ⟨m, s.cache, s.w, x.es⟩
      | .panic => .panic
      | .diverge => .diverge

/-- `load_state`, minisat_solver.rs:244-258: the caches are emptied. -/
def load (E : Env F) (k : Nat) (x : FMini F) : Res (FMini F) :=
  match x.m.load E.C k with
  | .ok m => .ok { x with m := m, cache := fun _ => none }
  | .panic => .panic
  | .diverge => .diverge

/-- `reset`, minisat_solver.rs:201-207, with the variable cache -/
def reset (E : Env F) (x : FMini F) : FMini F := { x with m := x.m.reset E.C, cache := fun _ => none }

end FMini

/-! ### Specification -/

/-- What a user expects the solver to hold: the formulas added, and the saved states (newest first: id and formulas). -/
structure FSpec where
  fs : List Formula
  saved : List (Nat × List Formula)
  count : Nat

namespace FSpec

/-- Nothing. -/
def empty : FSpec := ⟨[], [], 0⟩

/-- A state is saved. -/
def save (X : FSpec) : FSpec := { X with saved := (X.count, X.fs) :: X.saved, count := X.count + 1 }

/-- The saved states from the one with id `k` on. -/
def cut (k : Nat) : List (Nat × List Formula) → Option ((Nat × List Formula) × List (Nat × List Formula))
  | [] => none
  | x :: xs => if x.1 = k then some (x, x :: xs) else cut k xs

/-- A state is loaded; `none` if it is not valid. -/
def load (k : Nat) (X : FSpec) : Option FSpec := (cut k X.saved).map fun r => { X with fs := r.1.2, saved := r.2 }

end FSpec

end Verif.Sat
