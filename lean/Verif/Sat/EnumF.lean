import Verif.Sat.Pred
import Verif.Sat.Enum
/-
Enumeration of the models of a formula with a solver of its own: src/solver/functions/model_enumeration.rs.
-/
namespace Verif.Sat
open St

/-- `enumerate_models_for_formula_with_config`, model_enumeration.rs:152-160 (`enumerate_models_for_formula`, 128-130, is the case of the default configuration): a new
solver in its default configuration, whose CNF method is that of Plaisted and Greenbaum (minisat_config.rs:88).  The state of the factory afterwards is returned as well. -/
def enumFormula {F : Type} [LinearOrder F] [Flt F] (E : PEnv F) (fuel : Nat) (cfg : EnumCfg) (f : Formula) (s : PState) : Res (List NModel × PState) :=
  match (E.solver .pg s).2.add (E.solver .pg s).1 f with
  | .panic => .panic
  | .diverge => .diverge
  | .ok x =>
    match x.m.enumerate E.C fuel cfg with
    | .panic => .panic
    | .diverge => .diverge
    | .ok (_, ms) => .ok (ms, { s with w := x.w, es := x.es })

end Verif.Sat
