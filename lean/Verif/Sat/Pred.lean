import Verif.Sat.AddF
import Verif.Sat.MiniBackbone
import Verif.F.Restrict
/-
Operations of the factory that use a solver: operations/predicates/sat.rs and operations/transformations/simplification/backbone_simplification.rs.
-/
namespace Verif.Sat
open St

/-- The configuration of the factory, with `C` the default configuration of the solver and `cSat`, `cBb` telling whether the two caches are on. -/
structure PEnv (F : Type) where
  K : Canon
  cfg : FCfg
  alg : CnfAlg
  C : MCfg F
  cSat : Bool
  cBb : Bool

/-- The factory with the two caches, and the encoders of the user. -/
structure PState where
  w : World
  es : List (CnfAlg × EncSt)
  sat : Formula → Option Bool
  bbs : Formula → Option Formula

section
variable {F : Type} [LinearOrder F] [Flt F]

/-- A new solver of the given CNF method in the factory. -/
def PEnv.solver (E : PEnv F) (me : CnfMethod) (s : PState) : Env F × FMini F := (⟨E.K, E.cfg, E.alg, E.C, me⟩, ⟨.new E.C, fun _ => none, s.w, s.es⟩)

/-- `is_sat`, sat.rs:26-41 -/
def isSat (E : PEnv F) (fuel : Nat) (f : Formula) (s : PState) : Res (Bool × PState) :=
  match s.sat f with
  | some b => .ok (b, s)
  | none =>
    match (E.solver .factory s).2.add (E.solver .factory s).1 f with
    | .panic => .panic
    | .diverge => .diverge
    | .ok x =>
      match x.m.solve E.C fuel [] [] with
      | .panic => .panic
      | .diverge => .diverge
      | .ok (_, b) => .ok (b, { s with w := x.w, es := x.es, sat := if E.cSat then insKeep s.sat f b else s.sat })

/-- `is_tautology`, sat.rs:74-94: the same steps for the negated formula -/
def isTautology (E : PEnv F) (fuel : Nat) (f : Formula) (s : PState) : Res (Bool × PState) :=
  match isSat E fuel (Formula.mkNeg E.K f) s with
  | .ok (b, s) => .ok (!b, s)
  | .panic => .panic
  | .diverge => .diverge

/-- `complete_backbone`, backbones/mod.rs:126-139.  Simplified: a list in place of a set. -/
def Backbone.lits (b : Backbone Var) : List Lit := (b.pos.getD []).map Var.p ++ (b.neg.getD []).map Var.n

/-- The result for a backbone: backbone_simplification.rs:33-42; `none` in place of the backbone is `sat = false`.  The outer `none` is a panic. -/
def simplifyWith (K : Canon) (f : Formula) : Option (Backbone Var) → Option Formula
  | none => some .fls
  | some b =>
    if b.pos.getD [] ≠ [] ∨ b.neg.getD [] ≠ [] then
      (f.restrict K ⟨b.pos.getD [], b.neg.getD []⟩).map fun g => Formula.mkAnd K [Formula.mkAnd K (b.lits.map .lit), g]
    else some f

/-- `backbone_simplification`, backbone_simplification.rs:25-48 -/
def backboneSimp (E : PEnv F) (fuel : Nat) (f : Formula) (s : PState) : Res (Formula × PState) :=
  match s.bbs f with
  | some g => .ok (g, s)
  | none =>
    match (E.solver .pg s).2.add (E.solver .pg s).1 f with
    | .panic => .panic
    | .diverge => .diverge
    | .ok x =>
      match x.m.backbone E.C fuel (fnVars.val f) .positiveAndNegative with
      | .panic => .panic
      | .diverge => .diverge
      | .ok (_, b) =>
        match simplifyWith E.K f b with
        | none => .panic
        | some g => .ok (g, { s with w := x.w, es := x.es, bbs := if E.cBb then insKeep s.bbs f g else s.bbs })

end
end Verif.Sat
