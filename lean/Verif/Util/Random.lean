import Verif.Enc.Amo
import Verif.F.Funcs
import Mathlib.Order.Defs.LinearOrder
/-
The generator of random formulas, src/util/formula_randomizer.rs.

The random numbers are an arbitrary stream `R : Nat → Nat` of raw numbers, the results of `fastrand` are functions of it; so every sequence of random numbers is covered.  `f32` is a
type `F` with arbitrary operations; `unit` maps a raw number to the result of `Rng::f32`.  Numbers of operands are natural numbers.
-/
namespace Verif.Rnd

/-- `FormulaRandomizerConfig`, formula_randomizer.rs:28-57.  Simplified: variables instead of their names; the seed is the stream. -/
structure RCfg (F : Type) where
  vars : List Var
  wConst : F
  wVar : F
  wNeg : F
  wOr : F
  wAnd : F
  wNot : F
  wImpl : F
  wEquiv : F
  maxAnd : Nat
  maxOr : Nat
  wPbc : F
  wCoPos : F
  wCoNeg : F
  wLe : F
  wLt : F
  wGe : F
  wGt : F
  wEq : F
  maxPbc : Nat
  maxCoeff : Nat
  wCc : F
  wAmo : F
  wExo : F
  maxCc : Nat

/-- `FormulaTypeProbabilities`, `CTypeProbabilities` and `coefficient_negative_probability`, formula_randomizer.rs:675-712; `_equivalence` and `_eq` are not used. -/
structure Probs (F : Type) where
  const : F
  lit : F
  pbc : F
  cc : F
  amo : F
  exo : F
  or : F
  and : F
  not : F
  impl : F
  phase : F
  le : F
  lt : F
  ge : F
  gt : F
  coNeg : F

/-- The kinds of formulas, formula_randomizer.rs:1069-1099. -/
inductive Kind
  | const | lit | pbc | cc | amo | exo | or | and | not | impl | equiv
  deriving DecidableEq, Repr

section
variable {F : Type} [LinearOrder F] [Add F] [Mul F] [Div F]

/-- The sum of the weights, formula_randomizer.rs:636-647. -/
def RCfg.total (c : RCfg F) : F :=
  c.wConst + c.wVar + c.wNeg + c.wOr + c.wAnd + c.wNot + c.wImpl + c.wEquiv + c.wPbc + c.wCc + c.wAmo + c.wExo

/-- `compute_formula_type_probabilities`, `compute_c_type_probabilities`, formula_randomizer.rs:635-673, and `new`, 724-731. -/
def RCfg.probs (c : RCfg F) : Probs F :=
  let t := c.total
  let const := c.wConst / t
  let lit := const + (c.wVar + c.wNeg) / t
  let pbc := lit + c.wPbc / t
  let cc := pbc + c.wCc / t
  let amo := cc + c.wAmo / t
  let exo := amo + c.wExo / t
  let or := exo + c.wOr / t
  let and := or + c.wAnd / t
  let not := and + c.wNot / t
  let impl := not + c.wImpl / t
  let u := c.wLe + c.wLt + c.wGe + c.wGt + c.wEq
  let le := c.wLe / u
  let lt := le + c.wLt / u
  let ge := lt + c.wGe / u
  let gt := ge + c.wGt / u
  { const, lit, pbc, cc, amo, exo, or, and, not, impl, phase := c.wVar / (c.wVar + c.wNeg), le, lt, ge, gt, coNeg := c.wCoNeg / (c.wCoPos + c.wCoNeg) }

/-- The choice in `formula`, formula_randomizer.rs:1073-1097. -/
def Probs.pick (P : Probs F) (n : F) : Kind :=
  if n < P.const then .const else if n < P.lit then .lit else if n < P.pbc then .pbc else if n < P.cc then .cc else if n < P.amo then .amo else if n < P.exo then .exo
  else if n < P.or then .or else if n < P.and then .and else if n < P.not then .not else if n < P.impl then .impl else .equiv

/-- The choice in `atom`, formula_randomizer.rs:824-837. -/
def Probs.pickAtom (P : Probs F) (n : F) : Kind :=
  if n < P.const then .const else if n < P.lit then .lit else if n < P.pbc then .pbc else if n < P.cc then .cc else if n < P.amo then .amo else .exo

end

/-- A computation with random numbers: the state is the number of raw numbers used. -/
def G (α : Type) := Nat → Out (α × Nat)

def G.pure {α : Type} (a : α) : G α := fun p => .ok (a, p)

def G.bind {α β : Type} (x : G α) (f : α → G β) : G β := fun p =>
  match x p with
  | .panic => .panic
  | .diverge => .diverge
  | .ok (a, q) => f a q

instance : Monad G where
  pure := G.pure
  bind := G.bind

def G.panic {α : Type} : G α := fun _ => .panic
def G.diverge {α : Type} : G α := fun _ => .diverge

/-- What `FormulaRandomizer` holds, formula_randomizer.rs:704-712. -/
structure REnv (F : Type) where
  K : Canon
  cfg : RCfg F
  R : Nat → Nat
  unit : Nat → F

section
variable {F : Type} [LinearOrder F] [Add F] [Mul F] [Div F] (E : REnv F)

/-- `Rng::u32(lo..hi)` and the like, which panic on an empty range. -/
def range (lo hi : Nat) : G Nat := fun p => if lo < hi then .ok (lo + E.R p % (hi - lo), p + 1) else .panic

/-- `Rng::f32`. -/
def f32 : G F := fun p => .ok (E.unit (E.R p), p + 1)

/-- A number of draws, in a list. -/
def times {α : Type} (x : G α) : Nat → G (List α)
  | 0 => pure []
  | n + 1 => do
    let a ← x
    let l ← times x n
    pure (a :: l)

/-- `variable`, formula_randomizer.rs:762-782. -/
def variable_ : G Var := do
  let i ← range E 0 E.cfg.vars.length
  pure (E.cfg.vars.getD i default)

/-- `literal`, formula_randomizer.rs:801-805. -/
def literal : G Lit := do
  let x ← f32 E
  let v ← variable_ E
  pure ⟨v, decide (x < E.cfg.probs.phase)⟩

/-- `c_type`, formula_randomizer.rs:1122-1136. -/
def cType : G Cmp := do
  let n ← f32 E
  let P := E.cfg.probs
  pure (if n < P.le then .le else if n < P.lt then .lt else if n < P.ge then .ge else if n < P.gt then .gt else .eq)

/-- `cc_variables`, formula_randomizer.rs:1118-1120. -/
def ccVars : G (List Var) := do
  let k ← range E 1 E.cfg.maxCc
  times (variable_ E) k

/-- `FormulaFactory::cc`, which may panic. -/
def callCc (c : Cmp) (rhs : Nat) (vs : List Var) : G Formula :=
  match Formula.mkCc c rhs vs with
  | none => G.panic
  | some f => pure f

/-- `cc`, formula_randomizer.rs:972-982, with a number of rounds. -/
def cc : Nat → G Formula
  | 0 => G.diverge
  | n + 1 => do
    let vs ← ccVars E
    let c ← cType E
    let r ← range E 0 (if c = .gt ∨ c = .lt then vs.length + 1 else vs.length)
    let f ← callCc c ((if c = .lt then 1 else 0) + r) vs
    if f.isConst then cc n else pure f

/-- One term of `pbc`, formula_randomizer.rs:1039-1050: the literal, the absolute value of the coefficient and whether it is negative. -/
def term : G (Lit × Nat × Bool) := do
  let l ← literal E
  let c ← range E 0 E.cfg.maxCoeff
  let x ← f32 E
  pure (l, c + 1, decide (x < E.cfg.probs.coNeg))

/-- `pbc`, formula_randomizer.rs:1033-1056, with a number of rounds.  Simplified: sums of coefficients are integers without bound. -/
def pbc : Nat → G Formula
  | 0 => G.diverge
  | n + 1 => do
    let k ← range E 0 E.cfg.maxPbc
    let ts ← times (term E) k
    let c ← cType E
    let r ← range E 0 ((ts.map fun t => t.2.1).sum + 1)
    let f := Formula.mkPbc c ((r : Int) - ((ts.filter fun t => t.2.2).map fun t => t.2.1).sum) (ts.map fun t => (t.1, if t.2.2 then -(t.2.1 : Int) else t.2.1))
    if f.isConst then pbc n else pure f

/-- `constant`, `literal`, `pbc`, `cc`, `amo`, `exo`, formula_randomizer.rs:746-748, 801-805, 972-1056. -/
def atomOf (fuel : Nat) : Kind → G Formula
  | .const => do
    let b ← range E 0 2
    pure (Formula.const (b == 1))
  | .lit => do
    let l ← literal E
    pure (.lit l)
  | .pbc => pbc E fuel
  | .cc => cc E fuel
  | .amo => do
    let vs ← ccVars E
    callCc .le 1 vs
  | _ => do
    let vs ← ccVars E
    callCc .eq 1 vs

/-- `atom`, formula_randomizer.rs:823-839. -/
def atom (fuel : Nat) : G Formula := do
  let x ← f32 E
  atomOf E fuel (E.cfg.probs.pickAtom (x * E.cfg.probs.exo))

/-- The operands of `and` and `or`, formula_randomizer.rs:929-930: they are generated while `filter_flatten` asks for them. -/
def genOps (o : Op) (x : G Formula) : Nat → List Formula → G (Option (List Formula))
  | 0, acc => pure (some acc)
  | n + 1, acc => do
    let f ← x
    match Formula.flat1 o f acc with
    | none => pure none
    | some acc => genOps o x n acc

/-- `formula` (for `none`), `not`, `implication`, `equivalence`, `and`, `or`, formula_randomizer.rs:853-958, 1069-1099, with a number of recursive calls. -/
def gen : Nat → Option Kind → Nat → G Formula
  | 0, _, _ => G.diverge
  | n + 1, _, 0 => atom E n
  | n + 1, none, d + 1 => do
    let x ← f32 E
    gen n (some (E.cfg.probs.pick x)) (d + 1)
  | n + 1, some .not, d + 1 => do
    let f ← gen n none d
    if 2 ≤ d + 1 ∧ (Formula.mkNot f).isNot = false then gen n (some .not) (d + 1) else pure (Formula.mkNot f)
  | n + 1, some .impl, d + 1 => do
    let a ← gen n none d
    let b ← gen n none d
    match Formula.mkImpl E.K a b with
    | .impl a b => pure (.impl a b)
    | _ => gen n (some .impl) (d + 1)
  | n + 1, some .equiv, d + 1 => do
    let a ← gen n none d
    let b ← gen n none d
    match Formula.mkEquiv E.K a b with
    | .equiv a b => pure (.equiv a b)
    | _ => gen n (some .equiv) (d + 1)
  | n + 1, some .and, d + 1 => do
    let k ← range E 2 E.cfg.maxAnd
    let l ← genOps .conj (gen n none d) k []
    let f := Formula.finish E.K .conj l
    if f.isNary .conj then pure f else gen n (some .and) (d + 1)
  | n + 1, some .or, d + 1 => do
    let k ← range E 2 E.cfg.maxOr
    let l ← genOps .disj (gen n none d) k []
    let f := Formula.finish E.K .disj l
    if f.isNary .disj then pure f else gen n (some .or) (d + 1)
  | n + 1, some k, _ + 1 => atomOf E n k

/-- `constraint_set`, formula_randomizer.rs:1114-1116. -/
def constraintSet (fuel n d : Nat) : G (List Formula) := times (gen E fuel none d) n

end
end Verif.Rnd
