import Verif.F.Norm

/-
Printing formulas (`EncodedFormula::to_string`) and parsing them (`FormulaFactory::parse`).
Text is a list of characters.
-/
namespace Verif

/-! ## Numbers -/

/-- The digit `d < 10`. -/
def digit (d : Nat) : Char := Char.ofNat (48 + d)

/-- Decimal digits of a natural number, as `format!("{}")` writes them. -/
def digits (n : Nat) : List Char :=
  if n < 10 then [digit n] else digits (n / 10) ++ [digit (n % 10)]
termination_by n

/-- An integer, as `format!("{}")` writes it. -/
def showInt (x : Int) : List Char :=
  if x < 0 then '-' :: digits x.natAbs else digits x.natAbs

/-- Value of a sequence of digits (`str::parse`). -/
def readNat (cs : List Char) : Nat := cs.foldl (fun a c => 10 * a + (c.toNat - 48)) 0

/-! ## Names -/

/-- What the factory knows about names: its own identifier (`FormulaFactory::id`), the name
of each variable (`var_name`), and the index under which `get_or_insert` finds a name
(formula_factory.rs:479-481).  Simplified: `intern` is the table after the call, so the
insertion of new names is not a change of state. -/
structure Names where
  id : List Char
  name : Nat → List Char
  intern : List Char → Nat

/-- `AuxVarType::prefix`, src/formulas/variable.rs:40-47, without `AUX_PREFIX` and id. -/
def AuxTy.text : AuxTy → List Char
  | .cnf => "CNF".toList
  | .cc => "CC".toList
  | .pb => "PB".toList
  | .tmp => "TMP".toList

/-- `AUX_PREFIX`, formula_factory.rs:38. -/
def auxPrefix : List Char := "@RESERVED_".toList

namespace Names

/-- `Variable::name`, variable.rs:114-119. -/
def var (N : Names) : Var → List Char
  | .named i => N.name i
  | .aux t i => auxPrefix ++ N.id ++ ['_'] ++ t.text ++ ['_'] ++ digits i

/-- `Literal::to_string`, literal.rs:243-246. -/
def lit (N : Names) (l : Lit) : List Char := if l.pos then N.var l.v else '~' :: N.var l.v

end Names

/-! ## Printing -/

/-- `Display for CType`, src/formulas/pbc_cc.rs:167-177. -/
def Cmp.text : Cmp → List Char
  | .eq => ['=']
  | .gt => ['>']
  | .ge => ['>', '=']
  | .lt => ['<']
  | .le => ['<', '=']

/-- `join`. -/
def joinWith (s : List Char) : List (List Char) → List Char
  | [] => []
  | [x] => x
  | x :: y :: xs => x ++ s ++ joinWith s (y :: xs)

/-- One summand of `PbConstraint::to_string`, pbc_cc.rs:541-550. -/
def Names.term (N : Names) (t : Lit × Int) : List Char :=
  if t.2 = 1 then N.lit t.1 else showInt t.2 ++ '*' :: N.lit t.1

/-- `CardinalityConstraint::to_string`, pbc_cc.rs:365-368. -/
def Names.cc (N : Names) (c : CC) : List Char :=
  joinWith " + ".toList (c.vars.map N.var) ++ ' ' :: c.cmp.text ++ ' ' :: digits c.rhs

/-- `PbConstraint::to_string`, pbc_cc.rs:541-550. -/
def Names.pbc (N : Names) (p : PBC) : List Char :=
  joinWith " + ".toList (p.terms.map N.term) ++ ' ' :: p.cmp.text ++ ' ' :: showInt p.rhs

/-- `precedence`, src/formulas/formula.rs:1249-1264. -/
def Formula.prec : Formula → Nat
  | .pbc _ => 0
  | .cc _ => 1
  | .equiv _ _ => 2
  | .impl _ _ => 3
  | .nary .disj _ => 4
  | .nary .conj _ => 5
  | .not _ => 6
  | .lit _ => 7
  | .tru => 8
  | .fls => 9

/-- The parentheses of `nary_to_string`, formula.rs:1272-1276: around operands that bind
weaker than the operator. -/
def paren (self : Nat) (op : Nat) (s : List Char) : List Char :=
  if self > op then '(' :: s ++ [')'] else s

mutual

/-- `EncodedFormula::to_string`, formula.rs:1233-1247, with `nary_to_string`, 1266-1279. -/
def Formula.text (N : Names) : Formula → List Char
  | .tru => "$true".toList
  | .fls => "$false".toList
  | .lit l => N.lit l
  | .nary .conj fs => joinWith " & ".toList (Formula.texts N 5 fs)
  | .nary .disj fs => joinWith " | ".toList (Formula.texts N 4 fs)
  | .not f => '~' :: '(' :: Formula.text N f ++ [')']
  | .impl a b => paren 3 a.prec (Formula.text N a) ++ " => ".toList ++ paren 3 b.prec (Formula.text N b)
  | .equiv a b => paren 2 a.prec (Formula.text N a) ++ " <=> ".toList ++ paren 2 b.prec (Formula.text N b)
  | .cc c => N.cc c
  | .pbc p => N.pbc p

/-- The operands of an n-ary formula of the given precedence. -/
def Formula.texts (N : Names) (k : Nat) : List Formula → List (List Char)
  | [] => []
  | f :: fs => paren k f.prec (Formula.text N f) :: Formula.texts N k fs

end

/-! ## Parsing

The grammar src/parser/lng_pseudo_boolean_parser.pest is a parsing expression grammar; each
function below models one rule: it gets the remaining input and answers what it matched and
what is left, or `none`.  `pest` skips white space between the elements of a sequence and of
a repetition (except in atomic rules). -/

/-- `WHITESPACE`, lng_pseudo_boolean_parser.pest:1. -/
def isWs (c : Char) : Bool := c == ' ' || c == '\t' || c == '\r' || c == '\n'

/-- Implicit white space. -/
def skip (cs : List Char) : List Char := cs.dropWhile isWs

/-- A literal string of the grammar. -/
def str : List Char → List Char → Option (List Char)
  | [], cs => some cs
  | _ :: _, [] => none
  | a :: s, c :: cs => if a = c then str s cs else none

/-- A summand of a comparison: after `sub`?, `mul` with its coefficient and literal. -/
structure Summand where
  sub : Bool
  coef : Int
  neg : Bool
  name : List Char

/-- Syntax trees, one constructor for each rule that `pseudo_boolean_parser.rs` inspects. -/
inductive Syn
  | eqv (xs : List Syn)
  | imp (xs : List Syn)
  | dis (xs : List Syn)
  | con (xs : List Syn)
  | simp (nots : Nat) (x : Syn)
  | lit (neg : Bool) (name : List Char)
  | const (b : Bool)
  | cmp (ts : List Summand) (c : Cmp) (rhs : Int)

abbrev Pars (α : Type) := List Char → Option (α × List Char)

/-- Characters of `var_name` after the first, pest:15. -/
def isNameChar (c : Char) : Bool := c.isAlphanum || c == '_'

/-- `var_name`, pest:15. -/
def pName : Pars (List Char)
  | [] => none
  | c :: cs =>
    if isNameChar c || c == '@' then some (c :: cs.takeWhile isNameChar, cs.dropWhile isNameChar) else none

/-- `literal`, pest:14 (compound atomic, so without white space); the flag tells `~`. -/
def pLiteral : Pars (Bool × List Char)
  | '~' :: cs => (pName cs).map fun r => ((true, r.1), r.2)
  | cs => (pName cs).map fun r => ((false, r.1), r.2)

/-- `ASCII_DIGIT+`. -/
def pDigits (cs : List Char) : Option (Nat × List Char) :=
  if cs.takeWhile Char.isDigit = [] then none
  else some (readNat (cs.takeWhile Char.isDigit), cs.dropWhile Char.isDigit)

/-- `number`, pest:16.  The value is an integer here; that it fits `i64` is checked in
`Syn.build`. -/
def pNumber : Pars Int
  | '-' :: cs => (pDigits cs).map fun r => (-(r.1 : Int), r.2)
  | cs => (pDigits cs).map fun r => ((r.1 : Int), r.2)

/-- `number ~ "*"` in pest:12. -/
def pCoef (cs : List Char) : Option (Int × List Char) :=
  match pNumber cs with
  | none => none
  | some (k, r) =>
    match skip r with
    | '*' :: r => some (k, r)
    | _ => none

/-- `mul`, pest:12.  No coefficient means 1 (`parse_mul`, pseudo_boolean_parser.rs:146-160). -/
def pMul (sub : Bool) : Pars Summand := fun cs =>
  match pCoef cs with
  | some (k, r) => (pLiteral (skip r)).map fun q => (⟨sub, k, q.1.1, q.1.2⟩, q.2)
  | none => (pLiteral (skip cs)).map fun q => (⟨sub, 1, q.1.1, q.1.2⟩, q.2)

/-- `((add | sub) ~ mul)*` of pest:11.  `fuel` bounds the repetitions and is never used up,
each consumes a character. -/
def pMuls : Nat → List Char → List Summand × List Char
  | 0, cs => ([], cs)
  | n + 1, cs =>
    match skip cs with
    | '+' :: r =>
      match pMul false (skip r) with
      | some (t, r) => (t :: (pMuls n r).1, (pMuls n r).2)
      | none => ([], cs)
    | '-' :: r =>
      match pMul true (skip r) with
      | some (t, r) => (t :: (pMuls n r).1, (pMuls n r).2)
      | none => ([], cs)
    | _ => ([], cs)

/-- `comp_type`, pest:24-29: the first alternative that matches. -/
def pCmpTy : Pars Cmp
  | '=' :: cs => some (.eq, cs)
  | '<' :: '=' :: cs => some (.le, cs)
  | '<' :: cs => some (.lt, cs)
  | '>' :: '=' :: cs => some (.ge, cs)
  | '>' :: cs => some (.gt, cs)
  | _ => none

/-- `comparison`, pest:11. -/
def pComparison : Pars Syn := fun cs =>
  match pMul false cs with
  | none => none
  | some (t, r) =>
    match pCmpTy (skip (pMuls r.length (skip r)).2) with
    | none => none
    | some (c, r1) =>
      match pNumber (skip r1) with
      | none => none
      | some (k, r2) => some (.cmp (t :: (pMuls r.length (skip r)).1) c k, r2)

/-- `not*`, pest:10.  (White space before the first `~` has already been skipped.) -/
def pNots : Nat → List Char → Nat × List Char
  | 0, cs => (0, cs)
  | n + 1, cs =>
    match skip cs with
    | '~' :: r => ((pNots n r).1 + 1, (pNots n r).2)
    | _ => (0, cs)

/-- `constant`, pest:18-20. -/
def pConst : Pars Bool := fun cs =>
  match str "$true".toList cs with
  | some r => some (true, r)
  | none => (str "$false".toList cs).map fun r => (false, r)

/-- `"(" ~ equivalence ~ ")"` in pest:10, with `inner` for `equivalence`. -/
def pParen (inner : Pars Syn) : Pars Syn
  | '(' :: cs =>
    match inner (skip cs) with
    | none => none
    | some (x, r) =>
      match skip r with
      | ')' :: r => some (x, r)
      | _ => none
  | _ => none

/-- `literal | constant | "(" ~ equivalence ~ ")"` in pest:10. -/
def pAtom (inner : Pars Syn) : Pars Syn := fun cs =>
  match pLiteral cs with
  | some (l, r) => some (.lit l.1 l.2, r)
  | none =>
    match pConst cs with
    | some (b, r) => some (.const b, r)
    | none => pParen inner cs

/-- `simp`, pest:10. -/
def pSimp (inner : Pars Syn) : Pars Syn := fun cs =>
  (pAtom inner (skip (pNots cs.length cs).2)).map fun r => (.simp (pNots cs.length cs).1 r.1, r.2)

/-- `lit`, pest:9. -/
def pLit (inner : Pars Syn) : Pars Syn := fun cs =>
  match pComparison cs with
  | some r => some r
  | none => pSimp inner cs

/-- `(op ~ p)*`.  An element that fails leaves the input where it was before the white space
in front of it. -/
def pRep (op : List Char) (p : Pars Syn) : Nat → List Char → List Syn × List Char
  | 0, cs => ([], cs)
  | n + 1, cs =>
    match str op (skip cs) with
    | none => ([], cs)
    | some r =>
      match p (skip r) with
      | none => ([], cs)
      | some (x, r) => (x :: (pRep op p n r).1, (pRep op p n r).2)

/-- `p ~ (op ~ p)*`. -/
def pChain (mk : List Syn → Syn) (op : List Char) (p : Pars Syn) : Pars Syn := fun cs =>
  match p cs with
  | none => none
  | some (x, r) => some (mk (x :: (pRep op p r.length (skip r)).1), (pRep op p r.length (skip r)).2)

/-- `equivalence`, `implication`, `disjunction`, `conjunction`, pest:4-8, with `inner` for
the `equivalence` in parentheses. -/
def pCon (inner : Pars Syn) : Pars Syn := pChain .con "&".toList (pLit inner)
def pDis (inner : Pars Syn) : Pars Syn := pChain .dis "|".toList (pCon inner)
def pImp (inner : Pars Syn) : Pars Syn := pChain .imp "=>".toList (pDis inner)
def pEqvOf (inner : Pars Syn) : Pars Syn := pChain .eqv "<=>".toList (pImp inner)

/-- `equivalence`, nested at most `n` deep. -/
def pEqv : Nat → Pars Syn
  | 0 => pEqvOf fun _ => none
  | n + 1 => pEqvOf (pEqv n)

/-- `pseudo_boolean`, pest:3.  The outer `none` is a parse error, the inner one says that the
input is empty.  Nesting is bounded by the length of the input, see `pEqv_fuel`. -/
def pTop (cs : List Char) : Option (Option Syn) :=
  match pEqv cs.length (skip cs) with
  | some (x, r) => if skip r = [] then some (some x) else none
  | none => if skip cs = [] then some none else none

/-! ## Building formulas -/

/-- `AUX_REGEX`, formula_factory.rs:39, up to the underscore after the identifier, which has
to be the one of this factory.  No identifier of the class `[0-9A-Z]*` contains the
underscore, so there is only one way to match. -/
def stripAux (N : Names) (cs : List Char) : Option (List Char) :=
  match str auxPrefix cs with
  | none => none
  | some r =>
    if r.takeWhile (fun c => c.isDigit || c.isUpper) = N.id then
      (match r.dropWhile fun c => c.isDigit || c.isUpper with
      | '_' :: r => some r
      | _ => none)
    else none

/-- The rest of the regular expression: type and index.  `from_str`, variable.rs:50-61. -/
def auxTail (cs : List Char) : Option (AuxTy × List Char) :=
  match str "CNF_".toList cs with
  | some r => some (.cnf, r)
  | none =>
    match str "CC_".toList cs with
    | some r => some (.cc, r)
    | none => (str "PB_".toList cs).map fun r => (.pb, r)

/-- `FormulaFactory::parsed_variable`, formula_factory.rs:502-515, with `AUX_REGEX`, line 39.
`none` is the panic on an index beyond 64 bits. -/
def Names.read (N : Names) (cs : List Char) : Option Var :=
  match (stripAux N cs).bind auxTail with
  | some (t, r) =>
    if r ≠ [] ∧ r.all Char.isDigit = true then
      (if readNat r < 2 ^ 64 then some (.aux t (readNat r)) else none)
    else some (.named (N.intern cs))
  | none => some (.named (N.intern cs))

/-- Numbers must fit `i64`, otherwise `parse().unwrap()` panics. -/
def i64? (x : Int) : Option Int := if -2 ^ 63 ≤ x ∧ x < 2 ^ 63 then some x else none

/-- One summand: `parse_mul` and `parse_literal`, pseudo_boolean_parser.rs:146-171.
Subtraction negates the coefficient (118-122); overflow there is a panic as well. -/
def Names.readTerm (N : Names) (t : Summand) : Option (Lit × Int) :=
  match N.read t.name, (i64? t.coef).bind fun k => if t.sub then i64? (-k) else some k with
  | some v, some k => some (⟨v, !t.neg⟩, k)
  | _, _ => none

/-- All or nothing. -/
def allSome {α β} (g : α → Option β) : List α → Option (List β)
  | [] => some []
  | x :: xs =>
    match g x, allSome g xs with
    | some y, some ys => some (y :: ys)
    | _, _ => none

/-- The loop of `parse_equivalence` and `parse_implication`, pseudo_boolean_parser.rs:28-48:
from the right. -/
def foldOp (g : Formula → Formula → Formula) : List Formula → Formula
  | [] => .tru
  | [x] => x
  | x :: y :: xs => g x (foldOp g (y :: xs))

/-- The end of `parse_disjunction` and `parse_conjunction`, pseudo_boolean_parser.rs:58, 69. -/
def naryOp (C : Canon) (o : Op) : List Formula → Formula
  | [x] => x
  | xs => Formula.mkNary C o xs

mutual

/-- `parse_equivalence` … `parse_constant`, pseudo_boolean_parser.rs:28-180.  `none` is a
panic. -/
def Syn.build (C : Canon) (N : Names) : Syn → Option Formula
  | .eqv xs => (Syn.builds C N xs).map (foldOp (Formula.mkEquiv C))
  | .imp xs => (Syn.builds C N xs).map (foldOp (Formula.mkImpl C))
  | .dis xs => (Syn.builds C N xs).map (naryOp C .disj)
  | .con xs => (Syn.builds C N xs).map (naryOp C .conj)
  | .simp n x => (Syn.build C N x).map fun f => if n % 2 = 1 then Formula.mkNot f else f
  | .lit neg s => (N.read s).map fun v => .lit ⟨v, !neg⟩
  | .const b => some (Formula.const b)
  | .cmp ts c k =>
    match allSome N.readTerm ts, i64? k with
    | some ts, some k => some (Formula.mkPbc c k ts)
    | _, _ => none

def Syn.builds (C : Canon) (N : Names) : List Syn → Option (List Formula)
  | [] => some []
  | x :: xs =>
    match Syn.build C N x, Syn.builds C N xs with
    | some y, some ys => some (y :: ys)
    | _, _ => none

end

/-- Result of `parse`: a formula, a parse error, or a panic. -/
inductive Parsed
  | ok (f : Formula)
  | error
  | panic

/-- `parse`, pseudo_boolean_parser.rs:10-26. -/
def parse (C : Canon) (N : Names) (cs : List Char) : Parsed :=
  match pTop cs with
  | none => .error
  | some none => .ok .tru
  | some (some x) =>
    match x.build C N with
    | some f => .ok f
    | none => .panic

end Verif
