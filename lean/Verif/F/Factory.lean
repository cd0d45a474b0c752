import Verif.F.Encoding
import Verif.F.Norm

/-
The formula factory as a state machine: handles, hash-consing caches, constructors
(src/formulas/formula_factory.rs and src/formulas/formula_cache/).  Simplified: one thread
(the concurrent vector is treated in its own module); hash maps are association lists;
memoization caches of operations other than `is_cnf` are not part of the state.
-/
namespace Verif

/-- A handle (`EncodedFormula`), decoded: `Encoding.lean` shows that type, index and cache
flag determine the 64-bit word and vice versa. -/
structure H where
  ty : FTy
  idx : Nat
  large : Bool
  deriving DecidableEq, Repr

namespace H

/-- `FormulaFactory::verum`/`falsum` (`encode_type`), formula_factory.rs:369, 392 and
formula_encoding.rs:150-152. -/
def verum : H := ⟨.tru, 0, true⟩
def falsum : H := ⟨.fls, 0, true⟩

/-- `EncodedFormula::from(Literal)`, src/formulas/literal.rs:249-257.  The panic for
temporary variables (`AuxVarType::TMP`) is in `Enc.code`. -/
def ofLit (l : Lit) : H :=
  match l.v with
  | .named n => ⟨.lit l.pos .ff, n, true⟩
  | .aux t n => ⟨.lit l.pos (.aux t), n, true⟩

/-- `FormulaEncoding::is_large` (`Props/Encoding.lean`, `C01_small`). -/
def isLarge (h : H) : Bool := decide (2 ^ 26 ≤ h.idx)

/-- `as_32`: the low 32 bits keep 26 bits of the index. -/
def as32 (h : H) : H := { h with idx := h.idx % 2 ^ 26 }

/-- The handle as a number, for the comparison in the equivalence cache.  (Literals of
temporary variables have no code and never get here; any unused number does.) -/
def word (h : H) : Nat :=
  64 * h.idx + (Enc.code h.ty).getD (if h.ty = .lit true (.aux .tmp) then 18 else 19) + (if h.large then 32 else 0)

end H

/-- A hash-consing cache: the vector of entries and the reverse map (entry, handle). -/
structure Cache (α : Type) where
  vec : List α
  map : List (α × H)

namespace Cache
variable {α : Type}

/-- `reverse_map.get`: the keys are compared with `same`. -/
def find (same : α → α → Bool) (e : α) (c : Cache α) : Option H :=
  (c.map.find? fun p => same p.1 e).map (·.2)

/-- `get_or_insert` of simple_cache.rs:29-41, var_cache.rs:28-41, not_cache.rs:37-51,
implication_cache.rs:40-56, equivalence_cache.rs:40-58 and nary_formula_cache.rs:63-78: look
up the key, otherwise push the entry and store its handle. -/
def getOrInsert (same : α → α → Bool) (ty : FTy) (large : Bool) (e : α) (c : Cache α) : H × Cache α :=
  match c.find same e with
  | some h => (h, c)
  | none =>
    let h : H := ⟨ty, c.vec.length, large⟩
    (h, ⟨c.vec ++ [e], c.map ++ [(e, h)]⟩)

end Cache

/-- The 32-bit and the 64-bit part of a cache. -/
structure Dual (α : Type) where
  small : Cache α
  big : Cache α

/-- Equality of `HashableFormulaSet`s, hashable_formula_set.rs:39-45. -/
def setEq (a b : List H) : Bool := a.all (· ∈ b) && b.all (· ∈ a)

/-- The key of the equivalence cache, equivalence_cache.rs:43 and 51. -/
def equivKey (e : H × H) : H × H := if e.1.word < e.2.word then e else (e.2, e.1)

/-- Keys of the equivalence cache are equal. -/
def sameEquiv (a b : H × H) : Bool := decide (equivKey a = equivKey b)

/-- `FormulaFactory`, formula_factory.rs (fields used by the constructors). -/
structure FF where
  vars : Cache String
  ands : Dual (List H)
  ors : Dual (List H)
  nots : Dual H
  impls : Dual (H × H)
  equivs : Dual (H × H)
  ccs : Cache CC
  pbcs : Cache PBC
  isCnf : List H
  cnt : AuxTy → Nat

/-- The result of `unpack`, formula.rs:174-188. -/
inductive Node
  | tru | fls
  | lit (l : Lit)
  | not (h : H)
  | impl (a b : H)
  | equiv (a b : H)
  | nary (o : Op) (hs : List H)
  | cc (c : CC)
  | pbc (p : PBC)
  deriving DecidableEq

/-- The formula type of an n-ary operator. -/
def Op.fty : Op → FTy
  | .conj => .and
  | .disj => .or

namespace FF

/-- A new factory. -/
def empty : FF :=
  ⟨⟨[], []⟩, ⟨⟨[], []⟩, ⟨[], []⟩⟩, ⟨⟨[], []⟩, ⟨[], []⟩⟩, ⟨⟨[], []⟩, ⟨[], []⟩⟩, ⟨⟨[], []⟩, ⟨[], []⟩⟩,
   ⟨⟨[], []⟩, ⟨[], []⟩⟩, ⟨[], []⟩, ⟨[], []⟩, [], fun _ => 0⟩

/-- The cache of an n-ary operator. -/
def naryC (s : FF) : Op → Dual (List H)
  | .conj => s.ands
  | .disj => s.ors

def setNary (s : FF) (o : Op) (d : Dual (List H)) : FF :=
  match o with
  | .conj => { s with ands := d }
  | .disj => { s with ors := d }

/-- `Dual` access by cache flag (the `get` functions of the caches). -/
def sel {α : Type} (d : Dual α) (large : Bool) : List α := if large then d.big.vec else d.small.vec

/-- `unpack`, formula.rs:174-188, with the `get` functions of the caches; `none` is a
panic (index out of bounds or the assertion in `SimpleCache::get`). -/
def unpack (s : FF) (h : H) : Option Node :=
  match h.ty with
  | .tru => some .tru
  | .fls => some .fls
  | .lit p .ff => some (.lit ⟨.named h.idx, p⟩)
  | .lit p (.aux t) => some (.lit ⟨.aux t h.idx, p⟩)
  | .and => ((sel s.ands h.large)[h.idx]?).map (.nary .conj)
  | .or => ((sel s.ors h.large)[h.idx]?).map (.nary .disj)
  | .not => ((sel s.nots h.large)[h.idx]?).map .not
  | .impl => ((sel s.impls h.large)[h.idx]?).map fun p => .impl p.1 p.2
  | .equiv => ((sel s.equivs h.large)[h.idx]?).map fun p => .equiv p.1 p.2
  | .cc => if h.large then (s.ccs.vec[h.idx]?).map .cc else none
  | .pbc => if h.large then (s.pbcs.vec[h.idx]?).map .pbc else none

/-- `predicates::is_cnf`, src/operations/predicates/cnf.rs:3-10. -/
def isCnfH (s : FF) (h : H) : Bool :=
  match h.ty with
  | .lit _ _ => true
  | .tru => true
  | .fls => true
  | .and => decide (h ∈ s.isCnf)
  | .or => decide (h ∈ s.isCnf)
  | _ => false

/-- `FilterResult`, formula_factory.rs.  Simplified: the sets `reduced_set32/64` always
hold the elements of the vectors, so they are not kept separately. -/
structure Acc where
  r32 : List H
  r64 : List H
  isCnf : Bool

/-- `NotCache::lookup`, not_cache.rs:53-59. -/
def lookupNot (s : FF) (h : H) : Option H :=
  if h.isLarge then s.nots.big.find (· == ·) h else s.nots.small.find (· == ·) h.as32

/-- Membership test of `contains_complement`: `set32` with the truncated handle, `set64`
with the full one. -/
def inAcc (a : Acc) (h : H) : Bool := decide (h.as32 ∈ a.r32) || decide (h ∈ a.r64)

/-- `contains_complement`, formula_factory.rs:1397-1421; `none` is a panic in `unpack`. -/
def containsComplement (s : FF) (a : Acc) (h : H) : Option Bool :=
  match s.unpack h with
  | none => none
  | some .tru => some (inAcc a H.falsum)
  | some .fls => some (inAcc a H.verum)
  | some (.lit l) => some (inAcc a (H.ofLit l.neg))
  | some (.not g) => some (inAcc a g)
  | some _ =>
    match s.lookupNot h with
    | none => some false
    | some n => some (inAcc a n)

/-- `operands`, src/operations/functions/operands.rs, for n-ary formulas. -/
def operands (s : FF) (h : H) : Option (List H) :=
  match s.unpack h with
  | some (.nary _ hs) => some hs
  | _ => none

/-- The update of the flag, formula_factory.rs:1359-1367. -/
def cnfFlag (s : FF) (o : Op) (h : H) (flag : Bool) : Bool :=
  if flag then
    match o with
    | .conj => s.isCnfH h
    | .disj => match h.ty with
      | .lit _ _ => true
      | .tru => true
      | .fls => true
      | _ => false
  else false

/-- The loop of `filter_flatten`, formula_factory.rs:1353-1393; `rec` is the recursive
call.  Outer `none`: panic (or out of fuel); inner `none`: `return false`. -/
def flattenLoop (s : FF) (o : Op) (rec : List H → Acc → Option (Option Acc)) :
    List H → Bool → Acc → Option (Option Acc)
  | [], _, a => some (some a)
  | h :: hs, large, a =>
    if h.ty = o.fty then
      match s.operands h with
      | none => none
      | some ops =>
        match rec ops a with
        | none => none
        | some none => some none
        | some (some a') => flattenLoop s o rec hs large a'
    else
      let a := { a with isCnf := s.cnfFlag o h a.isCnf }
      if h.ty = .tru then
        (if o = .disj then some none else flattenLoop s o rec hs large a)
      else if h.ty = .fls then
        (if o = .conj then some none else flattenLoop s o rec hs large a)
      else
        match s.containsComplement a h with
        | none => none
        | some true => some none
        | some false =>
          let large := large || h.isLarge
          if large then
            (if h.as32 ∉ a.r32 ∧ h ∉ a.r64 then flattenLoop s o rec hs large { a with r64 := a.r64 ++ [h] }
             else flattenLoop s o rec hs large a)
          else
            (if h.as32 ∉ a.r32 then flattenLoop s o rec hs large { a with r32 := a.r32 ++ [h.as32] }
             else flattenLoop s o rec hs large a)

/-- `filter_flatten`, formula_factory.rs:1348-1395.  `fuel` bounds the recursion depth. -/
def filterFlatten (s : FF) (o : Op) : Nat → List H → Acc → Option (Option Acc)
  | 0, _, _ => none
  | fuel + 1, hs, a => flattenLoop s o (filterFlatten s o fuel) hs false a

/-- `NaryFormulaCache::get_or_insert`, nary_formula_cache.rs:56-79. -/
def naryInsert (ty : FTy) (e32 e64 : List H) (d : Dual (List H)) : H × Dual (List H) :=
  if e64 = [] then
    let (h, c) := d.small.getOrInsert setEq ty false e32
    (h, { d with small := c })
  else
    let (h, c) := d.big.getOrInsert setEq ty true (e32 ++ e64)
    (h, { d with big := c })

/-- Handles of the constants in `and`/`or`. -/
def absorbingH : Op → H
  | .conj => H.falsum
  | .disj => H.verum
def neutralH : Op → H
  | .conj => H.verum
  | .disj => H.falsum

/-- The choice of the result in `and`/`or`, formula_factory.rs:621-629 and 664-672. -/
def pick (s : FF) (o : Op) (a : Acc) : FF × H :=
  match a.r32, a.r64 with
  | [], [] => (s, neutralH o)
  | [h], [] => (s, h)
  | [], [h] => (s, h)
  | e32, e64 =>
    let (h, d) := naryInsert o.fty e32 e64 (s.naryC o)
    (s.setNary o d, h)

/-- `is_nary_operator`, formula.rs:507. -/
def isNaryTy (h : H) : Bool := h.ty == .and || h.ty == .or

/-- `FormulaFactory::and`/`or`, formula_factory.rs:614-636 and 657-679. -/
def nary (fuel : Nat) (s : FF) (o : Op) (hs : List H) : Option (FF × H) :=
  match s.filterFlatten o fuel hs ⟨[], [], true⟩ with
  | none => none
  | some none => some (s, absorbingH o)
  | some (some a) =>
    let (s', h) := s.pick o a
    some (if a.isCnf && isNaryTy h then { s' with isCnf := h :: s'.isCnf } else s', h)

/-- `NotCache::get_or_insert`, not_cache.rs:37-51. -/
def notInsert (h : H) (d : Dual H) : H × Dual H :=
  if h.isLarge then
    let (r, c) := d.big.getOrInsert (· == ·) .not true h
    (r, { d with big := c })
  else
    let (r, c) := d.small.getOrInsert (· == ·) .not false h.as32
    (r, { d with small := c })

/-- `ImplicationCache::get_or_insert`, implication_cache.rs:40-56, and
`EquivalenceCache::get_or_insert`, equivalence_cache.rs:40-58. -/
def pairInsert (same : H × H → H × H → Bool) (ty : FTy) (l r : H) (d : Dual (H × H)) : H × Dual (H × H) :=
  if l.isLarge || r.isLarge then
    let (x, c) := d.big.getOrInsert same ty true (l, r)
    (x, { d with big := c })
  else
    let (x, c) := d.small.getOrInsert same ty false (l.as32, r.as32)
    (x, { d with small := c })

/-- Registering a formula without operand handles: constants, cardinality and
pseudo-Boolean constraints (`SimpleCache::get_or_insert`, simple_cache.rs:29-41). -/
def leaf (s : FF) : Formula → FF × H
  | .tru => (s, H.verum)
  | .fls => (s, H.falsum)
  | .cc c => let (h, d) := s.ccs.getOrInsert (· == ·) .cc true c; ({ s with ccs := d }, h)
  | .pbc p => let (h, d) := s.pbcs.getOrInsert (· == ·) .pbc true p; ({ s with pbcs := d }, h)
  | _ => (s, H.verum)

/-- `FormulaFactory::pbc`, formula_factory.rs:968-982: the decision is `Formula.mkPbc`. -/
def pbc (s : FF) (c : Cmp) (rhs : Int) (ts : List (Lit × Int)) : FF × H := s.leaf (Formula.mkPbc c rhs ts)

/-- `FormulaFactory::cc`, formula_factory.rs:880-883. -/
def cc (s : FF) (c : Cmp) (rhs : Nat) (vs : List Var) : Option (FF × H) := (Formula.mkCc c rhs vs).map s.leaf

/-- The shared part of the `negate` functions of the constraints, pbc_cc.rs:318-360 and
482-494. -/
def negConstraint (fuel : Nat) (s : FF) (c : Cmp) (rhs : Int) (ts : List (Lit × Int)) : Option (FF × H) :=
  match c with
  | .eq =>
    let (s1, l) := s.pbc .lt rhs ts
    let (s2, g) := s1.pbc .gt rhs ts
    s2.nary fuel .disj [l, g]
  | .gt => some (s.pbc .le rhs ts)
  | .ge => some (s.pbc .lt rhs ts)
  | .lt => some (s.pbc .ge rhs ts)
  | .le => some (s.pbc .gt rhs ts)

/-- `nots.get_or_insert` in `not`, formula_factory.rs:816. -/
def insNot (s : FF) (h : H) : FF × H :=
  let (r, d) := notInsert h s.nots
  ({ s with nots := d }, r)

/-- `FormulaFactory::negate`, formula_factory.rs:847-857. -/
def negate (fuel : Nat) (s : FF) (h : H) : Option (FF × H) :=
  match s.unpack h with
  | none => none
  | some (.pbc p) => s.negConstraint fuel p.cmp p.rhs p.terms
  | some (.cc c) => s.negConstraint fuel c.cmp c.rhs (c.vars.map fun v => (v.p, (1 : Int)))
  | some (.equiv _ _) => some (s.insNot h)
  | some (.impl _ _) => some (s.insNot h)
  | some (.nary _ _) => some (s.insNot h)
  | some (.not g) => some (s, g)
  | some (.lit l) => some (s, H.ofLit l.neg)
  | some .tru => some (s, H.falsum)
  | some .fls => some (s, H.verum)

/-- `FormulaFactory::not`, formula_factory.rs:813-818. -/
def not (fuel : Nat) (s : FF) (h : H) : Option (FF × H) :=
  match h.ty with
  | .fls => s.negate fuel h
  | .tru => s.negate fuel h
  | .lit _ _ => s.negate fuel h
  | .not => s.negate fuel h
  | _ => some (s.insNot h)

/-- `FormulaFactory::implication`, formula_factory.rs:730-744. -/
def implication (fuel : Nat) (s : FF) (l r : H) : Option (FF × H) :=
  if l.ty = .tru then some (s, r)
  else if l.ty = .fls ∨ r.ty = .tru then some (s, H.verum)
  else if r.ty = .fls then s.not fuel l
  else if l = r then some (s, H.verum)
  else
    match s.negate fuel r with
    | none => none
    | some (s', n) =>
      if l = n then some (s', r)
      else
        let (h, d) := pairInsert (· == ·) .impl l r s'.impls
        some ({ s' with impls := d }, h)

/-- `FormulaFactory::equivalence`, formula_factory.rs:764-780. -/
def equivalence (fuel : Nat) (s : FF) (l r : H) : Option (FF × H) :=
  if l.ty = .tru then some (s, r)
  else if l.ty = .fls then s.not fuel r
  else if r.ty = .tru then some (s, l)
  else if r.ty = .fls then s.not fuel l
  else if l = r then some (s, H.verum)
  else
    match s.negate fuel r with
    | none => none
    | some (s', n) =>
      if l = n then some (s', H.falsum)
      else
        let (h, d) := pairInsert sameEquiv .equiv l r s'.equivs
        some ({ s' with equivs := d }, h)

/-- `FormulaFactory::variable`, formula_factory.rs:479-481. -/
def mkVar (s : FF) (name : String) : FF × H :=
  let (h, d) := s.vars.getOrInsert (· == ·) (.lit true .ff) true name
  ({ s with vars := d }, h)

/-- `new_auxiliary_variable`, formula_factory.rs:1290-1312; `none` is the panic for `TMP`. -/
def newAux (s : FF) (t : AuxTy) : Option (FF × Var) :=
  if t = .tmp then none
  else some ({ s with cnt := fun t' => if t' = t then s.cnt t' + 1 else s.cnt t' }, .aux t (s.cnt t))

end FF

/-! ### What a handle denotes (specification) -/

mutual
/-- Handle `h` denotes the tree `f` in state `s`: unpacking `h` down to the leaves gives `f`. -/
def Den (s : FF) : H → Formula → Prop
  | h, .tru => h = H.verum
  | h, .fls => h = H.falsum
  | h, .lit l => h = H.ofLit l
  | h, .not f => ∃ g, s.unpack h = some (.not g) ∧ Den s g f
  | h, .impl a b => ∃ x y, s.unpack h = some (.impl x y) ∧ Den s x a ∧ Den s y b
  | h, .equiv a b => ∃ x y, s.unpack h = some (.equiv x y) ∧ Den s x a ∧ Den s y b
  | h, .nary o fs => ∃ hs, s.unpack h = some (.nary o hs) ∧ Dens s hs fs
  | h, .cc c => s.unpack h = some (.cc c)
  | h, .pbc p => s.unpack h = some (.pbc p)
/-- The same for lists. -/
def Dens (s : FF) : List H → List Formula → Prop
  | [], [] => True
  | h :: hs, f :: fs => Den s h f ∧ Dens s hs fs
  | [], _ :: _ => False
  | _ :: _, [] => False
end

end Verif
