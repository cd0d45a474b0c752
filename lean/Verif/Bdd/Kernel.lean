/-
Model of `BddKernel` (src/knowledge_compilation/bdd/bdd_kernel.rs,
bdd_cache.rs, bdd_construction.rs).

Conventions.
* `none` is a panic (failed assertion, `unwrap` of `None`, stack overflow or
  underflow) or lack of recursion fuel.
* `usize` is `Nat`; the hash function keeps its 64-bit wrap-around.
* The node vector is a structure of functions plus its length `size`; that
  every index used is below `size` is part of the invariant proved in
  `Bdd/Inv.lean`.
* `low = None` is the code's "free node".
* Table sizes come from a randomised prime search (bdd_prime.rs, modelled in
  Verif/Bdd/Prime.lean): here the sizes are arbitrary parameters, `grow` is
  arbitrary.
* `level2var` and `var2level` are the identity (there is no reordering), so a
  level is a variable index.
* Statistics counters (`produced`) are left out, as are the unused caches
  (`itecache`, `appexcache`, `replacecache`).
-/
namespace Verif
namespace Bdd

/-- 64-bit wrap-around of `pair`, bdd_kernel.rs 583-585. -/
def pair (a b : Nat) : Nat :=
  let m := 2 ^ 64
  (((a + b) % m * ((a + b + 1) % m)) % m / 2 + a) % m

/-- bdd_kernel.rs 587-589. -/
def triple (a b c : Nat) : Nat := pair c (pair a b)

/-- bdd_kernel.rs 35-74 (`Operand`). -/
inductive Opr | and | or | imp | equiv
deriving DecidableEq, Repr

/-- Opcodes, bdd_kernel.rs 16-22. -/
def Opr.code : Opr → Nat
  | .and => 0 | .or => 2 | .imp => 5 | .equiv => 6

/-- Opcode of negation, bdd_kernel.rs 22. -/
def opNot : Nat := 10

/-- Truth tables, bdd_kernel.rs 58-74, indexed `l << 1 | r`. -/
def Opr.table : Opr → List Nat
  | .and => [0, 0, 0, 1] | .or => [0, 1, 1, 1] | .imp => [1, 1, 0, 1] | .equiv => [1, 0, 0, 1]

/-- bdd_cache.rs 6-12. -/
structure Entry where
  a : Option Nat
  b : Nat
  c : Nat
  bdres : Nat
  res : Nat
deriving DecidableEq, Repr

/-- bdd_cache.rs 24-26; `size` slots. -/
structure Cache where
  size : Nat
  tab : Nat → Entry

/-- Function update. -/
def upd {α : Type} (f : Nat → α) (i : Nat) (x : α) : Nat → α := fun j => if j = i then x else f j

namespace Cache
/-- bdd_cache.rs 29-34. -/
def new (size : Nat) : Cache := ⟨size, fun _ => ⟨none, 0, 0, 0, 0⟩⟩
/-- bdd_cache.rs 36-40 and 15-20 (`bdres` is not cleared). -/
def reset (c : Cache) : Cache := { c with tab := fun i => { c.tab i with a := none, b := 0, c := 0, res := 0 } }
/-- bdd_cache.rs 42-53. -/
def get (c : Cache) (h : Nat) : Entry := c.tab (h % c.size)
/-- bdd_cache.rs 55-62. -/
def setRes (c : Cache) (h a b cc res : Nat) : Cache := { c with tab := upd c.tab (h % c.size) { c.tab (h % c.size) with a := some a, b := b, c := cc, res := res } }
/-- bdd_cache.rs 64-71. -/
def setBd (c : Cache) (h a b cc bd : Nat) : Cache := { c with tab := upd c.tab (h % c.size) { c.tab (h % c.size) with a := some a, b := b, c := cc, bdres := bd } }
end Cache

/-- `MAXREF`, bdd_kernel.rs 14. -/
def maxRef : Nat := 0x3FF

/-- bdd_kernel.rs 79-107.  `stack` is `refstack[0..refstacktop)`, newest
first; `cap` its length.  `idx` holds the registered variables' keys in order
(`var2idx`/`idx2var`). -/
structure Kernel (V : Type) where
  size : Nat
  ref : Nat → Nat
  level : Nat → Nat
  low : Nat → Option Nat
  high : Nat → Nat
  hash : Nat → Nat
  next : Nat → Nat
  free : Nat
  freenum : Nat
  varnum : Nat
  gbcs : Nat
  applyc : Cache
  quantc : Cache
  miscc : Cache
  qid : Nat
  qset : Nat → Int
  qlast : Nat
  vars : Nat → Nat
  stack : List Nat
  cap : Nat
  grow : Nat → Nat → Nat
  idx : List V

variable {V : Type}

namespace Kernel

/-- bdd_kernel.rs 462-464. -/
def nodehash (k : Kernel V) (lvl l h : Nat) : Nat := triple lvl l h % k.size

/-- bdd_kernel.rs 401-405; writing beyond the vector panics. -/
def push (n : Nat) (k : Kernel V) : Option (Kernel V) := if k.stack.length < k.cap then some { k with stack := n :: k.stack } else none

/-- bdd_kernel.rs 407-409. -/
def pop (n : Nat) (k : Kernel V) : Option (Kernel V) := if n ≤ k.stack.length then some { k with stack := k.stack.drop n } else none

/-- bdd_kernel.rs 411-413 (`n ≥ 1`). -/
def read (n : Nat) (k : Kernel V) : Option Nat := k.stack[n - 1]?

/-- bdd_kernel.rs 556-558. -/
def initRef (k : Kernel V) : Kernel V := { k with stack := [] }

/-- bdd_kernel.rs 238-248.  The mark bit of `level` is a separate set here
(levels are at most `MAXVAR`, so the bit is otherwise unused). -/
def mark (k : Kernel V) : Nat → (Nat → Bool) → Nat → Option (Nat → Bool)
  | 0, _, _ => none
  | f + 1, m, i =>
    if i < 2 then some m
    else if m i then some m
    else match k.low i with
      | none => some m
      | some l => do
        let m ← k.mark f (upd m i true) l
        k.mark f m (k.high i)

def markAll (k : Kernel V) (m : Nat → Bool) : List Nat → Option (Nat → Bool)
  | [] => some m
  | i :: is => do
    let m ← k.mark (k.size + 1) m i
    k.markAll m is

/-- The loop body of 480-490 and 544-552: chain a live node into its bucket,
put a dead node on the free list. -/
def relinkStep (live : Nat → Bool) (n : Nat) (k : Kernel V) : Kernel V :=
  match live n, k.low n with
  | true, some l =>
    let h := k.nodehash (k.level n) l (k.high n)
    { k with next := upd k.next n (k.hash h), hash := upd k.hash h n }
  | _, _ => { k with low := upd k.low n none, next := upd k.next n k.free, free := n, freenum := k.freenum + 1 }

/-- The loop `for n in (2..nodesize).rev()`, started with `nodesize - 1`. -/
def relink (live : Nat → Bool) : Nat → Kernel V → Kernel V
  | 0, k => k
  | n + 1, k => if n + 1 < 2 then k else relink live n (relinkStep live (n + 1) k)

/-- bdd_kernel.rs 496-503. -/
def resetCaches (k : Kernel V) : Kernel V := { k with applyc := k.applyc.reset, quantc := k.quantc.reset, miscc := k.miscc.reset }

/-- bdd_kernel.rs 466-494.  (Old to new refstack order; `stack` is newest
first.) -/
def gbc (k : Kernel V) : Option (Kernel V) := do
  let m ← k.markAll (fun _ => false) k.stack.reverse
  let m ← k.markAll m ((List.range k.size).filter fun n => 0 < k.ref n)
  let k := { k with hash := fun _ => 0, free := 0, freenum := 0 }
  let k := relink m (k.size - 1) k
  return { k.resetCaches with gbcs := k.gbcs + 1 }

/-- bdd_kernel.rs 517-554 with `do_rehash = true` (its only use).  The new
size is `grow`, which stands for `prime_lte(min(2 * old, old + 50000))`; a
smaller size would underflow. -/
def resize (k : Kernel V) : Option (Kernel V) :=
  let n := k.grow k.gbcs k.size
  if n < k.size then none
  else
    let old := k.size
    let k := { k with size := n, ref := fun i => if old ≤ i then 0 else k.ref i, level := fun i => if old ≤ i then 0 else k.level i, low := fun i => if old ≤ i then none else k.low i, high := fun i => if old ≤ i then 0 else k.high i, hash := fun _ => 0, free := 0, freenum := 0 }
    some (relink (fun i => (k.low i).isSome) (n - 1) k)

/-- The search loop 436-441; fuel `size`. -/
def find (k : Kernel V) (lvl lo hi : Nat) : Nat → Nat → Option (Option Nat)
  | fuel, res =>
    if res = 0 then some none
    else match fuel with
      | 0 => none
      | fuel + 1 => if k.level res = lvl ∧ k.low res = some lo ∧ k.high res = hi then some (some res) else k.find lvl lo hi fuel (k.next res)

/-- Lines 450-459: take the first free node. -/
def alloc (lvl lo hi : Nat) (k : Kernel V) : Option (Nat × Kernel V) :=
  if k.free = 0 then none
  else
    let res := k.free
    let h := k.nodehash lvl lo hi
    some (res, { k with free := k.next res, freenum := k.freenum - 1, level := upd k.level res lvl, low := upd k.low res (some lo), high := upd k.high res hi, next := upd k.next res (k.hash h), hash := upd k.hash h res })

/-- bdd_kernel.rs 430-460. -/
def makeNode (lvl lo hi : Nat) (k : Kernel V) : Option (Nat × Kernel V) :=
  if lo = hi then some (lo, k)
  else do
    match ← k.find lvl lo hi k.size (k.hash (k.nodehash lvl lo hi)) with
    | some res => return (res, k)
    | none =>
      if k.free = 0 then
        let k ← k.gbc
        let k ← if k.freenum * 100 / k.size ≤ 20 then k.resize else some k
        k.alloc lvl lo hi
      else k.alloc lvl lo hi

/-- The common shape of `apply_rec`, `not_rec`, `restrict_rec`, `quant_rec`:
two recursive calls whose results go to the reference stack, then a final
combination of `read_ref(2)` and `read_ref(1)`, then `pop_ref(2)`. -/
def two (c1 c2 : Kernel V → Option (Nat × Kernel V)) (fin : Nat → Nat → Kernel V → Option (Nat × Kernel V)) (k : Kernel V) : Option (Nat × Kernel V) := do
  let (r1, k) ← c1 k
  let k ← k.push r1
  let (r2, k) ← c2 k
  let k ← k.push r2
  let a ← k.read 2
  let b ← k.read 1
  let (x, k) ← fin a b k
  let k ← k.pop 2
  return (x, k)

/-- The shortcuts of `apply_rec`, bdd_kernel.rs 274-315. -/
def short : Opr → Nat → Nat → Option Nat
  | .and, l, r => if l = r then some l else if l = 0 ∨ r = 0 then some 0 else if l = 1 then some r else if r = 1 then some l else none
  | .or, l, r => if l = r then some l else if l = 1 ∨ r = 1 then some 1 else if l = 0 then some r else if r = 0 then some l else none
  | .imp, l, r => if l = 0 then some 1 else if l = 1 then some r else if r = 1 then some 1 else none
  | .equiv, _, _ => none

/-- The case split 325-347: the node whose level is used, and the operands of
the two recursive calls. -/
def cofactors (k : Kernel V) (l r : Nat) : Option (Nat × (Nat × Nat) × (Nat × Nat)) :=
  if k.level l = k.level r then do
    let a ← k.low l
    let b ← k.low r
    return (l, (a, b), (k.high l, k.high r))
  else if k.level l < k.level r then do
    let a ← k.low l
    return (l, (a, r), (k.high l, r))
  else do
    let b ← k.low r
    return (r, (l, b), (l, k.high r))

/-- bdd_kernel.rs 273-351. -/
def applyRec (op : Opr) : Nat → Nat → Nat → Kernel V → Option (Nat × Kernel V)
  | 0, _, _, _ => none
  | f + 1, l, r, k =>
    match short op l r with
    | some x => some (x, k)
    | none =>
      if l < 2 ∧ r < 2 then (op.table[l * 2 + r]?).map fun x => (x, k)
      else
        let h := triple l r op.code
        let e := k.applyc.get h
        if e.a = some l ∧ e.b = r ∧ e.c = op.code then some (e.res, k)
        else do
          let (n, (a1, b1), (a2, b2)) ← k.cofactors l r
          let (x, k) ← two (fun k => applyRec op f a1 b1 k) (fun k => applyRec op f a2 b2 k) (fun a b k => k.makeNode (k.level n) a b) k
          return (x, { k with applyc := k.applyc.setRes h l r op.code x })

/-- bdd_kernel.rs 198-201; recursion depth at most twice the variable count. -/
def apply (op : Opr) (l r : Nat) (k : Kernel V) : Option (Nat × Kernel V) := applyRec op (2 * k.varnum + 1) l r k.initRef

/-- bdd_construction.rs 91-110. -/
def notRec : Nat → Nat → Kernel V → Option (Nat × Kernel V)
  | 0, _, _ => none
  | f + 1, r, k =>
    if r = 0 then some (1, k)
    else if r = 1 then some (0, k)
    else
      let e := k.applyc.get r
      if e.a = some r ∧ e.c = opNot then some (e.res, k)
      else do
        let lo ← k.low r
        let (x, k) ← two (fun k => notRec f lo k) (fun k => notRec f (k.high r) k) (fun a b k => k.makeNode (k.level r) a b) k
        return (x, { k with applyc := k.applyc.setRes r r 0 opNot x })

/-- bdd_construction.rs 60-62. -/
def not (r : Nat) (k : Kernel V) : Option (Nat × Kernel V) := notRec (k.varnum + 1) r k

/-- bdd_kernel.rs 561-563 (ids unbounded here). -/
def insvarset (k : Kernel V) (l : Nat) : Prop := (k.qset l).natAbs = k.qid
instance (k : Kernel V) (l : Nat) : Decidable (k.insvarset l) := by unfold insvarset; infer_instance

/-- bdd_kernel.rs 566-568. -/
def invarset (k : Kernel V) (l : Nat) : Prop := k.qset l = (k.qid : Int)
instance (k : Kernel V) (l : Nat) : Decidable (k.invarset l) := by unfold invarset; infer_instance

/-- bdd_construction.rs 112-138. -/
def restrictRec (miscid : Nat) : Nat → Nat → Kernel V → Option (Nat × Kernel V)
  | 0, _, _ => none
  | f + 1, r, k =>
    if r < 2 ∨ k.level r > k.qlast then some (r, k)
    else
      let h := pair r miscid
      let e := k.miscc.get h
      if e.a = some r ∧ e.c = miscid then some (e.res, k)
      else do
        let lo ← k.low r
        let (x, k) ←
          if k.insvarset (k.level r) then
            if k.qset (k.level r) > 0 then restrictRec miscid f (k.high r) k else restrictRec miscid f lo k
          else two (fun k => restrictRec miscid f lo k) (fun k => restrictRec miscid f (k.high r) k) (fun a b k => k.makeNode (k.level r) a b) k
        return (x, { k with miscc := k.miscc.setRes h r 0 miscid x })

/-- bdd_construction.rs 140-161. -/
def quantRec (op : Opr) (quantid : Nat) : Nat → Nat → Kernel V → Option (Nat × Kernel V)
  | 0, _, _ => none
  | f + 1, r, k =>
    if r < 2 ∨ k.level r > k.qlast then some (r, k)
    else
      let e := k.quantc.get r
      if e.a = some r ∧ e.c = quantid then some (e.res, k)
      else do
        let lo ← k.low r
        let (x, k) ← two (fun k => quantRec op quantid f lo k) (fun k => quantRec op quantid f (k.high r) k)
          (fun a b k => if k.invarset (k.level r) then applyRec op (2 * k.varnum + 1) a b k else k.makeNode (k.level r) a b) k
        return (x, { k with quantc := k.quantc.setRes r r 0 quantid x })

/-- The walk of bdd_construction.rs 171-183. -/
def svarWalk : Nat → Nat → Kernel V → Option (Kernel V)
  | 0, _, _ => none
  | f + 1, n, k =>
    if n < 2 then some k
    else do
      let lo ← k.low n
      if lo = 0 then
        let m := k.high n
        svarWalk f m { k with qset := upd k.qset (k.level n) k.qid, qlast := k.level m }
      else svarWalk f lo { k with qset := upd k.qset (k.level n) (-(k.qid : Int)), qlast := k.level lo }

/-- bdd_construction.rs 164-184.  The wrap-around of the id at
`u32::MAX / 2` is left out: ids are unbounded. -/
def varset2svartable (r : Nat) (k : Kernel V) : Option (Kernel V) :=
  if r < 2 then none else svarWalk (k.varnum + 1) r { k with qid := k.qid + 1 }

/-- The walk of bdd_construction.rs 194-200. -/
def varWalk : Nat → Nat → Kernel V → Option (Kernel V)
  | 0, _, _ => none
  | f + 1, n, k =>
    if n < 2 then some k
    else varWalk f (k.high n) { k with qset := upd k.qset (k.level n) k.qid, qlast := k.level n }

/-- bdd_construction.rs 187-201 (no wrap-around of the id at `u32::MAX`). -/
def varset2vartable (r : Nat) (k : Kernel V) : Option (Kernel V) :=
  if r < 2 then none else varWalk (k.varnum + 1) r { k with qid := k.qid + 1 }

/-- bdd_construction.rs 65-71. -/
def restrict (r var : Nat) (k : Kernel V) : Option (Nat × Kernel V) :=
  if var < 2 then some (r, k)
  else do
    let k ← k.varset2svartable var
    restrictRec (var * 8 + 1) (k.varnum + 1) r k

/-- bdd_construction.rs 74-80. -/
def exist (r var : Nat) (k : Kernel V) : Option (Nat × Kernel V) :=
  if var < 2 then some (r, k)
  else do
    let k ← k.varset2vartable var
    quantRec .or (var * 8) (k.varnum + 1) r k

/-- bdd_construction.rs 83-89. -/
def forAll (r var : Nat) (k : Kernel V) : Option (Nat × Kernel V) :=
  if var < 2 then some (r, k)
  else do
    let k ← k.varset2vartable var
    quantRec .and (var * 8 + 1) (k.varnum + 1) r k

/-- bdd_kernel.rs 415-424. -/
def incRef (n : Nat) (k : Kernel V) : Kernel V := if k.ref n < maxRef then { k with ref := upd k.ref n (k.ref n + 1) } else k
def decRef (n : Nat) (k : Kernel V) : Kernel V := if k.ref n ≠ maxRef ∧ k.ref n > 0 then { k with ref := upd k.ref n (k.ref n - 1) } else k

/-- bdd_kernel.rs 203-214 without the handler. -/
def addRef (n : Nat) (k : Kernel V) : Option (Kernel V) :=
  if n < 2 then some k else if n < k.size ∧ (k.low n).isSome then some (k.incRef n) else none

/-- bdd_kernel.rs 216-224. -/
def delRef (n : Nat) (k : Kernel V) : Option (Kernel V) :=
  if n < 2 then some k else if n < k.size ∧ (k.low n).isSome ∧ k.ref n > 0 then some (k.decRef n) else none

/-- The body of the loop 156-166, for variable `v`. -/
def addVar (k : Kernel V) (v : Nat) : Option (Kernel V) := do
  let (p, k) ← k.makeNode v 0 1
  let k ← k.push p
  let (n, k) ← k.makeNode v 1 0
  let k ← k.pop 1
  return { k with vars := upd (upd k.vars (2 * v) p) (2 * v + 1) n, ref := upd (upd k.ref p maxRef) n maxRef, varnum := v + 1 }

/-- Lines 113-154; `size` and the cache size are what the prime search
returned. -/
def blank (numVars size csize : Nat) (grow : Nat → Nat → Nat) : Kernel V where
  size := size
  ref := fun n => if n < 2 then maxRef else 0
  level := fun _ => 0
  low := fun n => if n < 2 then some n else none
  high := fun n => if n < 2 then n else 0
  hash := fun _ => 0
  next := fun n => if n + 1 = size then 0 else n + 1
  free := 2
  freenum := size - 2
  varnum := 0
  gbcs := 0
  applyc := .new csize
  quantc := .new csize
  miscc := .new csize
  qid := 0
  qset := fun _ => 0
  qlast := 0
  vars := fun _ => 0
  stack := []
  cap := 2 * numVars + 4
  grow := grow
  idx := []

/-- bdd_kernel.rs 111-172 (`MAXVAR` check left to the caller). -/
def new (numVars size csize : Nat) (grow : Nat → Nat → Nat) : Option (Kernel V) := do
  let k ← (List.range numVars).foldlM addVar (blank numVars size csize grow)
  return { k with level := upd (upd k.level 0 numVars) 1 numVars }

/-- bdd_kernel.rs 183-192. -/
def varIndex [DecidableEq V] (x : V) (k : Kernel V) : Option (Nat × Kernel V) :=
  if x ∈ k.idx then some (k.idx.idxOf x, k)
  else if k.idx.length < k.varnum then some (k.idx.length, { k with idx := k.idx ++ [x] })
  else none

/-- bdd_construction.rs 9-19. -/
def ithVar (i : Nat) (k : Kernel V) : Option Nat := if i < k.varnum then some (k.vars (2 * i)) else none
def nithVar (i : Nat) (k : Kernel V) : Option Nat := if i < k.varnum then some (k.vars (2 * i + 1)) else none

end Kernel
end Bdd
end Verif
