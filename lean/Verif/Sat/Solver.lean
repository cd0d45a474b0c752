import Verif.Sat.Core
import Verif.DS.Heap
import Verif.DS.Luby
/-
Model of the CDCL solver, src/solver/sat/minisat2.rs.

Floating-point numbers are any linearly ordered type with operations about which nothing is assumed (no NaN);
they only steer the search.  `none` as a result is a panic (index out of range, `unwrap` on `None`, failed
`assert!`) or, for the inner loops, not enough fuel; later all of these are proved impossible.
-/
namespace Verif.Sat

/-- The operations on `f64` used by the solver. -/
class Flt (F : Type) where
  ofInt : Int → F
  add : F → F → F
  mul : F → F → F
  div : F → F → F
  pow : F → Nat → F
  toNat : F → Nat
  toInt : F → Int
  e20 : F
  em20 : F
  e100 : F
  em100 : F

/-- `ClauseMinimization`, minisat2_datastructures.rs. -/
inductive ClauseMin
  | none | basic | deep
deriving DecidableEq

/-- The part of `MiniSatConfig` (minisat_config.rs) that the core solver reads; `var_inc`, which the solver changes, is in `St`. -/
structure Cfg (F : Type) where
  incremental : Bool
  clauseMin : ClauseMin
  removeSatisfied : Bool
  proofGen : Bool
  varInc : F
  varDecay : F
  clauseDecay : F
  restartFirst : Nat
  restartInc : F
  learntsizeFactor : F
  learntsizeInc : F
  bbInitialRotatable : Bool
  bbComplement : Bool
  bbRotatable : Bool

/-- `MiniSat2Solver`, minisat2.rs:57-108: the core and the heuristic state.  `cact` are the clause activities,
`bb` is `computing_backbone`; `pgOrig` and `pgProof` are oldest first.  Left out: the name maps (see the wrapper),
`dnnf_assignment`, the constants `learntsize_adjust_start_confl` and `learntsize_adjust_inc`. -/
structure St (F : Type) extends Core where
  seen : Nat → Bool
  heap : Heap
  act : Nat → F
  cact : Nat → F
  polarity : Nat → Bool
  decision : Nat → Bool
  varInc : F
  claInc : F
  model : List Bool
  conflict : List Nat
  assumptions : List Nat
  bt : Nat
  simpAssigns : Int
  simpProps : Int
  clauseLits : Nat
  learntLits : Nat
  pgOrig : List (List Int)
  pgProof : List (List Int)
  sel : List Nat
  selIdx : Nat
  adjConfl : F
  adjCnt : Int
  maxLearnts : F
  bb : Bool

namespace St
variable {F : Type} [LinearOrder F] [Flt F]
open Flt

/-- `new_with_config`, minisat2.rs:124-164. -/
def new (C : Cfg F) : St F where
  ok := true
  nvars := 0
  data := fun _ => []
  learnt := fun _ => false
  next := 0
  clauses := []
  learnts := []
  units := []
  watches := fun _ => []
  asg := fun _ => none
  level := fun _ => none
  reason := fun _ => none
  trail := []
  lim := []
  qhead := 0
  seen := fun _ => false
  heap := .new
  act := fun _ => ofInt 0
  cact := fun _ => ofInt 0
  polarity := fun _ => false
  decision := fun _ => false
  varInc := C.varInc
  claInc := ofInt 1
  model := []
  conflict := []
  assumptions := []
  bt := 0
  simpAssigns := -1
  simpProps := 0
  clauseLits := 0
  learntLits := 0
  pgOrig := []
  pgProof := []
  sel := []
  selIdx := 0
  adjConfl := ofInt 0
  adjCnt := 0
  maxLearnts := ofInt 0
  bb := false

/-- `insert_var_order`, minisat2.rs:219-223. -/
def insertVarOrder (v : Nat) (s : St F) : Option (St F) :=
  if !s.heap.inHeap v && s.decision v then (s.heap.insert s.act v).map fun h => { s with heap := h } else some s

/-- `new_var`, minisat2.rs:226-237; the new variable is `nvars`.  (`seen` may be longer than the variables after
`load_state`; its entries outside conflict analysis are `false` anyway.) -/
def newVar (sign dvar : Bool) (s : St F) : Option (St F) :=
  let v := s.nvars
  insertVarOrder v { s with
    nvars := v + 1
    asg := upd s.asg v none
    level := upd s.level v none
    reason := upd s.reason v none
    polarity := upd s.polarity v sign
    decision := upd s.decision v dvar
    act := upd s.act v (ofInt 0)
    watches := upd (upd s.watches (2 * v) []) (2 * v + 1) [] }

/-- The DIMACS-like number of a literal in proofs, e.g. minisat2.rs:242. -/
def pgLit (l : Nat) : Int := ((vr l : Int) + 1) * (if sgn l then -1 else 1)

/-- Insertion into a sorted list. -/
def ins (x : Nat) : List Nat → List Nat
  | [] => [x]
  | y :: ys => if x ≤ y then x :: y :: ys else y :: ins x ys

/-- `sort_unstable` on literals (the result does not depend on the algorithm). -/
def isort : List Nat → List Nat
  | [] => []
  | x :: xs => ins x (isort xs)

/-- The loop of `add_clause`, minisat2.rs:253-266, on the sorted literals; `p` is the last literal kept.
`none` if the clause is true on level 0 or a tautology. -/
def addFilter (s : Core) : List Nat → Option Nat → Option (List Nat)
  | [], _ => some []
  | e :: ps, p =>
    if s.value e = some true ∨ p = some (neg e) then none
    else if s.value e ≠ some false ∧ p ≠ some e then (addFilter s ps (some e)).map (e :: ·)
    else addFilter s ps p

/-- `propagate` with its statistics, minisat2.rs:340-422. -/
def prop (s : St F) : Option (St F × Option Nat) :=
  match s.toCore.propagate with
  | none => none
  | some (c, confl, n) => some ({ s with toCore := c, simpProps := s.simpProps - n }, confl)

/-- Creating and attaching a clause; the counters of `attach_clause`, minisat2.rs:329-333, included.  The index of
the new clause is the old `next`. -/
def install (d : List Nat) (lrn : Bool) (s : St F) : Option (St F) :=
  match (s.toCore.alloc d lrn).attach s.next with
  | none => none
  | some c => some { s with
      toCore := c
      cact := upd s.cact s.next (ofInt 0)
      clauseLits := if lrn then s.clauseLits else s.clauseLits + d.length
      learntLits := if lrn then s.learntLits + d.length else s.learntLits }

/-- The last part of `add_clause`, minisat2.rs:284-306, for the remaining literals. -/
def addRest (C : Cfg F) (qs : List Nat) (s : St F) : Option (St F × Bool) :=
  match qs with
  | [] => some ({ s with ok := false, pgProof := if C.proofGen then s.pgProof ++ [[0]] else s.pgProof }, false)
  | [l] =>
    match ({ s with toCore := s.toCore.enqueue l none } : St F).prop with
    | none => none
    | some (s, confl) =>
      some ({ s with
        ok := confl.isNone
        units := if C.incremental then s.units ++ [l] else s.units
        pgProof := if confl.isSome && C.proofGen then s.pgProof ++ [[0]] else s.pgProof }, confl.isNone)
  | _ =>
    match s.install qs false with
    | none => none
    | some s' => some ({ s' with clauses := s'.clauses ++ [s.next] }, true)

/-- `add_clause`, minisat2.rs:240-307; the second component is the returned value.  The proposition that comes with a
clause is only stored and left out. -/
def addClause (C : Cfg F) (ps : List Nat) (s : St F) : Option (St F × Bool) :=
  let s := if C.proofGen then { s with pgOrig := s.pgOrig ++ [ps.map pgLit] } else s
  if s.ok = false then some (s, false)
  else
    match addFilter s.toCore (isort ps) none with
    | none => some (s, true)
    | some qs =>
      addRest C qs (if C.proofGen && (isort ps).any (fun l => s.value l != none) then
        { s with pgProof := s.pgProof ++ [1 :: qs.map pgLit, -1 :: (isort ps).map pgLit] } else s)

/-- The loop of `cancel_until`, minisat2.rs:551-562, for the newest `n` literals (the code truncates the trail afterwards). -/
def cancelPop : Nat → St F → Option (St F)
  | 0, s => some s
  | n + 1, s =>
    match s.trail with
    | [] => none
    | l :: t =>
      match insertVarOrder (vr l) { s with
        asg := upd s.asg (vr l) none
        polarity := upd s.polarity (vr l) (!s.bb && sgn l)
        trail := t } with
      | none => none
      | some s => cancelPop n s

/-- `cancel_until`, minisat2.rs:549-567. -/
def cancelUntil (L : Nat) (s : St F) : Option (St F) :=
  if L < s.lim.length then
    (cancelPop (s.trail.length - s.limAt L) s).map fun s' =>
      { s' with qhead := s.limAt L, lim := s.lim.drop (s.lim.length - L) }
  else some s

/-- `var_bump_activity`, minisat2.rs:633-645. -/
def bumpVar (v : Nat) (s : St F) : Option (St F) :=
  let s := { s with act := upd s.act v (add (s.act v) s.varInc) }
  let s := if e100 < s.act v then { s with act := fun i => mul (s.act i) em100, varInc := mul s.varInc em100 } else s
  if s.heap.inHeap v then (s.heap.decrease s.act v).map fun h => { s with heap := h } else some s

/-- Bumping a learnt clause, minisat2.rs:581-592 and `rescale_learnt_activities` 626-631. -/
def bumpClause (C : Cfg F) (id : Nat) (s : St F) : St F :=
  if !C.incremental && s.learnt id then
    let s := { s with cact := upd s.cact id (add (s.cact id) s.claInc) }
    if e20 < s.cact id then
      { s with
        cact := fun i => if i ∈ s.learnts then mul (s.cact i) em20 else s.cact i
        claInc := mul s.claInc em20 }
    else s
  else s

/-- The literal loop of `analyze`, minisat2.rs:596-609: new state, `path_c`, `out_learnt[1..]`. -/
def anaLits : List Nat → St F → Nat → List Nat → Option (St F × Nat × List Nat)
  | [], s, n, out => some (s, n, out)
  | l :: ls, s, n, out =>
    if !s.seen (vr l) && decide (0 < s.lv l) then
      match bumpVar (vr l) s with
      | none => none
      | some s =>
        let s := { s with seen := upd s.seen (vr l) true }
        if s.lim.length ≤ s.lv l then anaLits ls s (n + 1) out else anaLits ls s n (out ++ [l])
    else anaLits ls s n out

/-- The loop of `analyze`, minisat2.rs:579-620, from line 611 on; the first argument is the part of the trail not yet
gone through (`index`).  Returns the literal `p`, the state and `out_learnt[1..]`.  (After `p` has been taken, the code looks at
the same index again; its `seen` flag has just been cleared, and a reason does not contain its literal twice.) -/
def anaLoop (C : Cfg F) : List Nat → St F → Nat → List Nat → Option (Nat × St F × List Nat)
  | [], _, _, _ => none
  | x :: t, s, n, out =>
    if s.seen (vr x) then
      let s := { s with seen := upd s.seen (vr x) false }
      if n ≤ 1 then some (x, s, out)
      else
        match s.reason (vr x) with
        | none => none
        | some id =>
          match anaLits (s.data id).tail (bumpClause C id s) (n - 1) out with
          | none => none
          | some (s, n, out) => anaLoop C t s n out
    else anaLoop C t s n out

/-- `abstract_level`, minisat2.rs:1024-1026. -/
def absLevel (s : Core) (l : Nat) : Nat := 1 <<< (s.lv l &&& 31)

/-- The literal loop of `lit_redundant`, minisat2.rs:780-796: `none` when a literal is not redundant; otherwise the new
`seen`, `analyze_stack` (top first) and the literals added to `analyze_to_clear` (newest first). -/
def redLits (s : Core) (mask : Nat) : List Nat → (Nat → Bool) → List Nat → List Nat → Option ((Nat → Bool) × List Nat × List Nat)
  | [], seen, stack, added => some (seen, stack, added)
  | l :: ls, seen, stack, added =>
    if !seen (vr l) && decide (0 < s.lv l) then
      if (s.reason (vr l)).isSome && (absLevel s l &&& mask != 0) then redLits s mask ls (upd seen (vr l) true) (l :: stack) (l :: added)
      else none
    else redLits s mask ls seen stack added

/-- The loop of `lit_redundant`, minisat2.rs:777-799.  The outer option is a panic or out of fuel; the inner one is `none`
when the result is `false` (then the caller keeps the old `seen`: the code resets exactly the flags it has set). -/
def redLoop (s : Core) (mask : Nat) : Nat → (Nat → Bool) → List Nat → List Nat → Option (Option ((Nat → Bool) × List Nat))
  | 0, _, _, _ => none
  | fuel + 1, seen, stack, added =>
    match stack with
    | [] => some (some (seen, added))
    | x :: stack =>
      match s.reason (vr x) with
      | none => none
      | some id =>
        match redLits s mask (s.data id).tail seen stack added with
        | none => some none
        | some (seen, stack, added) => redLoop s mask fuel seen stack added

/-- The loop of `simplify_clause` for `Deep`, minisat2.rs:721-727: the literals kept, the new `seen`, and the literals added to
`analyze_to_clear`. -/
def minDeep (s : Core) (mask : Nat) : List Nat → (Nat → Bool) → List Nat → Option (List Nat × (Nat → Bool) × List Nat)
  | [], seen, clear => some ([], seen, clear)
  | l :: ls, seen, clear =>
    if (s.reason (vr l)).isNone then (minDeep s mask ls seen clear).map fun x => (l :: x.1, x.2)
    else
      match redLoop s mask (s.nvars + 2) seen [l] [] with
      | none => none
      | some none => (minDeep s mask ls seen clear).map fun x => (l :: x.1, x.2)
      | some (some (seen, added)) => minDeep s mask ls seen (added ++ clear)

/-- The loop of `simplify_clause` for `Basic`, minisat2.rs:731-748. -/
def minBasic (s : Core) (seen : Nat → Bool) (ls : List Nat) : List Nat :=
  ls.filter fun l =>
    match s.reason (vr l) with
    | none => true
    | some id => (s.data id).tail.any fun k => !seen (vr k) && decide (0 < s.lv k)

/-- The index of the first literal with the largest level, minisat2.rs:757-762 (`i` is the next index, `m` the best so far). -/
def maxIdx (s : Core) : List Nat → Nat → Nat → Nat → Nat
  | [], _, m, _ => m
  | l :: ls, i, m, best => if best < s.lv l then maxIdx s ls (i + 1) i (s.lv l) else maxIdx s ls (i + 1) m best

/-- Exchange of the literal with the largest level to the front, minisat2.rs:763-764, on `out_learnt[1..]`. -/
def maxFront (s : Core) : List Nat → List Nat
  | [] => []
  | a :: r =>
    match maxIdx s r 1 0 (s.lv a) with
    | 0 => a :: r
    | k + 1 => r.getD k 0 :: r.set k a

/-- The choice of the minimization in `simplify_clause`, minisat2.rs:711-752: the literals kept, the marks, the literals marked on the way. -/
def minimize (m : ClauseMin) (c : Core) (seen : Nat → Bool) (out : List Nat) : Option (List Nat × (Nat → Bool) × List Nat) :=
  match m with
  | .deep => minDeep c (out.foldl (fun m l => m ||| absLevel c l) 0) out seen []
  | .basic => some (minBasic c seen out, seen, [])
  | .none => some ([], seen, [])

/-- `simplify_clause`, minisat2.rs:711-770, for `p` negated and `out_learnt[1..]`. -/
def simplifyClause (C : Cfg F) (p : Nat) (out : List Nat) (s : St F) : Option (St F × List Nat) :=
  match minimize C.clauseMin s.toCore s.seen out with
  | none => none
  | some (kept, seen, added) =>
    let ls := maxFront s.toCore kept
    let clear := added ++ p :: out
    some ({ s with
      seen := fun v => if v ∈ clear.map vr then false else seen v
      bt := (ls.head?.map s.lv).getD 0 }, p :: ls)

/-- `analyze`, minisat2.rs:569-624. -/
def analyze (C : Cfg F) (id : Nat) (s : St F) : Option (St F × List Nat) :=
  match anaLits (s.data id) (bumpClause C id s) 0 [] with
  | none => none
  | some (s, n, out) =>
    match anaLoop C s.trail s n out with
    | none => none
    | some (x, s, out) => simplifyClause C (neg x) out s

/-- `decay_activities`, minisat2.rs:647-658, 1028-1033. -/
def decay (C : Cfg F) (s : St F) : St F :=
  let s := { s with
    varInc := mul s.varInc (div (ofInt 1) C.varDecay)
    claInc := if C.incremental then s.claInc else mul s.claInc (div (ofInt 1) C.clauseDecay)
    adjCnt := s.adjCnt - 1 }
  if s.adjCnt = 0 then
    let a := mul s.adjConfl (div (ofInt 3) (ofInt 2))
    { s with adjConfl := a, adjCnt := toInt a, maxLearnts := mul s.maxLearnts C.learntsizeInc }
  else s

/-- The loop of `analyze_final`, minisat2.rs:668-686, over the given trail literals (newest first). -/
def finalLoop (s : Core) : List Nat → (Nat → Bool) → List Nat → (Nat → Bool) × List Nat
  | [], seen, cf => (seen, cf)
  | x :: t, seen, cf =>
    if seen (vr x) then
      match s.reason (vr x) with
      | none => finalLoop s t (upd seen (vr x) false) (cf ++ [neg x])
      | some id =>
        finalLoop s t (upd ((s.data id).tail.foldl (fun f k => if 0 < s.lv k then upd f (vr k) true else f) seen) (vr x) false) cf
    else finalLoop s t seen cf

/-- `analyze_final`, minisat2.rs:660-688. -/
def analyzeFinal (p : Nat) (s : St F) : St F :=
  if s.lim.length = 0 then { s with conflict := [p] }
  else
    let x := finalLoop s.toCore (s.trail.take (s.trail.length - s.limAt 0)) (upd s.seen (vr p) true) [p]
    { s with seen := upd x.1 (vr p) false, conflict := x.2 }

/-- The selection-order part of `pick_branch_lit`, minisat2.rs:691-699: the remaining literals from `selection_order_idx` on. -/
def pickSel (s : Core) : List Nat → Nat → Option Nat × Nat
  | [], i => (none, i)
  | l :: ls, i => if s.asg (vr l) = none then (some l, i + 1) else pickSel s ls (i + 1)

/-- The heap part of `pick_branch_lit`, minisat2.rs:700-708; the inner option is the variable found. -/
def pickHeap : Nat → St F → Option (St F × Option Nat)
  | 0, _ => none
  | fuel + 1, s =>
    if s.heap.heap.isEmpty then some (s, none)
    else
      match s.heap.removeMin s.act with
      | none => none
      | some (v, h) =>
        let s := { s with heap := h }
        if s.asg v = none ∧ s.decision v = true then some (s, some v) else pickHeap fuel s

/-- `pick_branch_lit`, minisat2.rs:690-709. -/
def pickBranch (s : St F) : Option (St F × Option Nat) :=
  let x := pickSel s.toCore (s.sel.drop s.selIdx) s.selIdx
  let s := { s with selIdx := x.2 }
  match x.1 with
  | some l => some (s, some l)
  | none =>
    match pickHeap (s.heap.heap.length + 1) s with
    | none => none
    | some (s, none) => some (s, none)
    | some (s, some v) => some (s, some (mkLit v (s.polarity v)))

/-- `==` on clauses, derived for `MsClause` (ms_clause.rs:5-17); the fields not modelled are the same for all clauses. -/
def sameClause (s : St F) (a b : Nat) : Bool :=
  decide (s.data a = s.data b) && (s.learnt a == s.learnt b) && decide (s.cact a = s.cact b)

/-- `locked`, minisat2.rs:1019-1022 (the reason is compared by content). -/
def locked (s : St F) (id : Nat) : Bool :=
  match s.data id with
  | [] => false
  | c0 :: _ =>
    decide (s.value c0 = some true) &&
      (match s.reason (vr c0) with
       | none => false
       | some r => sameClause s r id)

/-- `remove_elem` with `watch_equality`, vector_functions.rs:11-19, minisat2.rs:46-48. -/
def dropWatch (s : St F) (id : Nat) : List (Nat × Nat) → List (Nat × Nat)
  | [] => []
  | w :: ws => if sameClause s w.1 id then ws else w :: dropWatch s id ws

/-- `detach_clause`, minisat2.rs:933-946. -/
def detach (lrn : Bool) (id : Nat) (s : St F) : Option (St F) :=
  match s.data id with
  | c0 :: c1 :: r =>
    let w1 := upd s.watches (neg c0) (dropWatch s id (s.watches (neg c0)))
    let w2 := upd w1 (neg c1) (dropWatch s id (w1 (neg c1)))
    some { s with
      watches := w2
      clauseLits := if lrn then s.clauseLits else s.clauseLits - (r.length + 2)
      learntLits := if lrn then s.learntLits - (r.length + 2) else s.learntLits }
  | _ => none

/-- `remove_clause`, minisat2.rs:914-931. -/
def removeClause (C : Cfg F) (lrn : Bool) (id : Nat) (s : St F) : Option (St F) :=
  let s := if C.proofGen then { s with pgProof := s.pgProof ++ [-1 :: (s.data id).map pgLit] } else s
  let s := if locked s id then { s with reason := upd s.reason (vr ((s.data id).headD 0)) none } else s
  detach lrn id s

/-- Shrinking a clause, minisat2.rs:886-894, on the literals from index 2 on; `k` is relative. -/
def strip (s : Core) : Nat → Nat → List Nat → List Nat
  | 0, _, r => r
  | fuel + 1, k, r =>
    if k < r.length then
      if s.value (r.getD k 0) = some false then strip s fuel k ((r.set k (r.getD (r.length - 1) 0)).dropLast)
      else strip s fuel (k + 1) r
    else r

/-- Shrinking a clause, minisat2.rs:883-896. -/
def shrink (s : Core) : List Nat → List Nat
  | c0 :: c1 :: r => c0 :: c1 :: strip s r.length 0 r
  | d => d

/-- The loop of `remove_satisfied_gen`, minisat2.rs:870-902; the list of kept clauses is the second component (the code
compacts the vector with two indices). -/
def remSatLoop (C : Cfg F) (lrn : Bool) : List Nat → St F → Option (St F × List Nat)
  | [], s => some (s, [])
  | id :: ids, s =>
    if (s.data id).any fun l => decide (s.value l = some true) then
      match removeClause C lrn id s with
      | none => none
      | some s => remSatLoop C lrn ids s
    else
      let d := if C.proofGen then s.data id else shrink s.toCore (s.data id)
      (remSatLoop C lrn ids { s with data := upd s.data id d }).map fun x => (x.1, id :: x.2)

/-- `remove_satisfied`, minisat2.rs:855-860. -/
def remSat (C : Cfg F) (s : St F) : Option (St F) :=
  match remSatLoop C true s.learnts s with
  | none => none
  | some (s, ls) =>
    let s := { s with learnts := ls }
    if C.removeSatisfied then (remSatLoop C false s.clauses s).map fun x => { x.1 with clauses := x.2 } else some s

/-- `simplify` after propagation, minisat2.rs:806-815, with `rebuild_order_heap` 817-826. -/
def simplifyDb (C : Cfg F) (s : St F) : Option (St F × Bool) :=
  if (s.trail.length : Int) = s.simpAssigns ∨ 0 < s.simpProps then some (s, true)
  else
    match remSat C s with
    | none => none
    | some s =>
      match s.heap.build s.act ((List.range s.nvars).filter fun v => s.decision v && (s.asg v).isNone) with
      | none => none
      | some h => some ({ s with
          heap := h
          simpAssigns := s.trail.length
          simpProps := (s.clauseLits + s.learntLits : Nat) }, true)

/-- `simplify`, minisat2.rs:801-815. -/
def simplify (C : Cfg F) (s : St F) : Option (St F × Bool) :=
  if s.ok = false then some (s, false)
  else
    match s.prop with
    | none => none
    | some (s, some _) => some ({ s with ok := false }, false)
    | some (s, none) => simplifyDb C s

/-- `compare_learnt_clauses_2(x, y) == Less`, minisat2.rs:1015-1017. -/
def learntLess (s : St F) (x y : Nat) : Bool :=
  decide ((s.data x).length > 2) && (decide ((s.data y).length = 2) || decide (s.cact x < s.cact y))

/-- `swap(i, j)` on a vector; `none` is an index panic. -/
def swapAt (l : List Nat) (i j : Nat) : Option (List Nat) :=
  match l[i]?, l[j]? with
  | some a, some b => some ((l.set i b).set j a)
  | _, _ => none

/-- The inner loop of `selection_sort`, minisat2.rs:1000-1004: `n` iterations from `j` on. -/
def selBest (lt : Nat → Nat → Bool) (l : List Nat) : Nat → Nat → Nat → Nat
  | 0, _, best => best
  | n + 1, j, best => selBest lt l n (j + 1) (if lt (l.getD j 0) (l.getD best 0) then j else best)

/-- `selection_sort`, minisat2.rs:996-1009: `n` iterations of the outer loop from `i` on. -/
def selSort (lt : Nat → Nat → Bool) (fin : Nat) : Nat → Nat → List Nat → Option (List Nat)
  | 0, _, l => some l
  | n + 1, i, l =>
    match swapAt l i (selBest lt l (fin - (i + 1)) (i + 1) i) with
    | none => none
    | some l => selSort lt fin n (i + 1) l

/-- `while learnts[i] < pivot { i += 1 }`, minisat2.rs:967-975. -/
def scanUp (less : Nat → Bool) (l : List Nat) : Nat → Nat → Option Nat
  | 0, _ => none
  | fuel + 1, i =>
    match l[i]? with
    | none => none
    | some x => if less x then scanUp less l fuel (i + 1) else some i

/-- `while pivot < learnts[j] { j -= 1 }`, minisat2.rs:977-985; the argument is one more than the index. -/
def scanDown (greater : Nat → Bool) (l : List Nat) : Nat → Option Nat
  | 0 => none
  | j + 1 =>
    match l[j]? with
    | none => none
    | some x => if greater x then scanDown greater l j else some j

/-- The partition loop, minisat2.rs:965-990: `i` is the next index to look at from below, `j` the last one from above. -/
def partitionLoop (less greater : Nat → Bool) : Nat → Nat → Nat → List Nat → Option (Nat × List Nat)
  | 0, _, _, _ => none
  | fuel + 1, i, j, l =>
    match scanUp less l (l.length + 1) i with
    | none => none
    | some i =>
      match scanDown greater l j with
      | none => none
      | some j =>
        if j ≤ i then some (i, l)
        else
          match swapAt l i j with
          | none => none
          | some l => partitionLoop less greater fuel (i + 1) j l

/-- `manual_sort_learnts_rec`, minisat2.rs:952-994. -/
def sortRec (lt : Nat → Nat → Bool) : Nat → Nat → Nat → List Nat → Option (List Nat)
  | 0, _, _, _ => none
  | fuel + 1, start, fin, l =>
    if start = fin then some l
    else if fin - start ≤ 15 then selSort lt fin (fin - start) start l
    else
      match l[start + (fin - start) / 2]? with
      | none => none
      | some pivot =>
        match partitionLoop (fun x => lt x pivot) (fun x => lt pivot x) (fin + 1) start fin l with
        | none => none
        | some (i, l) =>
          match sortRec lt fuel start i l with
          | none => none
          | some l => sortRec lt fuel i fin l

/-- `verify_watches`, minisat2.rs:1038-1047: what it asserts. -/
def verifyWatches (s : Core) : Bool :=
  (List.range (2 * s.nvars)).all fun l => (s.watches l).all fun w =>
    match s.data w.1 with
    | c0 :: c1 :: _ => decide (c0 = neg l ∨ c1 = neg l)
    | _ => false

/-- The loop of `reduce_db`, minisat2.rs:835-848: `i` is the index, `half` is `learnts.len() / 2`; the second component
is the list of kept clauses. -/
def reduceLoop (C : Cfg F) (half : Nat) (extra : F) : List Nat → Nat → St F → Option (St F × List Nat)
  | [], _, s => some (s, [])
  | id :: ids, i, s =>
    if decide ((s.data id).length > 2) && !locked s id && (decide (i < half) || decide (s.cact id < extra)) then
      match removeClause C true id s with
      | none => none
      | some s => reduceLoop C half extra ids (i + 1) s
    else (reduceLoop C half extra ids (i + 1) s).map fun x => (x.1, id :: x.2)

/-- `reduce_db`, minisat2.rs:828-849. -/
def reduceDb (C : Cfg F) (s : St F) : Option (St F) :=
  if verifyWatches s.toCore then
    let extra := div s.claInc (ofInt s.learnts.length)
    match sortRec (learntLess s) (s.learnts.length + 1) 0 s.learnts.length s.learnts with
    | none => none
    | some ls =>
      let s := { s with learnts := ls }
      if verifyWatches s.toCore then
        (reduceLoop C (ls.length / 2) extra ls 0 s).map fun x => { x.1 with learnts := x.2 }
      else none
  else none

/-- Adding the learnt clause after backtracking, minisat2.rs:490-508.  The clause is added to `learnts` after the literal
has been enqueued; the order does not matter. -/
def record (C : Cfg F) (cl : List Nat) (s : St F) : Option (St F) :=
  match cl with
  | [] => none
  | [l] => some (decay C { s with toCore := { s.toCore.enqueue l none with units := s.units ++ [l] } })
  | l :: _ =>
    match s.install cl true with
    | none => none
    | some s' =>
      some (decay C { s' with
        toCore := { s'.toCore.enqueue l (some s.next) with learnts := s'.learnts ++ [s.next] }
        cact := if C.incremental then s'.cact else upd s'.cact s.next (add (s'.cact s.next) s'.claInc) })

/-- Learning the clause from a conflict, minisat2.rs:480-508. -/
def learn (C : Cfg F) (id : Nat) (s : St F) : Option (St F) :=
  match analyze C id s with
  | none => none
  | some (s, cl) =>
    match cancelUntil s.bt s with
    | none => none
    | some s => record C cl { s with
        selIdx := if s.bt < s.sel.length then s.bt else s.selIdx
        pgProof := if C.proofGen then s.pgProof ++ [1 :: cl.map pgLit] else s.pgProof }

/-- The loop over the assumptions, minisat2.rs:522-536: at most `n` rounds. -/
inductive Assume (F : Type)
  | next (l : Nat) (s : St F)
  | fail (p : Nat) (s : St F)
  | done (s : St F)

/-- minisat2.rs:523-536; `n` is `assumptions.len() - decision_level`. -/
def assumeLoop : Nat → St F → Assume F
  | 0, s => .done s
  | n + 1, s =>
    let p := s.assumptions.getD s.lim.length 0
    match s.value p with
    | some true => assumeLoop n { s with lim := s.trail.length :: s.lim }
    | some false => .fail p s
    | none => .next p s

/-- Result of one iteration of `search`. -/
inductive Step (F : Type)
  | again (s : St F)
  | answer (s : St F) (r : Option Bool)
  | panic

/-- `trail_lim.push(trail.len()); unchecked_enqueue(l, None)`, minisat2.rs:543-544. -/
def decide_ (l : Nat) (s : St F) : St F :=
  { s with toCore := ({ s.toCore with lim := s.trail.length :: s.lim } : Core).enqueue l none }

/-- The part of the loop body of `search` from line 522 on. -/
def branch (s : St F) : Step F :=
  match assumeLoop (s.assumptions.length - s.lim.length) s with
  | .fail p s => .answer (analyzeFinal (neg p) s) (some false)
  | .next l s => .again (decide_ l s)
  | .done s =>
    match pickBranch s with
    | none => .panic
    | some (s, none) => .answer s (some true)
    | some (s, some l) => .again (decide_ l s)

/-- The part of the loop body of `search` without conflict, minisat2.rs:510-545; `cnt` tells whether `conflict_c >= nof_conflicts`. -/
def noConflict (C : Cfg F) (cnt : Bool) (s : St F) : Step F :=
  if cnt then
    match cancelUntil 0 s with
    | none => .panic
    | some s => .answer s none
  else if C.incremental then branch s
  else
    match (if s.lim.length = 0 then simplify C s else some (s, true)) with
    | none => .panic
    | some (s, false) => .answer s (some false)
    | some (s, true) =>
      if s.maxLearnts ≤ ofInt ((s.learnts.length : Int) - (s.trail.length : Int)) then
        match reduceDb C s with
        | none => .panic
        | some s => branch s
      else branch s

/-- The loop of `search`, minisat2.rs:474-546; `n` is `nof_conflicts - conflict_c`.  The result of fuel 0 is `diverge`. -/
inductive Res (α : Type)
  | ok (a : α)
  | panic
  | diverge

/-- `search` from line 474 on. -/
def searchLoop (C : Cfg F) : Nat → Nat → St F → Res (St F × Option Bool)
  | 0, _, _ => .diverge
  | fuel + 1, n, s =>
    match s.prop with
    | none => .panic
    | some (s, some id) =>
      if s.lim.length = 0 then .ok (s, some false)
      else
        match learn C id s with
        | none => .panic
        | some s => searchLoop C fuel (n - 1) s
    | some (s, none) =>
      match noConflict C (n == 0) s with
      | .panic => .panic
      | .answer s r => .ok (s, r)
      | .again s => searchLoop C fuel n s

/-- `search`, minisat2.rs:468-547. -/
def search (C : Cfg F) (fuel n : Nat) (s : St F) : Res (St F × Option Bool) :=
  if s.ok = false then .ok (s, some false) else searchLoop C fuel n { s with selIdx := 0 }

/-- The restart loop of `solve`, minisat2.rs:445-449; `fuel` bounds both the restarts and each search. -/
def restartLoop (C : Cfg F) (fuel0 : Nat) : Nat → Nat → St F → Res (St F × Bool)
  | 0, _, _ => .diverge
  | fuel + 1, k, s =>
    match lubyExp k with
    | none => .panic
    | some e =>
      match search C fuel0 (toNat (mul (pow C.restartInc e) (ofInt C.restartFirst))) s with
      | .panic => .panic
      | .diverge => .diverge
      | .ok (s, some b) => .ok (s, b)
      | .ok (s, none) => restartLoop C fuel0 fuel (k + 1) s

/-- `solve`, minisat2.rs:433-465. -/
def solve (C : Cfg F) (fuel : Nat) (s : St F) : Res (St F × Bool) :=
  let s := { s with model := [], conflict := [] }
  if s.ok = false then .ok (s, false)
  else
    match restartLoop C fuel fuel 0 { s with
      adjConfl := ofInt 100
      adjCnt := 100
      maxLearnts := mul (ofInt s.clauses.length) C.learntsizeFactor } with
    | .panic => .panic
    | .diverge => .diverge
    | .ok (s, b) =>
      let s := { s with
        pgProof := if C.proofGen && s.assumptions.isEmpty && !b then s.pgProof ++ [[0]] else s.pgProof
        model := if b then (List.range s.nvars).map (fun v => s.asg v == some true) else s.model
        ok := s.ok && (b || !s.conflict.isEmpty) }
      match cancelUntil 0 s with
      | none => .panic
      | some s => .ok (s, b)

/-- `solve_with_assumptions`, minisat2.rs:425-430. -/
def solveWith (C : Cfg F) (fuel : Nat) (as : List Nat) (s : St F) : Res (St F × Bool) :=
  match solve C fuel { s with assumptions := as } with
  | .ok (s, b) => .ok ({ s with assumptions := [] }, b)
  | .panic => .panic
  | .diverge => .diverge

/-- `save_state`, minisat2.rs:1107-1111: ok, variables, clauses, learnts, units, proof clauses, proof steps. -/
structure Saved where
  ok : Bool
  nvars : Nat
  clauses : Nat
  learnts : Nat
  units : Nat
  orig : Nat
  proof : Nat
deriving DecidableEq

/-- `save_state`, minisat2.rs:1107-1111. -/
def save (C : Cfg F) (s : St F) : Option Saved :=
  if C.incremental then
    some ⟨s.ok, s.nvars, s.clauses.length, s.learnts.length, s.units.length, if C.proofGen then s.pgOrig.length else 0,
      if C.proofGen then s.pgProof.length else 0⟩
  else none

/-- `complete_backtrack`, minisat2.rs:1153-1165: the loop over the variables from `v` on (`n` of them). -/
def backLoop : Nat → Nat → St F → Option (St F)
  | 0, _, s => some s
  | n + 1, v, s =>
    match insertVarOrder v { s with asg := upd s.asg v none, reason := upd s.reason v none } with
    | none => none
    | some s => backLoop n (v + 1) s

/-- Removing variables from the heap, minisat2.rs:1118-1120, from index `v + n - 1` down to `v`.  (That the variable has a
name is the invariant of the wrapper.) -/
def heapCut (v : Nat) : Nat → St F → Option (St F)
  | 0, s => some s
  | n + 1, s =>
    match s.heap.remove s.act (v + n) with
    | none => none
    | some h => heapCut v n { s with heap := h }

/-- Detaching clauses from the last to the first, minisat2.rs:1126-1128 and 1132-1134 (the list is reversed). -/
def detachAll (lrn : Bool) : List Nat → St F → Option (St F)
  | [], s => some s
  | id :: ids, s =>
    match detach lrn id s with
    | none => none
    | some s => detachAll lrn ids s

/-- Putting the unit clauses back, minisat2.rs:1140-1145. -/
def reUnit : List Nat → St F → Option (St F)
  | [], s => some s
  | l :: ls, s =>
    if s.ok then
      match ({ s with toCore := s.toCore.enqueue l none } : St F).prop with
      | none => none
      | some (s, confl) => reUnit ls { s with ok := confl.isNone }
    else some s

/-- `load_state`, minisat2.rs:1113-1151. -/
def load (C : Cfg F) (st : Saved) (s : St F) : Option (St F) :=
  if C.incremental then
    match backLoop s.nvars 0 s with
    | none => none
    | some s =>
      let s := { s with trail := [], lim := [], qhead := 0, ok := st.ok }
      let n := min st.nvars s.nvars
      match heapCut n (s.nvars - n) s with
      | none => none
      | some s =>
        let s := { s with nvars := n }
        match detachAll false (s.clauses.drop (min st.clauses s.clauses.length)).reverse s with
        | none => none
        | some s =>
          let s := { s with clauses := s.clauses.take st.clauses }
          match detachAll true (s.learnts.drop (min st.learnts s.learnts.length)).reverse s with
          | none => none
          | some s =>
            let s := { s with
              learnts := s.learnts.take st.learnts
              watches := fun l => if l < 2 * n then s.watches l else []
              units := s.units.take st.units }
            (reUnit s.units s).map fun s =>
              if C.proofGen then { s with pgOrig := s.pgOrig.take st.orig, pgProof := s.pgProof.take st.proof } else s
  else none

/-- `up_zero_literals`, minisat2.rs:1172-1174 (oldest first). -/
def upZero (s : St F) : List Nat := s.trail.reverse.takeWhile fun l => decide (s.lv l = 0)

end St
end Verif.Sat
