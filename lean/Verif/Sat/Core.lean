/-
Model of the clause database, the trail and unit propagation of the CDCL solver, src/solver/sat/minisat2.rs.

Variables and literals are numbers as in the code (`MsVar`, `MsLit`).  `Vec`s indexed by variables or literals
are total functions together with the number of variables; that every access is in range is part of the
invariant proved later.  `Rc<RefCell<MsClause>>` is an index into the clause store `data`/`learnt`.
-/
namespace Verif.Sat

/-- Replacement of one entry. -/
def upd {α : Type} (f : Nat → α) (i : Nat) (x : α) : Nat → α := fun j => if j = i then x else f j

/-- `var(lit)`, minisat2.rs:1313-1315. -/
def vr (l : Nat) : Nat := l / 2

/-- `sign(lit)`, minisat2.rs:1308-1310. -/
def sgn (l : Nat) : Bool := l % 2 == 1

/-- `not(lit)`, minisat2.rs:1303-1305 (`lit ^ 1`). -/
def neg (l : Nat) : Nat := if l % 2 = 0 then l + 1 else l - 1

/-- `mk_lit(var, sign)`, minisat2.rs:1298-1300. -/
def mkLit (v : Nat) (s : Bool) : Nat := 2 * v + if s then 1 else 0

/-- The part of `MiniSat2Solver` (minisat2.rs:57-108) that decides its answers; the heuristic part is in `St`.
Clauses have indices below `next`.  `trail` and `lim` (`trail_lim`) are newest first; `clauses`, `learnts`,
`units` are oldest first.  An assignment is `none` for `Undef`.  A watcher is (clause, blocking literal); the
code only ever stores `Some` blocking literal in the lists. -/
structure Core where
  ok : Bool
  nvars : Nat
  data : Nat → List Nat
  learnt : Nat → Bool
  next : Nat
  clauses : List Nat
  learnts : List Nat
  units : List Nat
  watches : Nat → List (Nat × Nat)
  asg : Nat → Option Bool
  level : Nat → Option Nat
  reason : Nat → Option Nat
  trail : List Nat
  lim : List Nat
  qhead : Nat

namespace Core

/-- `value(lit)`, minisat2.rs:198-201. -/
def value (s : Core) (l : Nat) : Option Bool := (s.asg (vr l)).map (· != sgn l)

/-- `level` of the variable of a literal, 0 for `None` (as in `level_greater_zero`, ms_variable.rs). -/
def lv (s : Core) (l : Nat) : Nat := (s.level (vr l)).getD 0

/-- `decision_level`, minisat2.rs:336-338. -/
def dl (s : Core) : Nat := s.lim.length

/-- `trail_lim[level]`. -/
def limAt (s : Core) (L : Nat) : Nat := s.lim.getD (s.lim.length - 1 - L) 0

/-- `unchecked_enqueue`, minisat2.rs:309-321 (without `dnnf_assignment`, which is `None` outside the DNNF compiler). -/
def enqueue (l : Nat) (r : Option Nat) (s : Core) : Core :=
  { s with
    asg := upd s.asg (vr l) (some (!sgn l))
    level := upd s.level (vr l) (some s.lim.length)
    reason := upd s.reason (vr l) r
    trail := l :: s.trail }

/-- `watches[l].push(w)`. -/
def pushW (l : Nat) (w : Nat × Nat) (s : Core) : Core := { s with watches := upd s.watches l (s.watches l ++ [w]) }

/-- `attach_clause`, minisat2.rs:323-329 (the literal counters are in `St`).  `none` is an index panic. -/
def attach (id : Nat) (s : Core) : Option Core :=
  match s.data id with
  | c0 :: c1 :: _ => some ((s.pushW (neg c0) (id, c1)).pushW (neg c1) (id, c0))
  | _ => none

/-- `Rc::new(RefCell::new(MsClause::new(data, learnt)))`. -/
def alloc (d : List Nat) (lrn : Bool) (s : Core) : Core :=
  { s with data := upd s.data s.next d, learnt := upd s.learnt s.next lrn, next := s.next + 1 }

/-- Result of looking at one watcher: the index of the next one, or a conflicting clause. -/
inductive Visit
  | next (j : Nat) (s : Core)
  | confl (id : Nat) (s : Core)

/-- One iteration of the inner loop of `propagate` whose blocking literal is not true, minisat2.rs:363-416.
`c0`, `c1` are the first two literals after the swap, `r` the others.  The code compacts the watch list with two
indices; here a watcher that moves to another list is taken out at once. -/
def visit (p j id b c0 c1 : Nat) (r : List Nat) (s : Core) : Visit :=
  let d := upd s.data id (c0 :: c1 :: r)
  let ws := upd s.watches p ((s.watches p).set j (id, c0))
  if c0 ≠ b ∧ s.value c0 = some true then .next (j + 1) { s with data := d, watches := ws }
  else
    match r.findIdx? (fun l => s.value l != some false) with
    | some k =>
      let ck := r.getD k 0
      .next j (({ s with
        data := upd s.data id (c0 :: ck :: r.set k (neg p))
        watches := upd s.watches p ((s.watches p).eraseIdx j) } : Core).pushW (neg ck) (id, c0))
    | none =>
      if s.value c0 = some false then .confl id { s with data := d, watches := ws, qhead := s.trail.length }
      else .next (j + 1) (({ s with data := d, watches := ws } : Core).enqueue c0 (some id))

/-- The inner loop of `propagate`, minisat2.rs:350-417.  `none` is an index panic or out of fuel. -/
def scan (p : Nat) : Nat → Nat → Core → Option (Core × Option Nat)
  | 0, _, _ => none
  | fuel + 1, j, s =>
    match (s.watches p)[j]? with
    | none => some (s, none)
    | some (id, b) =>
      if s.value b = some true then scan p fuel (j + 1) s
      else
        match s.data id with
        | c0 :: c1 :: r =>
          match (if c0 = neg p then visit p j id b c1 c0 r s else visit p j id b c0 c1 r s) with
          | .next j s => scan p fuel j s
          | .confl id s => some (s, some id)
        | _ => none

/-- The outer loop of `propagate`, minisat2.rs:343-419; the last component counts `num_props`. -/
def propLoop : Nat → Nat → Core → Option (Core × Option Nat × Nat)
  | 0, _, _ => none
  | fuel + 1, n, s =>
    if s.qhead < s.trail.length then
      let p := s.trail.getD (s.trail.length - 1 - s.qhead) 0
      let s := { s with qhead := s.qhead + 1 }
      match scan p ((s.watches p).length + 1) 0 s with
      | none => none
      | some (s, some id) => some (s, some id, n + 1)
      | some (s, none) => propLoop fuel (n + 1) s
    else some (s, none, n)

/-- `propagate`, minisat2.rs:340-422: the conflicting clause, if any, and `num_props`. -/
def propagate (s : Core) : Option (Core × Option Nat × Nat) := propLoop (s.nvars + 1) 0 s

end Core
end Verif.Sat
