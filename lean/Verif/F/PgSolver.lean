import Verif.F.Pg
/-
Model of src/operations/transformations/cnf/plaisted_greenbaum_on_solver.rs: the clauses added to the solver.  Nothing in this file looks at the
solver, so its clauses are collected in a list here and added in the same order afterwards (`Mini.addAll`).  Propositions are left out.
-/
namespace Verif
open ER

/-- `VarCacheEntry`, plaisted_greenbaum_on_solver.rs:304-308 -/
structure PgEntry where
  v : Var
  pos : Bool
  neg : Bool

/-- `set_polarity_cached`, plaisted_greenbaum_on_solver.rs:315-325: the old flag, and the entry with the flag set -/
def PgEntry.set (e : PgEntry) (pol : Bool) : Bool × PgEntry :=
  if pol then (e.pos, { e with pos := true }) else (e.neg, { e with neg := true })

/-- The variable cache of the solver, the factory, and the clauses added so far. -/
structure PgS where
  cache : Formula → Option PgEntry
  w : World
  out : List Clause

/-- `add_clause`, plaisted_greenbaum_on_solver.rs:263-278 -/
def PgS.add (s : PgS) (c : Clause) : PgS := { s with out := s.out ++ [c] }

/-- `get_pg_var`, plaisted_greenbaum_on_solver.rs:280-295 -/
def PgS.getVar (s : PgS) (f : Formula) (pol : Bool) : Bool × Lit × PgS :=
  match s.cache f with
  | some e => ((e.set pol).1, e.v.p, { s with cache := mapPut s.cache f (e.set pol).2 })
  | none => (false, s.w.newCnf.1.p, { s with cache := mapPut s.cache f ((PgEntry.mk s.w.newCnf.1 false false).set pol).2, w := s.w.newCnf.2 })

/-- A clause for one operand: plaisted_greenbaum_on_solver.rs:216-223 and 247-254 (also 181-187, 190-191); `x` is the literal put in front, if there
is one (`vector`, 297-302).  `none` is the panic of `unwrap`. -/
def PgS.addOp (s : PgS) (x : Option Lit) (r : Option Clause) : Option PgS :=
  match x, r with
  | none, none => some s
  | none, some c => some (s.add c)
  | some x, some c => some (s.add (x :: c))
  | some _, none => none

mutual
/-- `compute_transformation`, plaisted_greenbaum_on_solver.rs:81-101, with `handle_equiv` 104-153, `handle_impl` 156-195 and `handle_nary` 198-261.
The outer `none` is a panic. -/
def pgC : Formula → Bool → Bool → PgS → Option (Option Clause × PgS)
  | .lit l, pol, _, s => some (some [if pol then l else l.neg], s)
  | .not g, pol, top, s => pgC g (!pol) top s
  | .nary o fs, pol, top, s =>
    if o = .conj ∧ pol = true ∨ o = .disj ∧ pol = false then
      if top then
        match pgEach fs pol true none s with
        | none => none
        | some s => some (none, s)
      else
        match s.getVar (.nary o fs) pol with
        | (true, x, s) => some (some [if pol then x else x.neg], s)
        | (false, x, s) =>
          match pgEach fs pol false (some (if pol then x.neg else x)) s with
          | none => none
          | some s => some (some [if pol then x else x.neg], s)
    else
      match pgJoin fs pol s with
      | none => none
      | some (c, s) => some (some c, s)
  | .impl a b, pol, top, s =>
    if pol then
      match pgC a false false s with
      | some (some l, s) =>
        match pgC b true false s with
        | some (some r, s) => some (some (l ++ r), s)
        | _ => none
      | _ => none
    else
      let g := if top then (false, none, s) else
        let r := s.getVar (.impl a b) pol
        (r.1, some r.2.1, r.2.2)
      match g with
      | (true, x, s) => x.map fun x => (some [x.neg], s)
      | (false, x, s) =>
        match pgC a true top s with
        | none => none
        | some (l, s) =>
          match pgC b false top s with
          | none => none
          | some (r, s) =>
            match s.addOp x l with
            | none => none
            | some s =>
              match s.addOp x r with
              | none => none
              | some s => some (x.map fun x => [x.neg], s)
  | .equiv a b, pol, top, s =>
    let g := if top then (false, none, s) else
      let r := s.getVar (.equiv a b) pol
      (r.1, some r.2.1, r.2.2)
    match g with
    | (true, x, s) => x.map fun x => (some [if pol then x else x.neg], s)
    | (false, x, s) =>
      match pgC a true false s with
      | some (some lp, s) =>
        match pgC a false false s with
        | some (some ln, s) =>
          match pgC b true false s with
          | some (some rp, s) =>
            match pgC b false false s with
            | some (some rn, s) =>
              let c1 := if pol then ln ++ rp else lp ++ rp
              let c2 := if pol then lp ++ rn else ln ++ rn
              match x with
              | none => some (none, (s.add c1).add c2)
              | some x =>
                let y := if pol then x.neg else x
                some (some [y.neg], (s.add (y :: c1)).add (y :: c2))
            | _ => none
          | _ => none
        | _ => none
      | _ => none
  | .tru, _, _, _ => none
  | .fls, _, _, _ => none
  | .cc _, _, _, _ => none
  | .pbc _, _, _, _ => none
/-- The loops in plaisted_greenbaum_on_solver.rs:215-224 and 246-255 -/
def pgEach : List Formula → Bool → Bool → Option Lit → PgS → Option PgS
  | [], _, _, _, s => some s
  | f :: fs, pol, top, x, s =>
    match pgC f pol top s with
    | none => none
    | some (r, s) =>
      match s.addOp x r with
      | none => none
      | some s => pgEach fs pol top x s
/-- The loops in plaisted_greenbaum_on_solver.rs:229-232 and 239-242 -/
def pgJoin : List Formula → Bool → PgS → Option (Clause × PgS)
  | [], _, s => some ([], s)
  | f :: fs, pol, s =>
    match pgC f pol false s with
    | some (some c, s) =>
      match pgJoin fs pol s with
      | none => none
      | some (d, s) => some (c ++ d, s)
    | _ => none
end

/-- The clauses of a CNF: `add_cnf`, plaisted_greenbaum_on_solver.rs:58-78 (`add_clause_set`, minisat_solver.rs:348-355, differs in the order of the
literals only); `lits` are the literals of a clause.  `none` is a panic. -/
def cnfClauses (lits : Formula → List Lit) : Formula → Option (List Clause)
  | .tru => some []
  | .fls => some [lits .fls]
  | .lit l => some [lits (.lit l)]
  | .nary .disj fs => some [lits (.nary .disj fs)]
  | .nary .conj fs => some (fs.map lits)
  | _ => none

/-- `add_cnf_to_solver`, plaisted_greenbaum_on_solver.rs:41-56; `full` is `!perform_nnf`.  Simplified: `contains_pbc` is taken without its cache, which
changes nothing (`C51_contains_pbc`). -/
def addCnfToSolver (C : Canon) (cfg : FCfg) (full : Bool) (f : Formula) (s : PgS) : Option PgS :=
  let g := if !full || (f.containsPbc false fun _ => none).1 == some true then nnf C cfg f s.w else some (f, s.w)
  match g with
  | none => none
  | some (g, w) =>
    let s := { s with w := w }
    if g.isCnfF then (cnfClauses (fun c => fnLits.val c) g).map fun L => { s with out := s.out ++ L }
    else
      match pgC g true true s with
      | none => none
      | some (none, s) => some s
      | some (some c, s) => some (s.add c)

end Verif
