import Mathlib.Data.List.Basic
import Mathlib.Data.List.Perm.Basic
/-
Model of the decomposition trees, src/knowledge_compilation/dnnf/dtree/.  Literals are those of the SAT solver (`2 v` and
`2 v + 1` for variable `v`), as in `leaf_literals` of the code.
-/
namespace Verif.Dnnf

/-- `DTree` with `DTreeFactory`, dtree_datastructure.rs and dtree_factory.rs:19-39.  Simplified: a leaf is its index with its literals,
an inner node its two children; the tables of the factory (`clause_contents`, `static_var_sets`, …) are functions of the tree. -/
inductive DTree
  | leaf (id : Nat) (ls : List Nat)
  | node (l r : DTree)
deriving Repr

namespace DTree

/-- `leaf_indices`, dtree_datastructure.rs, with the literals of the leaves. -/
def leaves : DTree → List (Nat × List Nat)
  | leaf id ls => [(id, ls)]
  | node l r => l.leaves ++ r.leaves

/-- `static_var_set`, dtree_factory.rs:115-117, 187-204 (a set). -/
def vars : DTree → List Nat
  | leaf _ ls => ls.map (· / 2)
  | node l r => l.vars ++ r.vars

/-- `compose`, dtree_generator.rs:46-56.  `none` is the failed assertion; the fuel `trees.len()` suffices. -/
def compose : Nat → List DTree → Option DTree
  | 0, _ => none
  | _ + 1, [] => none
  | _ + 1, [t] => some t
  | n + 1, t :: u :: ts =>
    let k := (t :: u :: ts).length / 2
    match compose n ((t :: u :: ts).take k), compose n ((t :: u :: ts).drop k) with
    | some l, some r => some (node l r)
    | _, _ => none

/-- One iteration of the loop in `generate_with_eliminating_order`, dtree_generator.rs:27-41. -/
def eliminate (v : Nat) (σ : List DTree) : Option (List DTree) :=
  let γ := σ.filter fun t => decide (v ∈ t.vars)
  let σ2 := σ.filter fun t => !decide (v ∈ t.vars)
  if γ.isEmpty then some σ2 else (compose γ.length γ).map fun t => σ2 ++ [t]

/-- The loop, dtree_generator.rs:27-41. -/
def elimAll : List Nat → List DTree → Option (List DTree)
  | [], σ => some σ
  | v :: vs, σ => (eliminate v σ).bind (elimAll vs)

/-- `generate_with_eliminating_order`, dtree_generator.rs:17-44, on the clauses; a formula with a single clause is an `Or` and
gives a leaf in both ways. -/
def generate (cs : List (List Nat)) (ord : List Nat) : Option DTree :=
  (elimAll ord (cs.zipIdx.map fun c => leaf c.2 c.1)).bind fun σ => compose σ.length σ

end DTree

/-! ### Min-fill ordering -/

/-- All pairs of an element and a later one. -/
def pairs : List Nat → List (Nat × Nat)
  | [] => []
  | a :: l => l.map (a, ·) ++ pairs l

/-- Adding an edge.  Simplified: `adj_matrix` and `edge_list` hold the same information; here only the lists. -/
def addEdge (a b : Nat) (ed : List (List Nat)) : List (List Nat) :=
  if b ∈ ed.getD a [] then ed else ed.mapIdx fun i l => if i = a then l ++ [b] else if i = b then l ++ [a] else l

/-- `new_from_cnf`, dtree_generator.rs:66-99, for clauses given by vertex numbers.  (The code iterates over hash sets; the order of an edge
list does not matter below, only pairs are counted.) -/
def graph (n : Nat) (cs : List (List Nat)) : List (List Nat) :=
  cs.foldl (fun ed c => (pairs c).foldl (fun ed p => addEdge p.1 p.2 ed) ed) (List.replicate n [])

/-- The pairs of unprocessed neighbours without an edge, dtree_generator.rs:114-126. -/
def missing (ed : List (List Nat)) (done : List Nat) (v : Nat) : List (Nat × Nat) :=
  (pairs ((ed.getD v []).filter fun x => !decide (x ∈ done))).filter fun p => !decide (p.2 ∈ ed.getD p.1 [])

/-- The first unprocessed vertex with the fewest missing edges, dtree_generator.rs:108-140. -/
def bestVertex (ed : List (List Nat)) (done : List Nat) : List Nat → Option Nat
  | [] => none
  | v :: vs =>
    if v ∈ done then bestVertex ed done vs
    else
      match bestVertex ed done vs with
      | none => some v
      | some w => if (missing ed done w).length < (missing ed done v).length then some w else some v

/-- `get_min_fill_ordering`, dtree_generator.rs:101-171 (`tree_width` is never used); `done` are the processed vertices, oldest first. -/
def minFill (n : Nat) : Nat → List (List Nat) → List Nat → Option (List Nat)
  | 0, _, done => some done
  | k + 1, ed, done =>
    match bestVertex ed done (List.range n) with
    | none => none
    | some v => minFill n k ((missing ed done v).foldl (fun ed p => addEdge p.1 p.2 ed) ed) (done ++ [v])

end Verif.Dnnf
