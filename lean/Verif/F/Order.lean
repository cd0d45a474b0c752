import Verif.F.CnfAlg
import Mathlib.Data.List.Sort
/-
Model of the variable orderings for BDDs, src/knowledge_compilation/bdd/orderings, and of the hypergraph behind
the FORCE ordering, src/graphs/hypergraph.rs and src/graphs/hypergraph_generator.rs.
-/
namespace Verif
namespace VarOrd

/-- The closure `add`, bfs_ordering.rs 13-18 and dfs_ordering.rs 15-20.  The hash set `added` holds the elements of
`variables`. -/
def add (vs : List Var) (v : Var) : List Var := if v ∈ vs then vs else vs ++ [v]

/-- The variables of a formula that `bfs_ordering` adds when it takes the formula from the queue, bfs_ordering.rs 22-46. -/
def own : Formula → List Var
  | .lit l => if l.pos then [l.v] else []
  | .cc c => c.vars
  | .pbc p => p.terms.map fun t => t.1.v
  | _ => []

/-- The formulas that `bfs_ordering` puts into the queue, bfs_ordering.rs 22-46: for a negative literal its variable. -/
def kids : Formula → List Formula
  | .lit l => if l.pos then [] else [.lit ⟨l.v, true⟩]
  | .not f => [f]
  | .impl a b => [a, b]
  | .equiv a b => [a, b]
  | .nary _ fs => fs
  | _ => []

/-- The loop of `bfs_ordering`, bfs_ordering.rs 20-47.  `none`: out of fuel. -/
def bfsLoop : Nat → List Formula → List Var → Option (List Var)
  | _, [], vs => some vs
  | 0, _ :: _, _ => none
  | n + 1, f :: q, vs => bfsLoop n (q ++ kids f) ((own f).foldl add vs)

mutual
/-- A bound for the number of formulas that `bfs_ordering` takes from the queue. -/
def weight : Formula → Nat
  | .not f => 1 + weight f
  | .impl a b => 1 + weight a + weight b
  | .equiv a b => 1 + weight a + weight b
  | .nary _ fs => 1 + weights fs
  | .lit l => if l.pos then 1 else 2
  | _ => 1
def weights : List Formula → Nat
  | [] => 0
  | f :: fs => weight f + weights fs
end

/-- `bfs_ordering`, bfs_ordering.rs 7-49; the fuel suffices (C59). -/
def bfs (f : Formula) : Option (List Var) := bfsLoop (weight f) [f] []

mutual
/-- `dfs_rec`, dfs_ordering.rs 14-40. -/
def dfsRec : Formula → List Var → List Var
  | .lit l, vs => add vs l.v
  | .not f, vs => dfsRec f vs
  | .impl a b, vs => dfsRec b (dfsRec a vs)
  | .equiv a b, vs => dfsRec b (dfsRec a vs)
  | .nary _ fs, vs => dfsRecs fs vs
  | .cc c, vs => c.vars.foldl add vs
  | .pbc p, vs => (p.terms.map fun t => t.1.v).foldl add vs
  | .tru, vs => vs
  | .fls, vs => vs
def dfsRecs : List Formula → List Var → List Var
  | [], vs => vs
  | f :: fs, vs => dfsRecs fs (dfsRec f vs)
end

/-- `dfs_ordering`, dfs_ordering.rs 7-12. -/
def dfs (f : Formula) : List Var := dfsRec f []

/-- The comparison in `sort_ordering`, occurrence_ordering.rs 26-34, on variable, number of occurrences and position in
the DFS ordering; "not greater". -/
def occLe (rev : Bool) (a b : Var × Nat × Nat) : Bool :=
  if a.2.1 ≠ b.2.1 then (if rev then b.2.1 < a.2.1 else a.2.1 < b.2.1) else a.2.2 ≤ b.2.2

/-- `sort_ordering`, occurrence_ordering.rs 22-36.  `it` is the order in which the hash map is iterated.  The positions
(line 31-32, which panic for variables that the DFS ordering does not list) are looked up before sorting instead of during
each comparison. -/
def occSort (rev : Bool) (it : List Var → List Var) (f : Formula) : Option (List Var) :=
  let prof := profile f fun _ => none
  ((it (fnVars.val f)).mapM fun v => (prof v).bind fun n => ((dfs f).idxOf? v).map fun i => (v, n, i)).map fun l =>
    (l.insertionSort fun a b => occLe rev a b = true).map (·.1)

/-- `min_to_max_ordering`, occurrence_ordering.rs 11-13. -/
def minToMax (it : List Var → List Var) (f : Formula) : Option (List Var) := occSort false it f
/-- `max_to_min_ordering`, occurrence_ordering.rs 18-20. -/
def maxToMin (it : List Var → List Var) (f : Formula) : Option (List Var) := occSort true it f

/-! ### Hypergraphs -/

/-- `Hypergraph<Variable>`, hypergraph.rs 11-34.  Nodes (content and edges) and edges (nodes) are indexed by position;
the maps of the original have the keys `0..len`. -/
structure Hyper where
  nodes : List (Var × List Nat)
  edges : List (List Nat)
  deriving DecidableEq

/-- `Hypergraph::new`, hypergraph.rs 38-40. -/
def Hyper.new : Hyper := ⟨[], []⟩

/-- `add_node`, hypergraph.rs 43-48. -/
def Hyper.addNode (g : Hyper) (v : Var) : Hyper := { g with nodes := g.nodes ++ [(v, [])] }

/-- `add_edge`, hypergraph.rs 51-61.  `none`: the assertion in line 56 fails. -/
def Hyper.addEdge (g : Hyper) (ns : List Nat) : Option Hyper :=
  if ns.all (· < g.nodes.length) then
    some ⟨ns.foldl (fun l i => l.modify i fun n => (n.1, n.2 ++ [g.edges.length])) g.nodes, g.edges ++ [ns]⟩
  else none

/-- The maps from contents to nodes, hypergraph_generator.rs 11, 28-32 and force_ordering.rs 18-21. -/
def Hyper.find (g : Hyper) (v : Var) : Option Nat := g.nodes.findIdx? fun n => n.1 == v

/-- One turn of the loop in `add_clause`, hypergraph_generator.rs 26-35. -/
def Hyper.touch (p : Hyper × List Nat) (v : Var) : Hyper × List Nat :=
  match p.1.find v with
  | some i => (p.1, p.2 ++ [i])
  | none => (p.1.addNode v, p.2 ++ [p.1.nodes.length])

/-- `add_clause`, hypergraph_generator.rs 24-37.  `srt` is the iteration order of a `BTreeSet<Variable>`. -/
def Hyper.addClause (srt : List Var → List Var) (g : Hyper) (cl : Formula) : Option Hyper :=
  let p := (srt (fnVars.val cl)).foldl Hyper.touch (g, [])
  p.1.addEdge p.2

/-- `hypergraph_from_cnf`, hypergraph_generator.rs 9-22. -/
def Hyper.ofCnf (srt : List Var → List Var) : Formula → Option Hyper
  | .cc _ => none
  | .pbc _ => none
  | .impl _ _ => none
  | .equiv _ _ => none
  | .not _ => none
  | .lit l => Hyper.new.addClause srt (.lit l)
  | .nary .disj fs => Hyper.new.addClause srt (.nary .disj fs)
  | .nary .conj fs => fs.foldlM (Hyper.addClause srt) .new
  | .tru => some .new
  | .fls => some .new

/-- `center_of_gravity`, hypergraph.rs 102-110.  Floating point numbers are the rational numbers they stand for; `fl`
rounds.  `none`: the assertion in line 106 fails. -/
def center (fl : Rat → Rat) (ord : List Nat) (ns : List Nat) : Option Rat :=
  (ns.mapM fun i => ord[i]?).map fun ps => fl (fl (ps.sum : Nat) / fl (ns.length : Nat))

/-- `compute_tentative_new_location`, hypergraph.rs 90-97.  Every node has an edge; the division by zero, which would give
NaN, does not occur (C59). -/
def Hyper.location (g : Hyper) (fl : Rat → Rat) (ord : List Nat) (es : List Nat) : Option Rat :=
  (es.foldlM (fun acc e => (g.edges[e]?).bind fun ns => (center fl ord ns).map fun x => fl (acc + x)) 0).map fun x => fl (x / fl (es.length : Nat))

/-- `ordering_from_tentative_new_locations`, force_ordering.rs 78-86: the position of every node in the stable sort of the
nodes by location. -/
def positions (locs : List Rat) : List Nat :=
  let l := (List.range locs.length).insertionSort fun i j => locs[i]?.getD 0 ≤ locs[j]?.getD 0
  (List.range locs.length).map fun i => l.idxOf i

/-- The body of the loop in `force`, force_ordering.rs 36-44. -/
def Hyper.step (g : Hyper) (fl : Rat → Rat) (ord : List Nat) : Option (List Nat) :=
  (g.nodes.mapM fun n => g.location fl ord n.2).map positions

/-- The outcome of a loop: a value, a panic, or more turns than `fuel`. -/
inductive Out (α : Type)
  | ok (a : α)
  | panic
  | fuel
  deriving DecidableEq

/-- The loop in `force`, force_ordering.rs 36-48, with `should_proceed`, lines 88-90. -/
def Hyper.loop (g : Hyper) (fl : Rat → Rat) : Nat → List Nat → Out (List Nat)
  | 0, _ => .fuel
  | n + 1, last =>
    match g.step fl last with
    | none => .panic
    | some cur => if cur ≠ last then g.loop fl n cur else .ok cur

/-- `create_initial_ordering`, force_ordering.rs 65-76: the position of the content of every node in the DFS ordering.  In
the original a node that the ordering does not list is missing in the map, which is a panic later on
(hypergraph.rs 106) since every node has an edge; here it is one at once. -/
def Hyper.initial (g : Hyper) (cnf : Formula) : Option (List Nat) :=
  if (dfs cnf).all fun v => (g.find v).isSome then g.nodes.mapM fun n => (dfs cnf).idxOf? n.1 else none

/-- `force` after the loop, force_ordering.rs 50-62. -/
def Hyper.finish (g : Hyper) (ord : List Nat) (orig : List Var) : Option (List Var) :=
  let l := (List.range ord.length).insertionSort fun i j => ord[i]?.getD 0 ≤ ord[j]?.getD 0
  (l.mapM fun i => (g.nodes[i]?).map (·.1)).map fun vs =>
    let vs := vs.filter (· ∈ orig)
    vs ++ orig.filter (· ∉ vs)

/-- `force`, force_ordering.rs 26-63. -/
def Hyper.force (g : Hyper) (fl : Rat → Rat) (cnf : Formula) (orig : List Var) (fuel : Nat) : Out (List Var) :=
  match g.initial cnf with
  | none => .panic
  | some o =>
    match g.loop fl fuel o with
    | .ok o => match g.finish o orig with
      | some vs => .ok vs
      | none => .panic
    | .panic => .panic
    | .fuel => .fuel

/-- `force_ordering`, force_ordering.rs 12-24.  `alg` is the CNF algorithm of the factory's configuration (formula_factory.rs
1020-1022). -/
def force (C : Canon) (cfg : FCfg) (alg : CnfAlg) (srt : List Var → List Var) (fl : Rat → Rat) (fuel : Nat) (f : Formula) (w : World) :
    Out (List Var × World) :=
  match nnf C cfg f w with
  | none => .panic
  | some (n, w1) =>
    match alg.transform C cfg n .stateless w1 with
    | none => .panic
    | some (cnf, _, w2) =>
      match Hyper.ofCnf srt cnf with
      | none => .panic
      | some g =>
        match g.force fl cnf (srt (setExt (fnVars.val f) (fnVars.val n))) fuel with
        | .ok vs => .ok (vs, w2)
        | .panic => .panic
        | .fuel => .fuel

/-- Rounding of a positive number to an IEEE 754 double: 53 binary digits, to nearest, ties to even.  Exponents are not
bounded: the numbers that occur are zero or between `1 / n` and `n^2` for the number `n` of nodes and edges. -/
def f64 (q : Rat) : Rat :=
  if q.num ≤ 0 then q
  else
    let n := q.num.toNat
    let d := q.den
    let scale := fun s : Int => if 0 ≤ s then (n * 2 ^ s.toNat, d) else (n, d * 2 ^ (-s).toNat)
    let s0 : Int := 52 + Nat.log2 d - Nat.log2 n
    let s := if (scale s0).1 / (scale s0).2 < 2 ^ 52 then s0 + 1 else s0
    let m := (scale s).1 / (scale s).2
    let r := (scale s).1 % (scale s).2
    let m := if (scale s).2 < 2 * r ∨ (2 * r = (scale s).2 ∧ m % 2 = 1) then m + 1 else m
    if 0 ≤ s then mkRat m (2 ^ s.toNat) else mkRat (m * 2 ^ (-s).toNat) 1

end VarOrd
end Verif
