import Verif.Dnnf.Tree
import Verif.Sat.Solver
import Verif.F.Funcs
/-
Model of the DNNF compiler, src/knowledge_compilation/dnnf/dnnf_compiler.rs and dnnf_sat_solver.rs.  `none` is a panic or not enough
fuel.  `dnnf_assignment` is set and reset together with the assignment of the variables (minisat2.rs:312-315, 553-556), so
`value_of` is `Core.value`.
-/
namespace Verif.Dnnf
open Verif.Sat Verif.Formula

/-- `DnnfSatSolver`, dnnf_sat_solver.rs:16-21, and the cache of the compiler.  `al` is `assertion_level` (`none` for -1).
`confl` is not in the code: it counts the calls of `handle_conflict`. -/
structure DSt (F : Type) where
  s : St F
  dirty : Bool
  al : Option Nat
  ll : Option (List Nat)
  cache : List (List Bool × Formula)
  confl : Nat

section
variable {F : Type} [LinearOrder F] [Flt F] (K : Canon) (C : Cfg F)
open St

/-! ### The solver -/

/-- `generate_literal`, dnnf_sat_solver.rs:144-152; `nm` holds the variables by index. -/
def genLit (l : Lit) (s : St F) (nm : List Var) : Option (Nat × St F × List Var) :=
  match nm.idxOf? l.v with
  | some i => some (mkLit i (!l.pos), s, nm)
  | none => (s.newVar false true).map fun s' => (mkLit s.nvars (!l.pos), s', nm ++ [l.v])

/-- `generate_clause_vec`, dnnf_sat_solver.rs:140-142. -/
def genClause : List Lit → St F → List Var → Option (List Nat × St F × List Var)
  | [], s, nm => some ([], s, nm)
  | l :: ls, s, nm => (genLit l s nm).bind fun (x, s, nm) => (genClause ls s nm).map fun (xs, r) => (x :: xs, r)

/-- `add`, dnnf_sat_solver.rs:34-47, for the clauses of the formula; the clauses in literals of the solver are returned. -/
def addAll : List (List Lit) → St F → List Var → Option (List (List Nat) × St F × List Var)
  | [], s, nm => some ([], s, nm)
  | c :: cs, s, nm => (genClause c s nm).bind fun (x, s, nm) => (s.addClause C x).bind fun (s, _) =>
    (addAll cs s nm).map fun (xs, r) => (x :: xs, r)

/-- `handle_conflict`, dnnf_sat_solver.rs:129-138. -/
def handle (id : Nat) (d : DSt F) : Option (DSt F) :=
  if 0 < d.s.lim.length then
    (d.s.analyze C id).map fun (s, ls) => { d with s, ll := some ls, al := some s.bt, confl := d.confl + 1 }
  else (d.s.cancelUntil 0).map fun s => { d with s, ll := none, al := none, confl := d.confl + 1 }

/-- `propagate_after_decide`, dnnf_sat_solver.rs:122-127. -/
def propAfter (d : DSt F) : Option (DSt F × Bool) :=
  d.s.prop.bind fun (s, r) =>
    match r with
    | none => some ({ d with s }, true)
    | some id => (handle C id { d with s }).map fun d => (d, false)

/-- `decide`, dnnf_sat_solver.rs:49-55. -/
def decideVar (v : Nat) (phase : Bool) (d : DSt F) : Option (DSt F × Bool) :=
  propAfter C { d with
    dirty := true
    s := { d.s with toCore := ({ d.s.toCore with lim := d.s.trail.length :: d.s.lim } : Core).enqueue (mkLit v (!phase)) none } }

/-- `undo_decide`, dnnf_sat_solver.rs:57-60. -/
def undo (v : Nat) (d : DSt F) : Option (DSt F) :=
  match d.s.level v with
  | some (k + 1) => (d.s.cancelUntil k).map fun s => { d with s, dirty := false }
  | _ => none

/-- `at_assertion_level`, dnnf_sat_solver.rs:62-64. -/
def atLevel (d : DSt F) : Bool := d.al = some d.s.lim.length

/-- `assert_cd_literal`, dnnf_sat_solver.rs:66-84; lines 70-82 are those of the search (minisat2.rs:490-508).  The `debug_assert!` of
`unchecked_enqueue` (minisat2.rs:310) is modelled as a panic. -/
def assertCd (d : DSt F) : Option (DSt F × Bool) :=
  match d.ll with
  | some (l :: ls) =>
    if d.s.value l = none then (d.s.record C (l :: ls)).bind fun s => propAfter C { d with s, dirty := true } else none
  | _ => none

/-- The formula of a literal of the solver, `int_to_literal`, dnnf_sat_solver.rs:154-157. -/
def litOf (nm : List Var) (l : Nat) : Lit := ⟨nm.getD (vr l) default, !sgn l⟩

/-- The literals of the current level on variables of the tree, newest first, dnnf_sat_solver.rs:87-97. -/
def implied (t : DTree) (d : DSt F) : List Nat :=
  match d.dirty, d.s.lim with
  | true, n :: _ => (d.s.trail.take (d.s.trail.length - n)).filter fun l => decide (vr l ∈ t.vars)
  | _, _ => []

/-! ### The compiler -/

/-- The leaves without a true literal, e.g. dtree_factory.rs:122-131. -/
def openLeaves (s : Core) (t : DTree) : List (Nat × List Nat) := t.leaves.filter fun c => c.2.all fun l => s.value l != some true

/-- `var_set`, dtree_factory.rs:206-228. -/
def openVars (s : Core) (t : DTree) : List Nat :=
  (openLeaves s t).flatMap fun c => (c.2.filter fun l => s.value l == none).map vr

/-- `dynamic_separator`, dtree_factory.rs:100-113. -/
def separator (s : Core) : DTree → List Nat
  | .leaf _ _ => []
  | .node l r => (openVars s l).filter fun v => decide (v ∈ openVars s r)

/-- `compute_cache_key`, dnnf_compiler.rs:188-193 and dtree_factory.rs:119-142, for `nc` leaves (the bits of the key that are always 0 are left out). -/
def cacheKey (nc : Nat) (s : Core) (t : DTree) : List Bool :=
  (List.range s.nvars).map (fun v => decide (v ∈ openVars s t)) ++ (List.range nc).map fun i => decide (i ∈ (openLeaves s t).map Prod.fst)

/-- The occurrences counted in `choose_shannon_variable`, dnnf_compiler.rs:198-201, dtree_factory.rs:144-158. -/
def occurrences (s : Core) (t : DTree) (sep : List Nat) (v : Nat) : Int :=
  if v ∈ sep then (((openLeaves s t).flatMap Prod.snd).countP fun l => vr l == v : Nat) else -1

/-- `position_max`: the last position of the largest value. -/
def lastMax (f : Nat → Int) : Nat → Option Nat
  | 0 => none
  | n + 1 =>
    match lastMax f n with
    | none => some n
    | some i => if f i ≤ f n then some n else some i

/-- `choose_shannon_variable`, dnnf_compiler.rs:196-204. -/
def chooseVar (s : Core) (t : DTree) : Option Nat := lastMax (occurrences s t (separator s t)) s.nvars

/-- The loop of `leaf2ddnnf`, dnnf_compiler.rs:139-151: `cur` is `leaf_current_literals`; `none` when a literal is true. -/
def leafOps (nm : List Var) (s : Core) : List Nat → List Formula → Option (List Formula)
  | [], _ => some []
  | l :: ls, cur =>
    match s.value l with
    | some true => none
    | none => (leafOps nm s ls (cur ++ [.lit (litOf nm l).neg])).map fun r => mkAnd K (cur ++ [.lit (litOf nm l)]) :: r
    | some false => leafOps nm s ls cur

/-- `leaf2ddnnf`, dnnf_compiler.rs:135-153. -/
def leafDnnf (nm : List Var) (s : Core) (ls : List Nat) : Formula :=
  match leafOps K nm s ls [] with
  | none => .tru
  | some ops => mkOr K ops

/-- `cnf_aux`, dnnf_compiler.rs:170-186; `rec` is `cnf2ddnnf`. -/
def cnfAux (nm : List Var) (nc : Nat) (rec : DTree → DSt F → Option (Formula × DSt F)) (t : DTree) (d : DSt F) : Option (Formula × DSt F) :=
  match t with
  | .leaf _ ls => some (leafDnnf K nm d.s.toCore ls, d)
  | .node _ _ =>
    match d.cache.lookup (cacheKey nc d.s.toCore t) with
    | some g => some (g, d)
    | none => (rec t d).map fun (g, d') =>
      (g, if g = .fls then d' else { d' with cache := (cacheKey nc d.s.toCore t, g) :: d'.cache })

/-- `conjoin`, dnnf_compiler.rs:155-168. -/
def conjoin (nm : List Var) (nc : Nat) (rec : DTree → DSt F → Option (Formula × DSt F)) (imp : Formula) (l r : DTree) (d : DSt F) :
    Option (Formula × DSt F) :=
  if imp = .fls then some (imp, d)
  else (cnfAux K nm nc rec l d).bind fun (a, d) =>
    if a = .fls then some (a, d)
    else (cnfAux K nm nc rec r d).bind fun (b, d) =>
      if b = .fls then some (b, d) else some (mkAnd K [imp, a, b], d)

/-- One branch, dnnf_compiler.rs:102-103 and 113-114. -/
def branch (rec : DTree → DSt F → Option (Formula × DSt F)) (t : DTree) (v : Nat) (phase : Bool) (d : DSt F) : Option (Formula × DSt F) :=
  (decideVar C v phase d).bind fun (d, ok) =>
    (if ok then rec t d else some (.fls, d)).bind fun (g, d) => (undo v d).map fun d => (g, d)

/-- What follows a branch without solutions, dnnf_compiler.rs:104-110 and 115-121. -/
def retry (rec : DTree → DSt F → Option (Formula × DSt F)) (t : DTree) (d : DSt F) : Option (Formula × DSt F) :=
  if atLevel d then (assertCd C d).bind fun (d, ok) => if ok then rec t d else some (.fls, d)
  else some (.fls, d)

/-- `cnf2ddnnf`, dnnf_compiler.rs:84-129. -/
def cnf2ddnnf (nm : List Var) (nc : Nat) : Nat → DTree → DSt F → Option (Formula × DSt F)
  | 0, _, _ => none
  | fuel + 1, t, d =>
    let imp := mkAnd K ((implied t d).map fun l => .lit (litOf nm l))
    let d := { d with dirty := false }
    if separator d.s.toCore t = [] then
      match t with
      | .leaf _ ls => some (mkAnd K [imp, leafDnnf K nm d.s.toCore ls], d)
      | .node l r => conjoin K nm nc (cnf2ddnnf nm nc fuel) imp l r d
    else
      (chooseVar d.s.toCore t).bind fun v =>
        (branch C (cnf2ddnnf nm nc fuel) t v true d).bind fun (pos, d) =>
          if pos = .fls then retry C (cnf2ddnnf nm nc fuel) t d
          else (branch C (cnf2ddnnf nm nc fuel) t v false d).bind fun (ng, d) =>
            if ng = .fls then retry C (cnf2ddnnf nm nc fuel) t d
            else
              let x := Lit.mk (nm.getD v default) true
              some (mkAnd K [imp, mkOr K [mkAnd K [.lit x, pos], mkAnd K [.lit x.neg, ng]]], d)

/-- The clauses of a CNF as `literals(f)` of its operands; `ord` is the order of `BTreeSet<Literal>`.  `none` is the panic of
dnnf_sat_solver.rs:45. -/
def clausesOf (ord : List Lit → List Lit) : Formula → Option (List (List Lit))
  | .tru => some []
  | .fls => some [[]]
  | .lit l => some [[l]]
  | .nary .disj fs => some [ord (fnLits.val (.nary .disj fs))]
  | .nary .conj fs => some (fs.map fun g => ord (fnLits.val g))
  | _ => none

/-- `initialize_clauses`, dnnf_compiler.rs:207-216. -/
def initClauses : Formula → Formula × Formula
  | .nary .conj fs => (mkAnd K (fs.filter (·.isAtomic)), mkAnd K (fs.filter fun g => !g.isAtomic))
  | .nary .disj fs => (.tru, .nary .disj fs)
  | f => (f, .tru)

/-- `min_fill_dtree_generation`, dtree_generator.rs:11-15: `vs` are the variables sorted by name, `nm` the variables by solver index,
`cs` the clauses. -/
def minFillTree (vs nm : List Var) (cs : List (List Nat)) : Option DTree :=
  let vert := fun l : Nat => vs.idxOf (nm.getD (vr l) default)
  (minFill vs.length vs.length (graph vs.length (cs.map fun c => (c.map vert).dedup)) []).bind fun o =>
    DTree.generate cs (o.map fun i => nm.idxOf (vs.getD i default))

/-- `DnnfCompiler::new` and `compile`, dnnf_compiler.rs:50-82.  `byName` sorts the variables by name, `sat` is `is_sat(cnf)`. -/
def compile (ord : List Lit → List Lit) (byName : List Var → List Var) (sat : Bool) (fuel : Nat) (cnf : Formula) : Option (Formula × DSt F) :=
  (clausesOf ord cnf).bind fun cs => (addAll C cs (.new C) []).bind fun (xs, s, nm) =>
    let d : DSt F := { s, dirty := false, al := none, ll := none, cache := [], confl := 0 }
    if (initClauses K cnf).2.isAtomic then some (cnf, d)
    else if !sat then some (.fls, d)
    else s.prop.bind fun (s, r) =>
      let d := { d with s, dirty := true }
      if r.isSome then some (.fls, d)
      else (minFillTree (byName nm) nm xs).bind fun t =>
        (cnf2ddnnf K C nm xs.length fuel t d).map fun (g, d) => (mkAnd K [(initClauses K cnf).1, g], d)

end

end Verif.Dnnf
