/-
The DRUP trimmer (explanations/drup/drup_trim.rs).

Simplified: the flat vector `db`, in which a clause is a number, its literals and a zero, is a function from the number of a clause (in the order of appearance) to its literals, with
the lowest bit of the number stored as a mark; pointers into `db` are numbers of clauses.  Vectors indexed by literals or variables are functions, so that an access out of bounds (a
literal of the proof whose variable is not in the problem) is not seen.  `adlist` is stored as a list of lemmas, each with the deletions before it.  `none` as a result is a panic
or running out of fuel.
-/
namespace Verif.Drup

/-- Update of a function. -/
def put {α β : Type} [DecidableEq α] (f : α → β) (a : α) (b : β) : α → β := fun x => if x = a then b else f x

/-- `v[i] = v.last(); v.pop()` -/
def swapRemove {α : Type} (l : List α) (i : Nat) : List α :=
  match l.getLast? with
  | none => l
  | some x => (l.set i x).dropLast

/-- `Solver`, drup_trim.rs:42-61.  `fals` is `internal_false`, `stack` the part of `false_stack` below `assigned_ptr`, `wl` is `wlist` (the number of a clause and the lowest bit),
`num` the number of clauses in `db`. -/
structure T where
  cl : Nat → List Int
  mark : Nat → Bool
  num : Nat
  fals : Int → Nat
  stack : List Int
  forced : Nat
  processed : Nat
  reason : Nat → Option Nat
  wl : Int → List (Nat × Bool)

/-- `Solver::new`, drup_trim.rs:64-91 -/
def T.init : T := ⟨fun _ => [], fun _ => false, 0, fun _ => 0, [], 0, 0, fun _ => none, fun _ => []⟩

/-- `assign`, drup_trim.rs:542-546 -/
def assign (a : Int) (S : T) : T := { S with fals := put S.fals (-a) 1, stack := S.stack ++ [-a] }

/-- `add_watch`, drup_trim.rs:548-551 -/
def push (wl : Int → List (Nat × Bool)) (x : Int) (e : Nat × Bool) : Int → List (Nat × Bool) := put wl x (wl x ++ [e])

/-- Both watches are added if the clause has two literals, e.g. drup_trim.rs:228-231. -/
def addWatches (c : Nat) (S : T) : T :=
  match S.cl c with
  | a :: b :: _ => { S with wl := push (push S.wl a (c, false)) b (c, false) }
  | _ => S

/-- `remove_watch`, drup_trim.rs:553-566 -/
def removeOne (wl : Int → List (Nat × Bool)) (x : Int) (c : Nat) : Option (Int → List (Nat × Bool)) :=
  ((wl x).findIdx? fun e => e.1 == c).map fun i => put wl x (swapRemove (wl x) i)

/-- Both watches are removed if the clause has two literals, e.g. drup_trim.rs:281-284. -/
def removeWatches (c : Nat) (S : T) : Option T :=
  match S.cl c with
  | a :: b :: _ => (removeOne S.wl a c).bind fun w => (removeOne w b c).map fun w => { S with wl := w }
  | _ => some S

/-- `mark_watch`, drup_trim.rs:510-522 -/
def markWatch (wl : Int → List (Nat × Bool)) (x : Int) (c : Nat) : Option (Int → List (Nat × Bool)) :=
  ((wl x).findIdx? fun e => e.1 == c).map fun i => put wl x ((wl x).set i (c, true))

/-- The literals are marked: drup_trim.rs:504-507 -/
def markLits (fals : Int → Nat) (ls : List Int) : Int → Nat := ls.foldl (fun f x => put f x 3) fals

/-- `mark_clause`, drup_trim.rs:495-508, with `skip` literals left out (0 for a conflict, 1 for a reason) -/
def markClause (skip c : Nat) (S : T) : Option T :=
  if S.mark c then some { S with fals := markLits S.fals ((S.cl c).drop skip) }
  else
    match S.cl c with
    | a :: b :: _ => (markWatch S.wl a c).bind fun w => (markWatch w b c).map fun w =>
        { S with mark := put S.mark c true, wl := w, fals := markLits S.fals ((S.cl c).drop skip) }
    | _ => some { S with mark := put S.mark c true }

/-- The loop of `analyze`, drup_trim.rs:483-490 -/
def unwind : Nat → T → Option T
  | 0, S => some S
  | p + 1, S =>
    match S.stack[p]? with
    | none => none
    | some x =>
      match (if S.fals x = 3 then (match S.reason x.natAbs with | some i => markClause 1 i S | none => some S) else some S) with
      | none => none
      | some S => unwind p { S with fals := put S.fals x (if p < S.forced then 1 else 0) }

/-- `analyze`, drup_trim.rs:481-493 -/
def analyze (c : Nat) (S : T) : Option T :=
  match markClause 0 c S with
  | none => none
  | some S =>
    match unwind S.stack.length S with
    | none => none
    | some S => some { S with processed := S.forced, stack := S.stack.take S.forced }

/-- How the loop over the clauses watched by a literal ends: it has reached the end, a clause without mark has become unit, or there is a conflict. -/
inductive Scan
  | done (S : T)
  | flip (S : T) (wp : Nat)
  | confl (i : Nat) (S : T)

/-- The clauses watched by a literal: drup_trim.rs:415-471; `check` says whether clauses with mark are looked at. -/
def scan (check : Bool) (lit : Int) : Nat → Nat → T → Option Scan
  | 0, _, _ => none
  | fuel + 1, wp, S =>
    match (S.wl lit)[wp]? with
    | none => some (.done S)
    | some (i, bit) =>
      if bit ≠ check then scan check lit fuel (wp + 1) S
      else
        match S.cl i with
        | a :: b :: rest =>
          if S.fals (-a) ≠ 0 ∨ S.fals (-b) ≠ 0 then scan check lit fuel (wp + 1) S
          else
            match rest.findIdx? fun x => S.fals x == 0 with
            | some j =>
              scan check lit fuel wp { S with
                cl := put S.cl i ((if a = lit then b else a) :: rest.getD j 0 :: rest.set j lit)
                wl := put (push S.wl (rest.getD j 0) (i, bit)) lit (swapRemove (push S.wl (rest.getD j 0) (i, bit) lit) wp) }
            | none =>
              if S.fals (if a = lit then b else a) = 0 then
                let S' : T := { assign (if a = lit then b else a) S with
                  cl := put S.cl i ((if a = lit then b else a) :: lit :: rest)
                  reason := put S.reason (if a = lit then b else a).natAbs (some i) }
                if check then scan check lit fuel (wp + 1) S' else some (.flip S' (wp + 1))
              else some (.confl i { S with cl := put S.cl i ((if a = lit then b else a) :: lit :: rest) })
        | _ => none

/-- The loop of `propagate`, drup_trim.rs:404-476; `s0` and `s1` are `start`, `last` is `last_lit` and `last_watch_ptr`. -/
def prop : Nat → T → Bool → Nat → Nat → Option (Int × Nat) → Option (T × Bool)
  | 0, _, _, _, _, _ => none
  | fuel + 1, S, check, s0, s1, last =>
    match S.stack[if check then s1 else s0]? with
    | some lit =>
      match scan check lit fuel (match last with | some (l, p) => if l = lit then p else 0 | none => 0) S with
      | none => none
      | some (.done S) => prop fuel S check (if check then s0 else s0 + 1) (if check then s1 + 1 else s1) last
      | some (.flip S p) => prop fuel S true s0 s1 (some (lit, p))
      | some (.confl i S) => (analyze i S).map fun S => (S, false)
    | none => if check then prop fuel S false s0 s1 last else some ({ S with processed := S.stack.length }, true)

/-- `propagate`, drup_trim.rs:398-479 -/
def propagate (fuel : Nat) (S : T) : Option (T × Bool) := prop fuel S true S.processed S.processed none

/-! ### `parse` -/

/-- The clauses of the problem: drup_trim.rs:104-171 while `n_zeros > 0`; `none` is the result `false`. -/
def parseOrig : List (List Int) → T → Option T
  | [], S => some S
  | c :: cs, S =>
    let S' : T := { S with cl := put S.cl S.num c, num := S.num + 1 }
    match c with
    | [] => none
    | [x] =>
      if S.fals x ≠ 0 then none
      else if S.fals (-x) = 0 then parseOrig cs { assign x S' with reason := put S.reason x.natAbs (some S.num) }
      else parseOrig cs S'
    | _ => parseOrig cs (addWatches S.num S')

/-- `match_clause`, drup_trim.rs:376-396, and the `pop` after it -/
def matchClause (cl : Nat → List Int) (bucket : List Nat) (c : List Int) : Option (Nat × List Nat) :=
  match bucket.findIdx? fun i => (cl i).all (fun x => decide (x ∈ c)) && (cl i).length == c.length with
  | none => none
  | some j => some (bucket.getD j 0, swapRemove bucket j)

/-- A clause is entered in the hash table: drup_trim.rs:144-145 -/
def enter (tb : Int → Option (List Nat)) (h : Int) (i : Nat) : Int → Option (List Nat) := put tb h (some ((tb h).getD [] ++ [i]))

/-- The hash table for the clauses of the problem. -/
def tableOf (hash : List Int → Int) : List (List Int) → Nat → (Int → Option (List Nat)) → Int → Option (List Nat)
  | [], _, tb => tb
  | c :: cs, i, tb => tableOf hash cs (i + 1) (enter tb (hash c) i)

/-- The proof: drup_trim.rs:104-171 from `n_zeros = 0` on.  The lemmas with the deletions before each (those before the first are never looked at) are returned if the proof has an
empty lemma; without one `self.lemmas` points behind the clauses. -/
def parseProof (hash : List Int → Int) : List (List Int) → T → (Int → Option (List Nat)) → List Nat → List (List Nat × Nat) → Option (T × Option (List (List Nat × Nat)))
  | [], S, _, _, _ => some (S, none)
  | [] :: _, _, _, _, _ => none
  | (h :: c) :: ps, S, tb, ds, acc =>
    if h = -1 then
      match (tb (hash c)).bind fun bucket => matchClause S.cl bucket c with
      | none => none
      | some (i, bucket) => parseProof hash ps S (put tb (hash c) (some bucket)) (ds ++ [i]) acc
    else
      let S' : T := { S with cl := put S.cl S.num c, num := S.num + 1 }
      if c = [] then some (S', some (acc ++ [(if acc = [] then [] else ds, S.num)]))
      else parseProof hash ps S' (enter tb (hash c) S.num) [] (acc ++ [(if acc = [] then [] else ds, S.num)])

/-! ### `verify` -/

/-- One literal of a lemma is looked at: drup_trim.rs:213-226; the clause, the buffer and the flag -/
def reorderStep (fals : Int → Nat) (r : List Int × List Int × Bool) (j : Nat) : List Int × List Int × Bool :=
  let lit := r.1.getD j 0
  let flag := r.2.2 || fals (-lit) != 0
  if fals lit = 0 then
    (if r.2.1.length ≤ 1 then (r.1.set j (r.1.getD r.2.1.length 0)).set r.2.1.length lit else r.1, r.2.1 ++ [lit], flag)
  else (r.1, r.2.1, flag)

/-- The literals of a lemma are looked at: drup_trim.rs:213-226 -/
def reorder (fals : Int → Nat) (c : List Int) : List Int × List Int × Bool := (List.range c.length).foldl (reorderStep fals) (c, [], false)

/-- Deletions in the first pass: drup_trim.rs:196-211 -/
def delAll : List Nat → T → Option T
  | [], S => some S
  | c :: ds, S =>
    match S.cl c with
    | a :: _ :: _ => if S.reason a.natAbs = some c then delAll ds S else (removeWatches c S).bind (delAll ds)
    | _ => delAll ds S

/-- Deletions are undone in the second pass, the last one first: drup_trim.rs:262-277 -/
def undoAll : List Nat → T → T
  | [], S => S
  | c :: ds, S =>
    match (undoAll ds S).cl c with
    | a :: _ :: _ => if (undoAll ds S).reason a.natAbs = some c then undoAll ds S else addWatches c (undoAll ds S)
    | _ => undoAll ds S

/-- A lemma that the first pass has looked at: the deletions before it, its number, and whether it was satisfied (its entry in `adlist` is set to zero). -/
structure Step where
  dels : List Nat
  k : Nat
  sat : Bool

/-- The first pass: drup_trim.rs:191-257.  Returns the lemmas up to the conflict, the last one first. -/
def forward (fuel : Nat) : List (List Nat × Nat) → List Step → T → Option (List Step × T)
  | [], _, _ => none
  | (ds, k) :: ls, done, S =>
    match delAll ds S with
    | none => none
    | some S =>
      let r := reorder S.fals (S.cl k)
      let S' := addWatches k { S with cl := put S.cl k r.1 }
      if r.2.2 then forward fuel ls (⟨ds, k, true⟩ :: done) S'
      else
        match r.2.1 with
        | [] => none
        | [e] =>
          match propagate fuel { assign e S' with reason := put S'.reason e.natAbs (some k), forced := S'.processed } with
          | none => none
          | some (S, true) => forward fuel ls (⟨ds, k, false⟩ :: done) S
          | some (S, false) => some (⟨ds, k, false⟩ :: done, { S with forced := S.processed })
        | _ => forward fuel ls (⟨ds, k, false⟩ :: done) S'

/-- The literals after a lemma and its own are taken back: drup_trim.rs:300-310 -/
def trim (b : Int) : Nat → T → Option T
  | 0, _ => none
  | p + 1, S =>
    match S.stack[p]? with
    | none => none
    | some x =>
      if x = -b then some { S with fals := put S.fals x 0, forced := p, processed := p, stack := S.stack.take p }
      else trim b p { S with fals := put S.fals x 0 }

/-- A literal of the lemma is assumed false: drup_trim.rs:313-316 -/
def assume (S : T) (b : Int) : T := { assign (-b) S with reason := put S.reason b.natAbs none }

/-- The check of a lemma: drup_trim.rs:288-319 -/
def check (fuel : Nat) (k : Nat) (flag : Bool) (S : T) : Option (Bool × T) :=
  let buf := (S.cl k).filter fun x => S.fals x == 0
  let flag := flag || (S.cl k).any fun x => S.fals (-x) != 0
  match (if flag = true ∧ buf.length = 1 then trim (buf.headD 0) S.forced S else some S) with
  | none => none
  | some S =>
    if S.mark k then
      match propagate fuel (buf.foldl assume S) with
      | some (S, false) => some (flag, S)
      | _ => none
    else some (flag, S)

/-- The second pass: drup_trim.rs:259-328 -/
def backward (fuel : Nat) : List Step → Bool → T → Option T
  | [], _, S => some S
  | ⟨ds, k, sat⟩ :: done, flag, S =>
    match removeWatches k S with
    | none => none
    | some S =>
      match (if sat then some (flag, S) else check fuel k flag S) with
      | none => none
      | some (flag, S) => if done.isEmpty then some S else backward fuel done flag (undoAll ds S)

/-- `verify`, drup_trim.rs:176-329, up to the collection of the core -/
def verify (fuel : Nat) (ls : Option (List (List Nat × Nat))) (S : T) : Option T :=
  match (if S.processed < S.stack.length then propagate fuel S else some (S, true)) with
  | none => none
  | some (S, false) => some S
  | some (S, true) =>
    match ls with
    | none => none
    | some ls =>
      match forward fuel ls [] { S with forced := S.processed } with
      | none => none
      | some (done, S) => backward fuel done false S

/-- `drup_compute`, drup_trim.rs:32-39, with the collection of the core, 341-357 (the other two loops only count).  Without clauses the proof is not read (104-111).  The hash function `get_hash`, 529-540, is a parameter.  `some none`
is the result `trivial_unsat`. -/
def drup (hash : List Int → Int) (fuel : Nat) (orig proof : List (List Int)) : Option (Option (List (List Int))) :=
  match parseOrig orig T.init with
  | none => some none
  | some S =>
    match (if orig = [] then some (S, none) else parseProof hash proof S (tableOf hash orig 0 fun _ => none) [] []) with
    | none => none
    | some (S, ls) => (verify fuel ls S).map fun S' => some (((List.range (if ls.isSome then orig.length else S.num)).filter S'.mark).map S'.cl)

end Verif.Drup
