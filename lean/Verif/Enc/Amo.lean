import Verif.Enc.Base
/-
Model of the at-most-one encoders, src/cardinality_constraints/cc_amo_*.rs.

Non-termination is visible in the model: the recursive encoders take fuel and return
`none` when it runs out; `none` for every fuel means the Rust function does not return
(stack overflow or endless loop).  The literal lists passed to the builders have at least
two elements (`CcEncoder::amo` returns early otherwise).
-/
namespace Verif

instance : Inhabited Var := ⟨.aux .tmp 0⟩
instance : Inhabited Lit := ⟨⟨default, true⟩⟩

/-- Indexing `l[i]`; the Rust code panics out of range, all uses below are in range. -/
def _root_.List.nth {α} [Inhabited α] (l : List α) (i : Nat) : α := l.getD i default

/-- The double loop `for i { for j in i+1.. { add_clause([¬l_i, ¬l_j]) } }`:
cc_amo_pure.rs:6-12, cc_amo_product.rs:42-48, cc_amo_commander.rs:50-56,
cc_amo_bimander.rs:71-77, cc_amo_nested.rs:12-16. -/
def pairNeg : List Lit → List Clause
  | [] => []
  | a :: l => l.map (fun b => [a.neg, b.neg]) ++ pairNeg l

/-- `build_amo_pure`, cc_amo_pure.rs:6-12. -/
def amoPure (vars : List Var) (s : ER) : ER := s.addClauses (pairNeg (vars.map Var.p))

/-- `build_amo_ladder`, cc_amo_ladder.rs:6-20 (for `vars.len() ≥ 2`; panics below, see `amo`). -/
def amoLadder (vars : List Var) (s : ER) : ER :=
  let n := vars.length
  let (aux, s) := s.newAuxs .cc (n - 1)
  s.addClauses <| (List.range n).flatMap fun i =>
    if i = 0 then [[(vars.nth i).n, (aux.nth 0).p]]
    else if i = n - 1 then [[(vars.nth i).n, (aux.nth (i-1)).n]]
    else [[(vars.nth i).n, (aux.nth i).p], [(aux.nth (i-1)).n, (aux.nth i).p], [(vars.nth i).n, (aux.nth (i-1)).n]]

/-- `(n as f64).sqrt().ceil()`: least `p` with `n ≤ p*p`; floating point rounding is not
modelled (exact for n below 2^52). -/
def ceilSqrt (n : Nat) : Nat := (List.range (n + 1)).findIdx (fun p => decide (n ≤ p * p))

/-- `(n as f64).sqrt() as usize`: largest `r` with `r*r ≤ n`; rounding not modelled. -/
def floorSqrt (n : Nat) : Nat := ceilSqrt (n + 1) - 1

/-- `(a as f64 / b as f64).ceil()`, with `0/0 = NaN`, cast to 0. -/
def ceilDiv (a b : Nat) : Nat := (a + b - 1) / b

/-- The final double loop of `product_rec`, cc_amo_product.rs:31-39. -/
def productClauses (p q : Nat) (vars us vs : List Var) : List Clause :=
  (List.range p).flatMap fun i => (List.range q).flatMap fun j =>
    if i * q + j < vars.length then
      [[(vars.nth (i * q + j)).n, (us.nth i).p], [(vars.nth (i * q + j)).n, (vs.nth j).p]]
    else []

/-- `product_rec`, cc_amo_product.rs:13-40. -/
def productRec (rb : Nat) : Nat → List Var → ER → Option ER
  | 0, _, _ => none
  | fuel + 1, vars, s =>
    let p := ceilSqrt vars.length
    let q := ceilDiv vars.length p
    let (us, s) := s.newAuxs .cc p
    let (vs, s) := s.newAuxs .cc q
    (if p ≤ rb then some (amoPure us s) else productRec rb fuel us s).bind fun s =>
    (if q ≤ rb then some (amoPure vs s) else productRec rb fuel vs s).bind fun s =>
    some (s.addClauses (productClauses p q vars us vs))

/-- `encode_intern` of the nested encoding, cc_amo_nested.rs:10-28. -/
def nestedRec (gs : Nat) : Nat → List Lit → ER → Option ER
  | 0, _, _ => none
  | fuel + 1, ls, s =>
    if ls.length < gs then some (s.addClauses (pairNeg ls))
    else
      let (nv, s) := s.newAuxs .cc 1
      let split := ls.length / 2
      let l2 := ls.drop split ++ [(nv.nth 0).n]
      let l1 := ls.take split ++ [(nv.nth 0).p]
      (nestedRec gs fuel l1 s).bind fun s => nestedRec gs fuel l2 s

/-- `build_amo_nested`, cc_amo_nested.rs:6-8. -/
def amoNested (gs fuel : Nat) (vars : List Var) (s : ER) : Option ER := nestedRec gs fuel (vars.map Var.p) s

/-- One group of the commander encoding, cc_amo_commander.rs:27-37.  Returns the literal
pushed to `next_literals`. -/
def commanderGroup (eo : Bool) (g : List Lit) (s : ER) : Lit × ER :=
  let s := s.addClauses (pairNeg g)
  let (nv, s) := s.newAuxs .cc 1
  let s := if eo then s.addClauses [g ++ [(nv.nth 0).p]] else s
  let s := s.addClauses (g.map fun l => [(nv.nth 0).n, l.neg])
  ((nv.nth 0).n, s)

/-- The grouping done by `(i % k) == k-1 || i == len-1`, cc_amo_commander.rs:24-26:
consecutive chunks of length `k` (fuel is the length of the list). -/
def chunks (k : Nat) : Nat → List Lit → List (List Lit)
  | 0, _ => []
  | fuel + 1, l => if l.isEmpty then [] else l.take k :: chunks k fuel (l.drop k)

/-- The `for` loop over the groups, cc_amo_commander.rs:24-39. -/
def commanderLevel (eo : Bool) : List (List Lit) → ER → List Lit × ER
  | [], s => ([], s)
  | g :: gs, s =>
    let (l, s) := commanderGroup eo g s
    let (ls, s) := commanderLevel eo gs s
    (l :: ls, s)

/-- The `while` loop and the code after it, cc_amo_commander.rs:20-48 (for `k ≥ 1`;
`k = 0` panics at `i % k`). -/
def commanderLoop (k : Nat) : Nat → Bool → List Lit → ER → Option ER
  | 0, _, _, _ => none
  | fuel + 1, eo, cur, s =>
    if k < cur.length then
      let (next, s) := commanderLevel eo (chunks k cur.length cur) s
      commanderLoop k fuel true next s
    else
      let s := s.addClauses (pairNeg cur)
      some (if eo && !cur.isEmpty then s.addClauses [cur] else s)

/-- `build_amo_commander`, cc_amo_commander.rs:6-11. -/
def amoCommander (k fuel : Nat) (vars : List Var) (s : ER) : Option ER :=
  commanderLoop k fuel false (vars.map Var.p) s

/-- `i ^ (i >> 1)`. -/
def gray (i : Nat) : Nat := i ^^^ (i >>> 1)

/-- `(m as f64).log2().ceil()`; rounding not modelled. -/
def clog2 (m : Nat) : Nat := if m ≤ 1 then 0 else Nat.log2 (m - 1) + 1

/-- The bit constraints `(j, value)` written for group/variable number `index`; the two
`while` loops of cc_amo_binary.rs:15-46 and cc_amo_bimander.rs:15-38 in closed form: in the
first loop (`i < k`) variable `index` is handled at `i = 2*index`, in the second at
`i = index + k/2`. -/
def grayCons (nbits k index : Nat) : List (Nat × Bool) :=
  if 2 * index < k then
    (List.range nbits).filterMap fun j =>
      if (gray (2 * index)).testBit j = (gray (2 * index + 1)).testBit j
      then some (j, (gray (2 * index)).testBit j) else none
  else (List.range nbits).map fun j => (j, (gray (index + k / 2)).testBit j)

/-- Clauses tying the groups to the bits, `handle_gray_code` cc_amo_bimander.rs:79-84
and the bodies in cc_amo_binary.rs:26-30,39-43 (groups of one variable). -/
def grayClauses (nbits k : Nat) (bits : List Var) (groups : List (List Lit)) : List Clause :=
  (List.range groups.length).flatMap fun index =>
    (grayCons nbits k index).flatMap fun jb =>
      (groups.nth index).map fun p => [p.neg, ⟨(bits.nth (jb.1)), jb.2⟩]

/-- `build_amo_binary`, cc_amo_binary.rs:8-47. -/
def amoBinary (vars : List Var) (s : ER) : ER :=
  let nb := clog2 vars.length
  let k := (2 ^ nb - vars.length) * 2
  let (bits, s) := s.newAuxs .cc nb
  s.addClauses (grayClauses nb k bits (vars.map fun v => [v.p]))

/-- `initialize_groups`, cc_amo_bimander.rs:41-61: with `m` groups left and the literals `l`
left, the next group takes `⌈|l| / m⌉` literals. -/
def splitGroups : Nat → List Lit → List (List Lit)
  | 0, _ => []
  | m + 1, l => l.take (ceilDiv l.length (m + 1)) :: splitGroups m (l.drop (ceilDiv l.length (m + 1)))

/-- `build_amo_bimander`, cc_amo_bimander.rs:8-39 (for `m ≥ 1`; `m = 0` panics). -/
def amoBimander (m : Nat) (vars : List Var) (s : ER) : ER :=
  let groups := splitGroups m (vars.map Var.p)
  let s := s.addClauses (groups.flatMap pairNeg)
  let nb := clog2 m
  let k := (2 ^ nb - m) * 2
  let (bits, s) := s.newAuxs .cc nb
  s.addClauses (grayClauses nb k bits groups)

/-- `AmoEncoder` with its parameters, cc_config.rs; `BimanderGroupSize` likewise. -/
inductive AmoCfg
  | pure | ladder | product (rb : Nat) | nested (gs : Nat) | commander (gs : Nat)
  | binary | bimanderFixed (m : Nat) | bimanderHalf | bimanderSqrt | best
  deriving DecidableEq, Repr

/-- Outcome of an encoder call. -/
inductive Out (α : Type)
  | ok (a : α)
  | panic
  | diverge

/-- `CcEncoder::amo`, cc_encoder.rs:99-127.  `diverge` when the given fuel is not enough. -/
def amo (cfg : AmoCfg) (fuel : Nat) (vars : List Var) (s : ER) : Out ER :=
  let lift : Option ER → Out ER := fun o => match o with | some s => .ok s | none => .diverge
  if vars.length ≤ 1 then .ok s
  else match cfg with
    | .pure => .ok (amoPure vars s)
    | .ladder => .ok (amoLadder vars s)
    | .product rb => lift (productRec rb fuel vars s)
    | .nested gs => lift (amoNested gs fuel vars s)
    | .commander gs => if gs = 0 then .panic else lift (amoCommander gs fuel vars s)
    | .binary => .ok (amoBinary vars s)
    | .bimanderFixed m => if m = 0 then .panic else .ok (amoBimander m vars s)
    | .bimanderHalf => .ok (amoBimander (vars.length / 2) vars s)
    | .bimanderSqrt => .ok (amoBimander (floorSqrt vars.length) vars s)
    | .best => if vars.length ≤ 10 then .ok (amoPure vars s) else lift (productRec 20 fuel vars s)

end Verif
