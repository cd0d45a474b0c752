import Verif.Enc.Totalizer
/-
Model of the modular totalizer, src/cardinality_constraints/cc_modular_totalizer.rs.
`none` stands for a panic (failed `assert!`, `unwrap` on `None`, index out of bounds).
-/
namespace Verif
open ER

/-- The placeholder literal `Variable::Aux(TMP, 0).pos_lit()`, cc_modular_totalizer.rs:78. -/
def h0 : Lit := (Var.aux .tmp 0).p

/-- `k` new auxiliary literals. -/
def newLits (k : Nat) (s : ER) : List Lit × ER := ((s.newAuxs .cc k).1.map Var.p, (s.newAuxs .cc k).2)

/-- One half of a node, cc_modular_totalizer.rs:115-129 resp. 131-144: upper and lower
literals of the half, remaining input literals (reversed stack), `none` if the assertion
that there is an input literal fails. -/
def modSide (md k : Nat) (st : List Lit) (s : ER) : Option (List Lit × List Lit × List Lit × ER) :=
  if k = 1 then
    match st with
    | [] => none
    | x :: st => some ([h0], [x], st, s)
  else
    let left := k / md
    let (u, s) := newLits left s
    let limit := if left % md = 0 ∧ k < md - 1 then k else md - 1
    let (w, s) := newLits limit s
    some (u, w, st, s)

/-- cc_modular_totalizer.rs:146-151. -/
def orH0 (u : List Lit) : List Lit := if u.isEmpty then [h0] else u

/-- One iteration `(i, j)` of the double loop in `adder`, cc_modular_totalizer.rs:184-217. -/
def lowPair (md : Nat) (W LL RL : List Lit) (carry : Option Lit) (crhs i j : Nat) : List Clause :=
  if i + j > crhs + 1 ∧ crhs + 1 < md then []
  else if i + j < md then
    if i = 0 ∧ j ≠ 0 then [[(RL.nth (j - 1)).neg, W.nth (i + j - 1)] ++ carry.toList]
    else if j = 0 ∧ i ≠ 0 then [[(LL.nth (i - 1)).neg, W.nth (i + j - 1)] ++ carry.toList]
    else if i ≠ 0 then [[(LL.nth (i - 1)).neg, (RL.nth (j - 1)).neg, W.nth (i + j - 1)] ++ carry.toList]
    else []
  else if i + j > md then [[(LL.nth (i - 1)).neg, (RL.nth (j - 1)).neg, W.nth ((i + j) % md - 1)]]
  else [[(LL.nth (i - 1)).neg, (RL.nth (j - 1)).neg] ++ carry.toList]

/-- Does iteration `(i, j)` of that loop panic? (index out of bounds, underflow, `carry.unwrap()`) -/
def lowPanic (md : Nat) (W : List Lit) (carry : Option Lit) (crhs i j : Nat) : Bool :=
  if i + j > crhs + 1 ∧ crhs + 1 < md then false
  else if i + j < md then decide (0 < i + j ∧ W.length ≤ i + j - 1)
  else if i + j > md then decide (i = 0 ∨ j = 0 ∨ (i + j) % md = 0 ∨ W.length ≤ (i + j) % md - 1)
  else decide (i = 0 ∨ j = 0) || carry.isNone

/-- One iteration `(i, j)` of `final_adder`, cc_modular_totalizer.rs:236-273, after the
presence of the four literals has been determined. -/
def finalClauses (a b c d : Option Lit) (carry : Lit) : List Clause :=
  (if c.isSome ∧ (a.isSome ∨ b.isSome) then [a.toList.map Lit.neg ++ b.toList.map Lit.neg ++ c.toList] else []) ++
  (if a.isSome ∨ b.isSome ∨ d.isSome then
    [carry.neg :: (a.toList.map Lit.neg ++ b.toList.map Lit.neg ++ d.toList)] else [])

/-- `x.is_some() && x.unwrap() != h0`. -/
def present (x : Option Lit) : Option Lit := x.filter (fun l => decide (l ≠ h0))

/-- One iteration of `final_adder`, cc_modular_totalizer.rs:236-273. -/
def finalPair (md : Nat) (U LU RU : List Lit) (carry : Lit) (crhs i j : Nat) : List Clause :=
  let closeMod := crhs / md + (if crhs % md = 0 then 0 else 1)
  if md * (i + j) > closeMod * md then []
  else
    finalClauses (present (if i = 0 then none else some (LU.nth (i - 1))))
      (present (if j = 0 then none else some (RU.nth (j - 1))))
      (present (if i + j ≠ 0 ∧ i + j - 1 < U.length then some (U.nth (i + j - 1)) else none))
      (present (if i + j < U.length then some (U.nth (i + j)) else none)) carry

def lowAll (md : Nat) (W LL RL : List Lit) (carry : Option Lit) (crhs : Nat) : List Clause :=
  (List.range (LL.length + 1)).flatMap fun i => (List.range (RL.length + 1)).flatMap fun j =>
    lowPair md W LL RL carry crhs i j

def finalAll (md : Nat) (U LU RU : List Lit) (carry : Lit) (crhs : Nat) : List Clause :=
  (List.range (LU.length + 1)).flatMap fun i => (List.range (RU.length + 1)).flatMap fun j =>
    finalPair md U LU RU carry crhs i j

/-- `adder`, cc_modular_totalizer.rs:165-222. -/
def modAdder (md : Nat) (U W LU LL RU RL : List Lit) (crhs : Nat) (s : ER) : Option ER :=
  if U.isEmpty ∨ ¬ (W.length ≥ LL.length ∧ W.length ≥ RL.length) then none
  else if U.nth 0 = h0 then
    if (List.range (LL.length + 1)).any fun i => (List.range (RL.length + 1)).any fun j =>
      lowPanic md W none crhs i j then none
    else some (s.addClauses (lowAll md W LL RL none crhs))
  else
    let (cs, s) := newLits 1 s
    let carry := cs.nth 0
    if (List.range (LL.length + 1)).any fun i => (List.range (RL.length + 1)).any fun j =>
      lowPanic md W (some carry) crhs i j then none
    else
      some ((s.addClauses (lowAll md W LL RL (some carry) crhs)).addClauses (finalAll md U LU RU carry crhs))

/-- `to_cnf`, cc_modular_totalizer.rs:97-162; fuel bounds the recursion depth (`n` suffices).
Note `left * md + split - left * md = split`. -/
def modCnf (md crhs : Nat) : Nat → List Lit → List Lit → Nat → List Lit → ER → Option (List Lit × ER)
  | 0, _, _, _, _, _ => none
  | fuel + 1, U, W, n, st, s =>
    if ¬ n > 1 then none else
    let split := n / 2
    (modSide md split st s).bind fun (lu, ll, st, s) =>
    (modSide md (n - split) st s).bind fun (ru, rl, st, s) =>
    (modAdder md U W (orH0 ru) rl (orH0 lu) ll crhs s).bind fun s =>
    (if split > 1 then modCnf md crhs fuel (orH0 lu) ll split st s else some (st, s)).bind fun (st, s) =>
    if n - split > 1 then modCnf md crhs fuel (orH0 ru) rl (n - split) st s else some (st, s)

/-- Clauses bounding the outputs: `encode_output`, cc_modular_totalizer.rs:278-305, and
`add_modular_totalizer_constraints`, cc_incremental_data.rs:138-153 (same clauses). -/
def modBound (rhs md : Nat) (U W : List Lit) : List Clause :=
  let ul := (rhs + 1) / md
  let ll := (rhs + 1) - ul * md
  (U.drop ul).map (fun l => [l.neg]) ++
  (if ul ≠ 0 ∧ ll ≠ 0 then (W.drop (ll - 1)).map (fun l => [(U.nth (ul - 1)).neg, l.neg])
   else if ul = 0 then (W.drop (ll - 1)).map (fun l => [l.neg])
   else [[(U.nth (ul - 1)).neg]])

/-- The assertions in these two functions (and `llimit - 1` not underflowing). -/
def modBoundPanic (rhs md : Nat) (U W : List Lit) : Bool :=
  let ul := (rhs + 1) / md
  let ll := (rhs + 1) - ul * md
  ¬ (ul ≤ U.length) ∨ ¬ (ll ≤ W.length) ∨ (ul = 0 ∧ ll = 0)

/-- `initialize` 77-94, then `to_cnf` and `encode_output` as in `build_amk` 20-43 and
`build_alk` 45-75, for a list of input literals; `sqrt` as exact integer square root.
Returns the output vectors and the modulus kept as incremental data. -/
def modBuild (ins : List Lit) (rhs : Nat) (s : ER) : Option ((List Lit × List Lit × Nat) × ER) :=
  let md := ceilSqrt (rhs + 1)
  let (U, s) := newLits (ins.length / md) s
  let (W, s) := newLits (md - 1) s
  (modCnf md (rhs + 1) ins.length (orH0 U) W ins.length ins.reverse s).bind fun (st, s) =>
  if ¬ st.isEmpty ∨ modBoundPanic rhs md (orH0 U) W then none
  else some ((orH0 U, W, md), s.addClauses (modBound rhs md (orH0 U) W))

/-- `build_amk`, cc_modular_totalizer.rs:20-43. -/
def modAmk (vars : List Var) (rhs : Nat) (s : ER) : Option ((List Lit × List Lit × Nat) × ER) :=
  modBuild (vars.map Var.p) rhs s

/-- `build_alk`, cc_modular_totalizer.rs:45-75. -/
def modAlk (vars : List Var) (rhs : Nat) (s : ER) : Option ((List Lit × List Lit × Nat) × ER) :=
  modBuild (vars.map Var.n) (vars.length - rhs) s

/-! ### Lemmas -/

/-- Helper notion: `s'` guarantees `P`; `Q` guarantees that `s'` can be satisfied. -/
structure Step (s s' : ER) (P Q : Asg → Prop) : Prop where
  le : Le s s'
  wf : Wf s'
  sound : ∀ σ, Sat σ s' → P σ
  compl : ∀ σ, Sat σ s → Q σ → ∃ σ', Agree s σ σ' ∧ Sat σ' s'

/-- Soundness of an output pair: it represents at least `min count crhs`. -/
def MSnd (md crhs q : Nat) (U W ins : List Lit) (σ : Asg) : Prop :=
  ∃ u w, u ≤ q ∧ w ≤ W.length ∧ (∀ k, k < u → (U.nth k).eval σ = true) ∧ (∀ k, k < w → (W.nth k).eval σ = true) ∧
    min (cntL σ ins) crhs ≤ u * md + w

/-- The outputs represent quotient and remainder of a number. -/
def MEx (md q : Nat) (U W : List Lit) (N : Nat) (σ : Asg) : Prop :=
  (∀ k, k < q → (U.nth k).eval σ = decide (k + 1 ≤ N / md)) ∧
  (∀ k, k < W.length → (W.nth k).eval σ = decide (k + 1 ≤ N % md))

theorem lowPair_true {md W LL RL carry crhs i j} {σ : Asg} (hskip : ¬ (i + j > crhs + 1 ∧ crhs + 1 < md))
    (h : ∀ c ∈ lowPair md W LL RL carry crhs i j, Clause.Sat σ c)
    (hL : i ≠ 0 → (LL.nth (i - 1)).eval σ = true) (hR : j ≠ 0 → (RL.nth (j - 1)).eval σ = true) :
    (1 ≤ i + j → i + j < md → (W.nth (i + j - 1)).eval σ = true ∨ ∃ c ∈ carry, c.eval σ = true) ∧
    (1 ≤ i → 1 ≤ j → i + j = md → ∃ c ∈ carry, c.eval σ = true) ∧
    (1 ≤ i → 1 ≤ j → md < i + j → (W.nth ((i + j) % md - 1)).eval σ = true) := by
  unfold lowPair at h
  rw [if_neg hskip] at h
  refine ⟨?_, ?_, ?_⟩
  · intro h1 h2
    rw [if_pos h2] at h
    by_cases hi : i = 0
    · have hj : j ≠ 0 := by omega
      have hR := hR hj
      rw [if_pos ⟨hi, hj⟩] at h
      cases carry <;> simp_all
    · have hL := hL hi
      rw [if_neg (by omega)] at h
      by_cases hj : j = 0
      · rw [if_pos ⟨hj, hi⟩] at h
        cases carry <;> simp_all
      · have hR := hR hj
        rw [if_neg (by omega), if_pos hi] at h
        cases carry <;> simp_all
  · intro h1 h2 h3
    rw [if_neg (by omega), if_neg (by omega)] at h
    have hL := hL (by omega)
    have hR := hR (by omega)
    cases carry <;> simp_all
  · intro h1 h2 h3
    rw [if_neg (by omega), if_pos (by omega)] at h
    have hL := hL (by omega)
    have hR := hR (by omega)
    simp_all

theorem lowPair_sat {md W LL RL carry crhs i j} {σ : Asg}
    (h1 : (i ≠ 0 → (LL.nth (i - 1)).eval σ = true) → (j ≠ 0 → (RL.nth (j - 1)).eval σ = true) → 1 ≤ i + j → i + j < md →
      (W.nth (i + j - 1)).eval σ = true ∨ ∃ c ∈ carry, c.eval σ = true)
    (h2 : (LL.nth (i - 1)).eval σ = true → (RL.nth (j - 1)).eval σ = true → i + j = md → ∃ c ∈ carry, c.eval σ = true)
    (h3 : (LL.nth (i - 1)).eval σ = true → (RL.nth (j - 1)).eval σ = true → md < i + j →
      (W.nth ((i + j) % md - 1)).eval σ = true) :
    ∀ c ∈ lowPair md W LL RL carry crhs i j, Clause.Sat σ c := by
  unfold lowPair
  intro c hc
  split at hc
  · simp at hc
  split at hc
  · split at hc
    · rename_i hlt hij
      obtain ⟨rfl, hj⟩ := hij
      have := h1 (by simp)
      simp at hc; subst hc
      cases hx : (RL.nth (j - 1)).eval σ
      · simp [hx]
      · have := this (by simp [hx]) (by omega) hlt
        cases carry <;> simp_all
    · split at hc
      · rename_i hlt _ hij
        obtain ⟨rfl, hj⟩ := hij
        simp at hc; subst hc
        cases hx : (LL.nth (i - 1)).eval σ
        · simp [hx]
        · have := h1 (by simp [hx]) (by simp) (by omega) hlt
          cases carry <;> simp_all
      · split at hc
        · rename_i hlt h4 h5 hi
          have hj : j ≠ 0 := by omega
          simp at hc; subst hc
          cases hx : (LL.nth (i - 1)).eval σ
          · simp [hx]
          · cases hy : (RL.nth (j - 1)).eval σ
            · simp [hy]
            · have := h1 (by simp [hx]) (by simp [hy]) (by omega) hlt
              cases carry <;> simp_all
        · simp at hc
  · split at hc
    · rename_i hlt
      simp at hc; subst hc
      cases hx : (LL.nth (i - 1)).eval σ
      · simp [hx]
      · cases hy : (RL.nth (j - 1)).eval σ
        · simp [hy]
        · simp [h3 hx hy hlt]
    · rename_i hlt hgt
      simp at hc; subst hc
      cases hx : (LL.nth (i - 1)).eval σ
      · simp [hx]
      · cases hy : (RL.nth (j - 1)).eval σ
        · simp [hy]
        · have := h2 hx hy (by omega)
          cases carry <;> simp_all

theorem finalClauses_sat {a b c d : Option Lit} {carry : Lit} {σ : Asg} :
    (∀ x ∈ finalClauses a b c d carry, Clause.Sat σ x) ↔
    ((∀ x, c = some x → (a.isSome ∨ b.isSome) → (∀ y ∈ a, y.eval σ = true) → (∀ y ∈ b, y.eval σ = true) → x.eval σ = true) ∧
     (carry.eval σ = true → (a.isSome ∨ b.isSome ∨ d.isSome) → (∀ y ∈ a, y.eval σ = true) → (∀ y ∈ b, y.eval σ = true) →
        ∃ x, d = some x ∧ x.eval σ = true)) := by
  unfold finalClauses
  cases a <;> cases b <;> cases c <;> cases d <;> simp [or_imp, forall_and] <;> grind

theorem cntL_le (σ : Asg) (ls : List Lit) : cntL σ ls ≤ ls.length := List.countP_le_length

theorem divmod_add {md a b : Nat} (hmd : 0 < md) :
    (a % md + b % md < md → (a + b) / md = a / md + b / md ∧ (a + b) % md = a % md + b % md) ∧
    (md ≤ a % md + b % md → (a + b) / md = a / md + b / md + 1 ∧ (a + b) % md = a % md + b % md - md) := by
  have ha := Nat.div_add_mod a md
  have hb := Nat.div_add_mod b md
  have ha' := Nat.mod_lt a hmd
  have hb' := Nat.mod_lt b hmd
  have e : a + b = (a % md + b % md) + md * (a / md + b / md) := by
    rw [Nat.mul_add]; omega
  constructor
  · intro h
    rw [e, Nat.add_mul_div_left _ _ hmd, Nat.add_mul_mod_self_left, Nat.div_eq_of_lt h, Nat.mod_eq_of_lt h]
    constructor <;> omega
  · intro h
    have e2 : a + b = (a % md + b % md - md) + md * (a / md + b / md + 1) := by
      rw [Nat.mul_add, Nat.mul_add]; rw [Nat.mul_add] at e; omega
    rw [e2, Nat.add_mul_div_left _ _ hmd, Nat.add_mul_mod_self_left, Nat.div_eq_of_lt (by omega), Nat.mod_eq_of_lt (by omega)]
    constructor <;> omega

/-- Shape of the vectors of a node over `n` inputs; `q = n / md`. -/
structure MShape (md q n : Nat) (U W : List Lit) : Prop where
  up : if q = 0 then U = [h0] else U.length = q ∧ ∀ l ∈ U, l ≠ h0
  lo : min n (md - 1) ≤ W.length
  lo' : W.length ≤ md - 1

theorem MShape.ulen {md q n U W} (h : MShape md q n U W) : U.length = max 1 q := by
  have := h.up
  split at this
  · subst this; simp; omega
  · omega

theorem MShape.present {md q n U W} (h : MShape md q n U W) {i : Nat} (hi : i < U.length) :
    present (some (U.nth i)) = if q = 0 then none else some (U.nth i) := by
  have := h.up
  split at this
  · rename_i hq; subst this; simp at hi; subst hi; rw [if_pos hq]; rfl
  · rename_i hq
    rw [if_neg hq]
    simp [Verif.present, this.2 _ (getBang_mem hi)]

/-- Semantics of `final_adder`, forward direction. -/
theorem finalPair_true {md crhs q q1 q2 n n1 n2 : Nat} {U LU RU W LW RW : List Lit} {carry : Lit} {σ : Asg}
    (sU : MShape md q n U W) (s1 : MShape md q1 n1 LU LW) (s2 : MShape md q2 n2 RU RW) (hn : q ≠ 0) {i j : Nat}
    (hi : i ≤ q1) (hj : j ≤ q2)
    (hclose : i + j ≤ crhs / md + (if crhs % md = 0 then 0 else 1))
    (h : ∀ c ∈ finalPair md U LU RU carry crhs i j, Clause.Sat σ c)
    (hL : i ≠ 0 → (LU.nth (i - 1)).eval σ = true) (hR : j ≠ 0 → (RU.nth (j - 1)).eval σ = true) :
    (1 ≤ i + j → i + j ≤ q → (U.nth (i + j - 1)).eval σ = true) ∧
    (carry.eval σ = true → i + j < q ∧ (U.nth (i + j)).eval σ = true) := by
  unfold finalPair at h
  rw [if_neg (by rw [Nat.mul_comm]; exact Nat.not_lt.2 (Nat.mul_le_mul_right _ hclose)), finalClauses_sat] at h
  clear hclose
  have l1 := s1.ulen
  have l2 := s2.ulen
  have lU := sU.ulen
  have pa : Verif.present (if i = 0 then none else some (LU.nth (i - 1))) = if i = 0 then none else some (LU.nth (i - 1)) := by
    split
    · rfl
    · rw [s1.present (by omega), if_neg (by omega)]
  have pb : Verif.present (if j = 0 then none else some (RU.nth (j - 1))) = if j = 0 then none else some (RU.nth (j - 1)) := by
    split
    · rfl
    · rw [s2.present (by omega), if_neg (by omega)]
  have ta : ∀ y ∈ (if i = 0 then none else some (LU.nth (i - 1))), y.eval σ = true := by
    intro y hy; split at hy
    · simp at hy
    · rename_i h0; simp at hy; subst hy; exact hL h0
  have tb : ∀ y ∈ (if j = 0 then none else some (RU.nth (j - 1))), y.eval σ = true := by
    intro y hy; split at hy
    · simp at hy
    · rename_i h0; simp at hy; subst hy; exact hR h0
  rw [pa, pb] at h
  constructor
  · intro h1 h2
    refine h.1 (U.nth (i + j - 1)) ?_ ?_ ta tb
    · rw [if_pos (by omega), sU.present (by omega), if_neg hn]
    · by_cases h0 : i = 0
      · right; rw [if_neg (by omega)]; rfl
      · left; rw [if_neg h0]; rfl
  · intro hc
    have := h.2 hc ?_ ta tb
    · obtain ⟨x, hx, hx'⟩ := this
      by_cases hlt : i + j < U.length
      · rw [if_pos hlt, sU.present hlt, if_neg hn] at hx
        simp at hx; subst hx
        exact ⟨by omega, hx'⟩
      · rw [if_neg hlt] at hx; simp [Verif.present] at hx
    · by_cases h0 : i = 0
      · by_cases h0' : j = 0
        · right; right; rw [if_pos (by omega), sU.present (by omega), if_neg hn]; rfl
        · right; left; rw [if_neg h0']; rfl
      · left; rw [if_neg h0]; rfl

/-- Semantics of `final_adder`, backward direction, for exact children. -/
theorem finalPair_compl {md crhs q q1 q2 n n1 n2 Q Q1 Q2 : Nat} {U LU RU W LW RW : List Lit} {carry : Lit} {σ : Asg}
    {C : Prop} [Decidable C]
    (sU : MShape md q n U W) (s1 : MShape md q1 n1 LU LW) (s2 : MShape md q2 n2 RU RW) (hn : q ≠ 0)
    (q12 : Q ≤ q) (dge : Q1 + Q2 ≤ Q) (dcarry : C → Q1 + Q2 + 1 ≤ Q) (small : q1 = 0 ∨ q2 = 0 → q ≤ 1) {i j : Nat}
    (hi : i ≤ LU.length) (hj : j ≤ RU.length)
    (h1 : ∀ k, k < q1 → (LU.nth k).eval σ = decide (k + 1 ≤ Q1))
    (h2 : ∀ k, k < q2 → (RU.nth k).eval σ = decide (k + 1 ≤ Q2))
    (hU : ∀ k, k < q → (U.nth k).eval σ = decide (k + 1 ≤ Q))
    (hc : carry.eval σ = decide C) :
    ∀ c ∈ finalPair md U LU RU carry crhs i j, Clause.Sat σ c := by
  unfold finalPair
  simp only
  generalize crhs / md + (if crhs % md = 0 then 0 else 1) = cm
  split
  · simp
  rename_i hdummy; clear hdummy
  rw [finalClauses_sat]
  have l1 := s1.ulen
  have l2 := s2.ulen
  have lU := sU.ulen
  have pU : ∀ k, k < U.length → Verif.present (some (U.nth k)) = some (U.nth k) := by
    intro k hk; rw [sU.present hk, if_neg hn]
  generalize ha : Verif.present (if i = 0 then none else some (LU.nth (i - 1))) = a
  generalize hb : Verif.present (if j = 0 then none else some (RU.nth (j - 1))) = b
  have ea : (a.isSome → i ≠ 0 ∧ q1 ≠ 0) ∧ (i ≠ 0 → q1 ≠ 0 → a = some (LU.nth (i - 1))) := by
    rw [← ha]
    by_cases h0 : i = 0
    · simp [h0, Verif.present]
    · rw [if_neg h0, s1.present (by omega)]
      by_cases h0' : q1 = 0 <;> simp [h0, h0']
  have eb : (b.isSome → j ≠ 0 ∧ q2 ≠ 0) ∧ (j ≠ 0 → q2 ≠ 0 → b = some (RU.nth (j - 1))) := by
    rw [← hb]
    by_cases h0 : j = 0
    · simp [h0, Verif.present]
    · rw [if_neg h0, s2.present (by omega)]
      by_cases h0' : q2 = 0 <;> simp [h0, h0']
  have na : (∀ y ∈ a, y.eval σ = true) → (i ≤ Q1 ∨ (i = 1 ∧ q1 = 0)) := by
    intro h
    by_cases h0 : i = 0
    · left; omega
    · by_cases h0' : q1 = 0
      · right; exact ⟨by omega, h0'⟩
      · left
        have := h _ (ea.2 h0 h0')
        rw [h1 _ (by omega)] at this; simp at this; omega
  have nb : (∀ y ∈ b, y.eval σ = true) → (j ≤ Q2 ∨ (j = 1 ∧ q2 = 0)) := by
    intro h
    by_cases h0 : j = 0
    · left; omega
    · by_cases h0' : q2 = 0
      · right; exact ⟨by omega, h0'⟩
      · left
        have := h _ (eb.2 h0 h0')
        rw [h2 _ (by omega)] at this; simp at this; omega
  constructor
  · intro x hx hab ta tb
    have hc' : i + j ≠ 0 ∧ i + j - 1 < U.length := by
      by_contra hcon
      rw [if_neg hcon] at hx; simp [Verif.present] at hx
    rw [if_pos hc', pU _ hc'.2] at hx
    simp at hx; subst hx
    rw [hU _ (by omega)]; simp only [decide_eq_true_eq]
    have na := na ta
    have nb := nb tb
    have hab' : (i ≠ 0 ∧ q1 ≠ 0) ∨ (j ≠ 0 ∧ q2 ≠ 0) := hab.imp ea.1 eb.1
    omega
  · intro hcarry hab ta tb
    rw [hc] at hcarry; simp only [decide_eq_true_eq] at hcarry
    have dcarry := dcarry hcarry
    have na := na ta
    have nb := nb tb
    have hlt : i + j < q ∧ i + j + 1 ≤ Q := by
      have hd : (Verif.present (if i + j < U.length then some (U.nth (i + j)) else none)).isSome → i + j < U.length := by
        split
        · rename_i h; intro _; exact h
        · intro h; simp [Verif.present] at h
      have hab' : (i ≠ 0 ∧ q1 ≠ 0) ∨ (j ≠ 0 ∧ q2 ≠ 0) ∨ i + j < U.length := hab.imp ea.1 (Or.imp eb.1 hd)
      omega
    refine ⟨U.nth (i + j), ?_, ?_⟩
    · rw [if_pos (by omega), pU _ (by omega)]
    · rw [hU _ hlt.1]; simp; omega

end Verif
