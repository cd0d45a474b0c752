import Verif.Bdd.Main
/-
Models and support of a BDD (bdd_operations.rs, bdd_main.rs 57-76, 156-167, 213-236).
-/
namespace Verif
namespace Bdd
open ER

variable {V : Type}

namespace Kernel

/-- `make_node` followed by `push_ref`. -/
def mkPush (v lo hi : Nat) (k : Kernel V) : Option (Nat × Kernel V) := (k.makeNode v lo hi).bind fun p => (p.2.push p.1).map fun k => (p.1, k)

/-- bdd_operations.rs 136-148. -/
def satOneRec : Nat → Nat → Kernel V → Option (Nat × Kernel V)
  | 0, _, _ => none
  | f + 1, r, k =>
    if r < 2 then some (r, k)
    else (k.low r).bind fun lo =>
      if lo = 0 then (satOneRec f (k.high r) k).bind fun p => p.2.mkPush (p.2.level r) 0 p.1
      else (satOneRec f lo k).bind fun p => p.2.mkPush (p.2.level r) p.1 0

/-- bdd_operations.rs 12-18. -/
def satOne (r : Nat) (k : Kernel V) : Option (Nat × Kernel V) := if r < 2 then some (r, k) else satOneRec (k.varnum + 1) r k.initRef

/-- bdd_operations.rs 150-184. -/
def satOneSetRec (dflt : Bool) : Nat → Nat → Nat → Kernel V → Option (Nat × Kernel V)
  | 0, _, _, _ => none
  | f + 1, r, var, k =>
    if r < 2 ∧ var < 2 then some (r, k)
    else if k.level r < k.level var then (k.low r).bind fun lo =>
      if lo = 0 then (satOneSetRec dflt f (k.high r) var k).bind fun p => p.2.mkPush (p.2.level r) 0 p.1
      else (satOneSetRec dflt f lo var k).bind fun p => p.2.mkPush (p.2.level r) p.1 0
    else if k.level r > k.level var then
      (satOneSetRec dflt f r (k.high var) k).bind fun p => if dflt then p.2.mkPush (p.2.level var) 0 p.1 else p.2.mkPush (p.2.level var) p.1 0
    else (k.low r).bind fun lo =>
      if lo = 0 then (satOneSetRec dflt f (k.high r) (k.high var) k).bind fun p => p.2.mkPush (p.2.level r) 0 p.1
      else (satOneSetRec dflt f lo (k.high var) k).bind fun p => p.2.mkPush (p.2.level r) p.1 0

/-- bdd_operations.rs 22-29. -/
def satOneSet (r var : Nat) (dflt : Bool) (k : Kernel V) : Option (Nat × Kernel V) := if r = 0 then some (r, k) else satOneSetRec dflt (k.varnum + 1) r var k.initRef

/-- The loops 192-197, 201-206 (`n` counts down to `v > l`) and 55-58. -/
def fillRec (l : Nat) : Nat → Nat → Kernel V → Option (Nat × Kernel V)
  | 0, res, k => some (res, k)
  | d + 1, res, k => (k.mkPush (l + d) res 0).bind fun p => fillRec l d p.1 p.2

/-- bdd_operations.rs 186-210.  The loop runs over the levels strictly between
the node and its child. -/
def fullSatOneRec : Nat → Nat → Kernel V → Option (Nat × Kernel V)
  | 0, _, _ => none
  | f + 1, r, k =>
    if r < 2 then some (r, k)
    else (k.low r).bind fun lo =>
      if lo = 0 then (fullSatOneRec f (k.high r) k).bind fun p => (fillRec (p.2.level r + 1) (p.2.level (p.2.high r) - 1 - p.2.level r) p.1 p.2).bind fun q => q.2.mkPush (q.2.level r) 0 q.1
      else (fullSatOneRec f lo k).bind fun p => (fillRec (p.2.level r + 1) (p.2.level lo - 1 - p.2.level r) p.1 p.2).bind fun q => q.2.mkPush (q.2.level r) q.1 0

/-- bdd_operations.rs 49-60. -/
def fullSatOne (r : Nat) (k : Kernel V) : Option (Nat × Kernel V) :=
  if r = 0 then some (0, k) else (fullSatOneRec (k.varnum + 1) r k.initRef).bind fun p => fillRec 0 (p.2.level r) p.1 p.2

end Kernel

/-- `create_model` 223-234 on the nodes found by `all_nodes` (bdd_operations.rs 33-46). -/
def nodesModel (k : Kernel Var) : List Nat → Option BModel
  | [] => some ⟨[], []⟩
  | n :: ns => (k.low n).bind fun lo => (nodesModel k ns).bind fun m => match k.idx[k.level n]? with
    | none => some m
    | some v => if lo = 0 then some { m with pos := v :: m.pos } else if k.high n = 0 then some { m with neg := v :: m.neg } else none

/-- `create_model`, bdd_main.rs 213-236: outer `none` is a panic. -/
def createModel (x : Nat) (k : Kernel Var) : Option (Option BModel) :=
  if x = 0 then some none
  else if x = 1 then some (some ⟨[], []⟩)
  else (k.mark (k.size + 1) (fun _ => false) x).bind fun m => (nodesModel k ((List.range k.size).filter fun n => m n)).map some

/-- `Bdd::model`, 57-60. -/
def modelH (r : Nat) (k : Kernel Var) : Option (Option BModel × Kernel Var) := (k.satOne r).bind fun p => (createModel p.1 p.2).map fun m => (m, p.2)

/-- `Bdd::full_model`, 73-76. -/
def fullModelH (r : Nat) (k : Kernel Var) : Option (Option BModel × Kernel Var) := (k.fullSatOne r).bind fun p => (createModel p.1 p.2).map fun m => (m, p.2)

/-- `Bdd::model_for_variables`, 65-70. -/
def modelForH (C : Canon) (cfg : FCfg) (r : Nat) (dflt : Bool) (vs : List Var) (s : BSt) : BR (Option BModel) :=
  bseq (fromLits C cfg (vs.map fun v => ⟨v, true⟩) s) fun x s => kop (fun k => (k.satOneSet r x dflt).bind fun p => (createModel p.1 p.2).map fun m => (m, p.2)) s

/-! ### Cubes -/

/-- The tree of a list of fixed levels. -/
def cube : List (Nat × Bool) → BT
  | [] => .leaf true
  | (v, b) :: L => if b then .node v (.leaf false) (cube L) else .node v (cube L) (.leaf false)

theorem cube_ne (L : List (Nat × Bool)) : cube L ≠ .leaf false := by
  cases L with
  | nil => simp [cube]
  | cons a L => obtain ⟨v, b⟩ := a; cases b <;> simp [cube]

theorem mk_cube (v : Nat) (b : Bool) (L : List (Nat × Bool)) : BT.mk v (if b then .leaf false else cube L) (if b then cube L else .leaf false) = cube ((v, b) :: L) := by
  unfold BT.mk
  have := cube_ne L
  cases b
  · simp only [Bool.false_eq_true, if_false]
    rw [if_neg this]; simp [cube]
  · simp only [if_true]
    rw [if_neg (Ne.symm this)]; simp [cube]

/-- `mkPush` on the reference stack. -/
theorem mkPush_ok {k : Kernel V} (hk : KInv k) {v lo hi : Nat} {tl th : BT} (hv : v < k.varnum) (dl : Den k lo tl) (dh : Den k hi th) (pl : Prot k lo) (ph : Prot k hi) (hcap : k.stack.length < k.cap) :
    ∃ y k', k.mkPush v lo hi = some (y, k') ∧ KInv k' ∧ Ge k k' ∧ k'.stack = y :: k.stack ∧ Den k' y (BT.mk v tl th) := by
  obtain ⟨y, k1, e, i1, kp, d⟩ := makeNode_ok hk.toInv hv dl dh pl ph
  have hk1 := hk.ge kp.toGe i1
  have ep : k1.push y = some { k1 with stack := y :: k1.stack } := push_eq (by rw [kp.stack, kp.cap]; exact hcap)
  refine ⟨y, _, by unfold Kernel.mkPush; rw [e]; simp only [Option.bind_some, ep, Option.map_some], push_inv hk1 (hk1.den_ok d), kp.toGe.trans (push_ge y), by show y :: k1.stack = _; rw [kp.stack], (tabEq_stack k1 _).dext _ _ d⟩

/-- State after building a cube with `n` new entries on the stack. -/
structure CubeOk (k : Kernel V) (n : Nat) (L : List (Nat × Bool)) (x : Nat) (k' : Kernel V) : Prop where
  inv : KInv k'
  ge : Ge k k'
  len : k'.stack.length = k.stack.length + n
  den : Den k' x (cube L)
  prot : Prot k' x

theorem CubeOk.cons {k k1 : Kernel V} {n x v : Nat} {L : List (Nat × Bool)} (h : CubeOk k n L x k1) (b : Bool) (hv : v < k.varnum) (hcap : k.stack.length + n < k.cap) :
    ∃ y k', k1.mkPush v (if b then 0 else x) (if b then x else 0) = some (y, k') ∧ CubeOk k (n + 1) ((v, b) :: L) y k' := by
  have p0 : Prot k1 0 := .const (by omega)
  have d0 : Den k1 0 (.leaf false) := .zero
  obtain ⟨y, k', e, i, g, s, d⟩ := mkPush_ok h.inv (v := v) (lo := if b then 0 else x) (hi := if b then x else 0) (tl := if b then .leaf false else cube L) (th := if b then cube L else .leaf false) (by rw [h.ge.varnum]; exact hv)
    (by cases b; exact h.den; exact d0) (by cases b; exact d0; exact h.den) (by cases b; exact h.prot; exact p0) (by cases b; exact p0; exact h.prot) (by rw [h.len, h.ge.cap]; exact hcap)
  rw [mk_cube] at d
  exact ⟨y, k', e, i, h.ge.trans g, by rw [s, List.length_cons, h.len]; omega, d, .stk (by rw [s]; simp)⟩

/-! ### One model -/

/-- The path found by `sat_one_rec`. -/
def oneL : BT → List (Nat × Bool)
  | .leaf _ => []
  | .node v lo hi => if lo = .leaf false then (v, true) :: oneL hi else (v, false) :: oneL lo

theorem oneL_len : ∀ t : BT, (oneL t).length ≤ t.depth
  | .leaf _ => by simp [oneL, BT.depth]
  | .node v lo hi => by
    have h1 := oneL_len lo
    have h2 := oneL_len hi
    unfold oneL BT.depth
    split <;> simp only [List.length_cons] <;> omega

theorem den_zero_iff {k : Kernel V} {n : Nat} {t : BT} (hd : Den k n t) : n = 0 ↔ t = .leaf false := by
  cases hd with
  | zero => simp
  | one => simp
  | node h2 => simp; omega

theorem child_ne {v : Nat} {lo hi : BT} (hr : (BT.node v lo hi).Red) (h : lo = .leaf false) : hi ≠ .leaf false := fun e => hr.1 (h.trans e.symm)

theorem satOneRec_ok : ∀ (f : Nat) (k : Kernel V) (r b : Nat) (t : BT), KInv k → Den k r t → BT.Ord k.varnum b t → Prot k r → t ≠ .leaf false → t.depth < f → k.stack.length + t.depth ≤ k.cap →
    ∃ x k', Kernel.satOneRec f r k = some (x, k') ∧ CubeOk k (oneL t).length (oneL t) x k' := by
  intro f
  induction f with
  | zero => intro k r b t _ _ _ _ _ h; omega
  | succ f ih =>
    intro k r b t hk hd ho hp hne hf hcap
    unfold Kernel.satOneRec
    have hred := hk.den_red hd
    have hd0 := hd
    cases hd with
    | zero => exact (hne rfl).elim
    | one => exact ⟨1, k, by simp, hk, .rfl, by simp [oneL], .one, hp⟩
    | @node _ lo tl th h2 hl dl dh =>
    rw [if_neg (by omega), hl, Option.bind_some]
    obtain ⟨_, hv, ol, oh⟩ := ho
    simp only [BT.depth] at hf hcap
    by_cases hz : lo = 0
    · have ez := (den_zero_iff dl).1 hz
      rw [if_pos hz]
      obtain ⟨x, k1, e1, c1⟩ := ih k (k.high r) _ th hk dh oh (.high hp h2 hl) (child_ne hred ez) (by omega) (by omega)
      rw [e1, Option.bind_some, (c1.ge.same r hp).1]
      have := oneL_len th
      obtain ⟨y, k2, e2, c2⟩ := c1.cons true hv (by omega)
      refine ⟨y, k2, e2, ?_⟩
      unfold oneL
      rw [if_pos ez, List.length_cons]
      exact c2
    · have ez : tl ≠ .leaf false := fun h => hz ((den_zero_iff dl).2 h)
      rw [if_neg hz]
      obtain ⟨x, k1, e1, c1⟩ := ih k lo _ tl hk dl ol (.low hp h2 hl) ez (by omega) (by omega)
      rw [e1, Option.bind_some, (c1.ge.same r hp).1]
      have := oneL_len tl
      obtain ⟨y, k2, e2, c2⟩ := c1.cons false hv (by omega)
      refine ⟨y, k2, e2, ?_⟩
      unfold oneL
      rw [if_neg ez, List.length_cons]
      exact c2

/-! ### A model of all variables -/

/-- The levels from `l` on, `d` of them, set to false. -/
def gapL (l d : Nat) : List (Nat × Bool) := (List.range' l d).map fun v => (v, false)

theorem gapL_succ (l d : Nat) (L : List (Nat × Bool)) : gapL l (d + 1) ++ L = gapL l d ++ (l + d, false) :: L := by
  unfold gapL
  rw [List.range'_1_concat]; simp

theorem fillRec_ok {k : Kernel V} (l : Nat) : ∀ (d : Nat) {n x : Nat} {L : List (Nat × Bool)} {k1 : Kernel V}, CubeOk k n L x k1 → l + d ≤ k.varnum → k.stack.length + n + d ≤ k.cap →
    ∃ y k', Kernel.fillRec l d x k1 = some (y, k') ∧ CubeOk k (n + d) (gapL l d ++ L) y k'
  | 0, n, x, L, k1, h, _, _ => ⟨x, k1, rfl, h⟩
  | d + 1, n, x, L, k1, h, hv, hcap => by
    obtain ⟨y, k2, e2, c2⟩ := h.cons false (v := l + d) (by omega) (by omega)
    obtain ⟨z, k3, e3, c3⟩ := fillRec_ok l d c2 (by omega) (by omega)
    refine ⟨z, k3, ?_, ?_⟩
    · unfold Kernel.fillRec
      rw [show k1.mkPush (l + d) x 0 = some (y, k2) from e2]
      exact e3
    · rw [gapL_succ, show n + (d + 1) = n + 1 + d by omega]
      exact c3

/-- The path found by `full_sat_one_rec`. -/
def fullL (nv : Nat) : BT → List (Nat × Bool)
  | .leaf _ => []
  | .node v lo hi => if lo = .leaf false then (v, true) :: (gapL (v + 1) (hi.level nv - 1 - v) ++ fullL nv hi) else (v, false) :: (gapL (v + 1) (lo.level nv - 1 - v) ++ fullL nv lo)

theorem gapL_len (l d : Nat) : (gapL l d).length = d := by simp [gapL]

theorem fullL_len {nv : Nat} : ∀ (t : BT) (b : Nat), BT.Ord nv b t → b ≤ nv → (fullL nv t).length + t.level nv = nv
  | .leaf _, _, _, _ => by simp [fullL, BT.level]
  | .node v lo hi, b, ho, hb => by
    obtain ⟨_, hv, ol, oh⟩ := ho
    have h1 := fullL_len lo _ ol (by omega)
    have h2 := fullL_len hi _ oh (by omega)
    have h3 := level_le ol (by omega)
    have h4 := level_le oh (by omega)
    show (fullL nv (.node v lo hi)).length + v = nv
    unfold fullL
    split <;> simp only [List.length_cons, List.length_append, gapL_len] <;> omega

theorem fullSatOneRec_ok : ∀ (f : Nat) (k : Kernel V) (r b : Nat) (t : BT), KInv k → Den k r t → BT.Ord k.varnum b t → b ≤ k.varnum → Prot k r → t ≠ .leaf false → t.depth < f → k.stack.length + (k.varnum - t.level k.varnum) ≤ k.cap →
    ∃ x k', Kernel.fullSatOneRec f r k = some (x, k') ∧ CubeOk k (fullL k.varnum t).length (fullL k.varnum t) x k' := by
  intro f
  induction f with
  | zero => intro k r b t _ _ _ _ _ _ h; omega
  | succ f ih =>
    intro k r b t hk hd ho hb hp hne hf hcap
    unfold Kernel.fullSatOneRec
    have hred := hk.den_red hd
    have hlen := fullL_len t b ho hb
    have hd0 := hd
    cases hd with
    | zero => exact (hne rfl).elim
    | one => exact ⟨1, k, by simp, hk, .rfl, by simp [fullL], .one, hp⟩
    | @node _ lo tl th h2 hl dl dh =>
    rw [if_neg (by omega), hl, Option.bind_some]
    obtain ⟨_, hv, ol, oh⟩ := ho
    have l1 := level_le ol (by omega)
    have l2 := level_le oh (by omega)
    simp only [BT.depth] at hf
    have hcap : k.stack.length + (k.varnum - k.level r) ≤ k.cap := hcap
    by_cases hz : lo = 0
    · have ez := (den_zero_iff dl).1 hz
      rw [if_pos hz]
      obtain ⟨x, k1, e1, c1⟩ := ih k (k.high r) _ th hk dh oh (by omega) (.high hp h2 hl) (child_ne hred ez) (by omega) (by omega)
      have len1 := fullL_len th _ oh (by omega)
      have hlv : k1.level (k.high r) = th.level k.varnum := by rw [(c1.ge.same _ (.high hp h2 hl)).1, hk.level dh]
      rw [e1, Option.bind_some, (c1.ge.same r hp).1, (c1.ge.same r hp).2.2, hlv]
      obtain ⟨y, k2, e2, c2⟩ := fillRec_ok (k.level r + 1) (th.level k.varnum - 1 - k.level r) c1 (by omega) (by omega)
      rw [e2, Option.bind_some, (c2.ge.same r hp).1]
      obtain ⟨z, k3, e3, c3⟩ := c2.cons true hv (by omega)
      refine ⟨z, k3, e3, ?_⟩
      unfold fullL
      rw [if_pos ez, List.length_cons, List.length_append, gapL_len, Nat.add_comm (_ - 1 - _)]
      exact c3
    · have ez : tl ≠ .leaf false := fun h => hz ((den_zero_iff dl).2 h)
      rw [if_neg hz]
      obtain ⟨x, k1, e1, c1⟩ := ih k lo _ tl hk dl ol (by omega) (.low hp h2 hl) ez (by omega) (by omega)
      have len1 := fullL_len tl _ ol (by omega)
      have hlv : k1.level lo = tl.level k.varnum := by rw [(c1.ge.same _ (.low hp h2 hl)).1, hk.level dl]
      rw [e1, Option.bind_some, (c1.ge.same r hp).1, hlv]
      obtain ⟨y, k2, e2, c2⟩ := fillRec_ok (k.level r + 1) (tl.level k.varnum - 1 - k.level r) c1 (by omega) (by omega)
      rw [e2, Option.bind_some, (c2.ge.same r hp).1]
      obtain ⟨z, k3, e3, c3⟩ := c2.cons false hv (by omega)
      refine ⟨z, k3, e3, ?_⟩
      unfold fullL
      rw [if_neg ez, List.length_cons, List.length_append, gapL_len, Nat.add_comm (_ - 1 - _)]
      exact c3

/-! ### A model of given variables -/

/-- The path found by `sat_one_set_rec`; `fuel` bounds both depths. -/
def setL (dflt : Bool) (nv : Nat) : Nat → BT → BT → List (Nat × Bool)
  | 0, _, _ => []
  | f + 1, t, s =>
    if t.level nv < s.level nv then match t with
      | .leaf _ => []
      | .node v lo hi => if lo = .leaf false then (v, true) :: setL dflt nv f hi s else (v, false) :: setL dflt nv f lo s
    else if t.level nv > s.level nv then match s with
      | .leaf _ => []
      | .node v _ hi => (v, dflt) :: setL dflt nv f t hi
    else match t, s with
      | .node v lo hi, .node _ _ s' => if lo = .leaf false then (v, true) :: setL dflt nv f hi s' else (v, false) :: setL dflt nv f lo s'
      | _, _ => []

theorem satOneSetRec_ok (dflt : Bool) : ∀ (f : Nat) (k : Kernel V) (r var b : Nat) (t s : BT), KInv k → Den k r t → Den k var s → BT.Ord k.varnum b t → BT.Ord k.varnum b s → b ≤ k.varnum → Prot k r → Prot k var → t ≠ .leaf false → k.varnum - b < f → k.stack.length + (k.varnum - b) ≤ k.cap →
    ∃ x k', Kernel.satOneSetRec dflt f r var k = some (x, k') ∧ (setL dflt k.varnum f t s).length ≤ k.varnum - b ∧ CubeOk k (setL dflt k.varnum f t s).length (setL dflt k.varnum f t s) x k' := by
  intro f
  induction f with
  | zero => intro k r var b t s _ _ _ _ _ _ _ _ _ h; omega
  | succ f ih =>
    intro k r var b t s hk hd hs ho hos hb hp hps hne hf hcap
    unfold Kernel.satOneSetRec
    have hred := hk.den_red hd
    have lt := hk.level hd
    have lv := hk.level hs
    have hlt := level_le ho hb
    have hlv := level_le hos hb
    by_cases hc : r < 2 ∧ var < 2
    · rw [if_pos hc]
      have h1 : r = 1 := by
        have : r ≠ 0 := fun h => hne ((den_zero_iff hd).1 h)
        omega
      subst h1
      have et : t = .leaf true := by
        cases hd with
        | one => rfl
        | node h => omega
      have es : s.level k.varnum = k.varnum := by
        cases hs with
        | zero => rfl
        | one => rfl
        | node h => omega
      have hL : setL dflt k.varnum (f + 1) t s = [] := by
        subst et
        unfold setL
        rw [es]
        simp [BT.level]
      rw [hL]
      exact ⟨1, k, rfl, by simp, hk, .rfl, by simp, .one, .const (by omega)⟩
    rw [if_neg hc, lt, lv]
    by_cases h1 : t.level k.varnum < s.level k.varnum
    · rw [if_pos h1]
      have hd0 := hd
      cases hd with
      | zero => exact (hne rfl).elim
      | one => have h1 : k.varnum < s.level k.varnum := h1; omega
      | @node _ lo tl th h2 hl dl dh =>
      obtain ⟨ob, hv, ol, oh⟩ := ho
      have h1 : k.level r < s.level k.varnum := h1
      have os' : BT.Ord k.varnum (k.level r + 1) s := by
        cases s with
        | leaf _ => trivial
        | node w a c => obtain ⟨_, q2, q3, q4⟩ := hos; exact ⟨h1, q2, q3, q4⟩
      have hL : setL dflt k.varnum (f + 1) (.node (k.level r) tl th) s = if tl = .leaf false then (k.level r, true) :: setL dflt k.varnum f th s else (k.level r, false) :: setL dflt k.varnum f tl s := by
        rw [setL.eq_def]; simp only []; rw [if_pos (show (BT.node (k.level r) tl th).level k.varnum < s.level k.varnum from h1)]
      rw [hl, Option.bind_some, hL]
      by_cases hz : lo = 0
      · have ez := (den_zero_iff dl).1 hz
        rw [if_pos hz, if_pos ez]
        obtain ⟨x, k1, e1, n1, c1⟩ := ih k (k.high r) var (k.level r + 1) th s hk dh hs oh os' (by omega) (.high hp h2 hl) hps (child_ne hred ez) (by omega) (by omega)
        rw [e1, Option.bind_some, (c1.ge.same r hp).1]
        obtain ⟨y, k2, e2, c2⟩ := c1.cons true hv (by omega)
        exact ⟨y, k2, e2, by rw [List.length_cons]; omega, by rw [List.length_cons]; exact c2⟩
      · have ez : tl ≠ .leaf false := fun h => hz ((den_zero_iff dl).2 h)
        rw [if_neg hz, if_neg ez]
        obtain ⟨x, k1, e1, n1, c1⟩ := ih k lo var (k.level r + 1) tl s hk dl hs ol os' (by omega) (.low hp h2 hl) hps ez (by omega) (by omega)
        rw [e1, Option.bind_some, (c1.ge.same r hp).1]
        obtain ⟨y, k2, e2, c2⟩ := c1.cons false hv (by omega)
        exact ⟨y, k2, e2, by rw [List.length_cons]; omega, by rw [List.length_cons]; exact c2⟩
    rw [if_neg h1]
    by_cases h3 : t.level k.varnum > s.level k.varnum
    · rw [if_pos h3]
      cases hs with
      | zero => have h3 : t.level k.varnum > k.varnum := h3; omega
      | one => have h3 : t.level k.varnum > k.varnum := h3; omega
      | @node _ lo sl sh h2 hl dl dh =>
      obtain ⟨ob, hv, ol, oh⟩ := hos
      have h3 : t.level k.varnum > k.level var := h3
      have ot' : BT.Ord k.varnum (k.level var + 1) t := by
        cases t with
        | leaf _ => trivial
        | node w a c => obtain ⟨_, q2, q3, q4⟩ := ho; exact ⟨h3, q2, q3, q4⟩
      have hL : setL dflt k.varnum (f + 1) t (.node (k.level var) sl sh) = (k.level var, dflt) :: setL dflt k.varnum f t sh := by
        rw [setL.eq_def]; simp only []; rw [if_neg (show ¬ t.level k.varnum < (BT.node (k.level var) sl sh).level k.varnum from h1), if_pos (show t.level k.varnum > (BT.node (k.level var) sl sh).level k.varnum from h3)]
      rw [hL]
      obtain ⟨x, k1, e1, n1, c1⟩ := ih k r (k.high var) (k.level var + 1) t sh hk hd dh ot' oh (by omega) hp (.high hps h2 hl) hne (by omega) (by omega)
      rw [e1, Option.bind_some, (c1.ge.same var hps).1]
      obtain ⟨y, k2, e2, c2⟩ := c1.cons dflt hv (by omega)
      refine ⟨y, k2, ?_, by rw [List.length_cons]; omega, by rw [List.length_cons]; exact c2⟩
      cases dflt <;> exact e2
    · rw [if_neg h3]
      have heq : t.level k.varnum = s.level k.varnum := by omega
      have hd0 := hd
      have hs0 := hs
      cases hd with
      | zero => exact (hne rfl).elim
      | one =>
        cases hs with
        | zero => exact (hc ⟨by omega, by omega⟩).elim
        | one => exact (hc ⟨by omega, by omega⟩).elim
        | @node _ lo sl sh h2 hl dl dh => have heq : k.varnum = k.level var := heq; have := hos.2.1; omega
      | @node _ lo tl th h2 hl dl dh =>
      cases hs with
      | zero => have heq : k.level r = k.varnum := heq; have := ho.2.1; omega
      | one => have heq : k.level r = k.varnum := heq; have := ho.2.1; omega
      | @node _ lo' sl sh h2' hl' dl' dh' =>
      obtain ⟨ob, hv, ol, oh⟩ := ho
      obtain ⟨_, _, _, osh⟩ := hos
      have heq : k.level r = k.level var := heq
      rw [← heq] at osh
      have hL : setL dflt k.varnum (f + 1) (.node (k.level r) tl th) (.node (k.level var) sl sh) = if tl = .leaf false then (k.level r, true) :: setL dflt k.varnum f th sh else (k.level r, false) :: setL dflt k.varnum f tl sh := by
        rw [setL.eq_def]; simp only []; rw [if_neg h1, if_neg h3]
      rw [hl, Option.bind_some, hL]
      by_cases hz : lo = 0
      · have ez := (den_zero_iff dl).1 hz
        rw [if_pos hz, if_pos ez]
        obtain ⟨x, k1, e1, n1, c1⟩ := ih k (k.high r) (k.high var) (k.level r + 1) th sh hk dh dh' oh osh (by omega) (.high hp h2 hl) (.high hps h2' hl') (child_ne hred ez) (by omega) (by omega)
        rw [e1, Option.bind_some, (c1.ge.same r hp).1]
        obtain ⟨y, k2, e2, c2⟩ := c1.cons true hv (by omega)
        exact ⟨y, k2, e2, by rw [List.length_cons]; omega, by rw [List.length_cons]; exact c2⟩
      · have ez : tl ≠ .leaf false := fun h => hz ((den_zero_iff dl).2 h)
        rw [if_neg hz, if_neg ez]
        obtain ⟨x, k1, e1, n1, c1⟩ := ih k lo (k.high var) (k.level r + 1) tl sh hk dl dh' ol osh (by omega) (.low hp h2 hl) (.high hps h2' hl') ez (by omega) (by omega)
        rw [e1, Option.bind_some, (c1.ge.same r hp).1]
        obtain ⟨y, k2, e2, c2⟩ := c1.cons false hv (by omega)
        exact ⟨y, k2, e2, by rw [List.length_cons]; omega, by rw [List.length_cons]; exact c2⟩

/-! ### Meaning of the paths -/

/-- `ρ` is as in `L`. -/
def Fits (L : List (Nat × Bool)) (ρ : Nat → Bool) : Prop := ∀ p ∈ L, ρ p.1 = p.2

/-- Levels in increasing order from `b` on. -/
def Incr (b : Nat) : List (Nat × Bool) → Prop
  | [] => True
  | (v, _) :: L => b ≤ v ∧ Incr (v + 1) L

theorem Incr.mono {b b' : Nat} (h : b' ≤ b) : ∀ {L : List (Nat × Bool)}, Incr b L → Incr b' L
  | [], _ => trivial
  | (v, x) :: L, ⟨h1, h2⟩ => ⟨by omega, h2⟩

theorem Incr.ge {b : Nat} : ∀ {L : List (Nat × Bool)}, Incr b L → ∀ p ∈ L, b ≤ p.1
  | [], _, p, hp => by simp at hp
  | (v, x) :: L, ⟨h1, h2⟩, p, hp => by
    rcases List.mem_cons.1 hp with rfl | hp
    · exact h1
    · have := Incr.ge h2 p hp; omega

theorem Incr.fun {b : Nat} : ∀ {L : List (Nat × Bool)}, Incr b L → ∀ v x y, (v, x) ∈ L → (v, y) ∈ L → x = y
  | [], _, v, x, y, h, _ => by simp at h
  | (w, z) :: L, ⟨h1, h2⟩, v, x, y, hx, hy => by
    rcases List.mem_cons.1 hx with e | hx' <;> rcases List.mem_cons.1 hy with e' | hy'
    · cases e; cases e'; rfl
    · cases e; have : w + 1 ≤ w := h2.ge _ hy'; omega
    · cases e'; have : w + 1 ≤ w := h2.ge _ hx'; omega
    · exact Incr.fun h2 v x y hx' hy'

theorem incr_gap {l d : Nat} {L : List (Nat × Bool)} (h : Incr (l + d) L) : Incr l (gapL l d ++ L) := by
  induction d generalizing l with
  | zero => exact h
  | succ d ih =>
    unfold gapL
    rw [List.range'_succ]
    refine ⟨Nat.le_refl _, ?_⟩
    exact ih (l := l + 1) (h.mono (by omega))

theorem oneL_ok {nv : Nat} : ∀ (t : BT) (b : Nat), BT.Ord nv b t → t.Red → t ≠ .leaf false → Incr b (oneL t) ∧ ∀ ρ, Fits (oneL t) ρ → t.eval ρ = true
  | .leaf x, b, _, _, hne => by
    cases x
    · exact (hne rfl).elim
    · exact ⟨trivial, fun _ _ => rfl⟩
  | .node v lo hi, b, ho, hr, _ => by
    obtain ⟨h1, h2, h3, h4⟩ := ho
    have hr' := hr
    obtain ⟨r1, r2, r3⟩ := hr
    unfold oneL
    split
    · rename_i hz
      obtain ⟨i1, i2⟩ := oneL_ok hi (v + 1) h4 r3 (child_ne hr' hz)
      refine ⟨⟨h1, i1⟩, fun ρ hf => ?_⟩
      have e := hf (v, true) (by simp)
      rw [BT.eval, if_pos e]
      exact i2 ρ fun p hp => hf p (by simp [hp])
    · rename_i hz
      obtain ⟨i1, i2⟩ := oneL_ok lo (v + 1) h3 r2 hz
      refine ⟨⟨h1, i1⟩, fun ρ hf => ?_⟩
      have e := hf (v, false) (by simp)
      rw [BT.eval, if_neg (by rw [e]; simp)]
      exact i2 ρ fun p hp => hf p (by simp [hp])

theorem fullL_ok {nv : Nat} : ∀ (t : BT) (b : Nat), BT.Ord nv b t → t.Red → t ≠ .leaf false → Incr (t.level nv) (fullL nv t) ∧ (∀ ρ, Fits (fullL nv t) ρ → t.eval ρ = true) ∧ ∀ v, t.level nv ≤ v → v < nv → ∃ x, (v, x) ∈ fullL nv t
  | .leaf x, b, _, _, hne => by
    cases x
    · exact (hne rfl).elim
    · exact ⟨trivial, fun _ _ => rfl, fun v h1 h2 => by have h1 : nv ≤ v := h1; omega⟩
  | .node v lo hi, b, ho, hr, _ => by
    obtain ⟨h1, h2, h3, h4⟩ := ho
    have hr' := hr
    obtain ⟨r1, r2, r3⟩ := hr
    have key : ∀ (x : Bool) (u : BT), BT.Ord nv (v + 1) u → (Incr (u.level nv) (fullL nv u) ∧ (∀ ρ, Fits (fullL nv u) ρ → u.eval ρ = true) ∧ ∀ w, u.level nv ≤ w → w < nv → ∃ x, (w, x) ∈ fullL nv u) →
        Incr v ((v, x) :: (gapL (v + 1) (u.level nv - 1 - v) ++ fullL nv u)) ∧ ∀ w, v ≤ w → w < nv → ∃ y, (w, y) ∈ (v, x) :: (gapL (v + 1) (u.level nv - 1 - v) ++ fullL nv u) := fun x u hu ⟨i1, _, i3⟩ => by
      have l := level_le hu (by omega)
      refine ⟨⟨Nat.le_refl _, incr_gap (by rw [show v + 1 + (u.level nv - 1 - v) = u.level nv by omega]; exact i1)⟩, fun w g1 g2 => ?_⟩
      by_cases e : w = v
      · exact ⟨x, by simp [e]⟩
      · rcases Nat.lt_or_ge w (u.level nv) with g | g
        · refine ⟨false, List.mem_cons_of_mem _ (List.mem_append_left _ ?_)⟩
          unfold gapL
          exact List.mem_map.2 ⟨w, by rw [List.mem_range'_1]; omega, rfl⟩
        · obtain ⟨y, hy⟩ := i3 w g g2
          exact ⟨y, List.mem_cons_of_mem _ (List.mem_append_right _ hy)⟩
    unfold fullL
    split
    · rename_i hz
      have ih := fullL_ok hi (v + 1) h4 r3 (child_ne hr' hz)
      obtain ⟨k1, k2⟩ := key true hi h4 ih
      refine ⟨k1, fun ρ hf => ?_, k2⟩
      have e := hf (v, true) (by simp)
      rw [BT.eval, if_pos e]
      exact ih.2.1 ρ fun p hp => hf p (by simp [hp])
    · rename_i hz
      have ih := fullL_ok lo (v + 1) h3 r2 hz
      obtain ⟨k1, k2⟩ := key false lo h3 ih
      refine ⟨k1, fun ρ hf => ?_, k2⟩
      have e := hf (v, false) (by simp)
      rw [BT.eval, if_neg (by rw [e]; simp)]
      exact ih.2.1 ρ fun p hp => hf p (by simp [hp])

theorem setL_ok (dflt : Bool) {nv : Nat} : ∀ (f : Nat) (t s : BT) (b : Nat), BT.Ord nv b t → BT.Ord nv b s → t.Red → t ≠ .leaf false → b ≤ nv → nv - b < f →
    Incr b (setL dflt nv f t s) ∧ (∀ ρ, Fits (setL dflt nv f t s) ρ → t.eval ρ = true) ∧ ∀ v ∈ s.hiLevels, ∃ x, (v, x) ∈ setL dflt nv f t s := by
  intro f
  induction f with
  | zero => intro t s b _ _ _ _ _ h; omega
  | succ f ih =>
    intro t s b ho hs hr hne hb hf
    unfold setL
    by_cases h1 : t.level nv < s.level nv
    · rw [if_pos h1]
      cases t with
      | leaf x => have h1 : nv < s.level nv := h1; have := (level_le hs hb).2; omega
      | node v lo hi =>
        have h1 : v < s.level nv := h1
        obtain ⟨q1, q2, q3, q4⟩ := ho
        have hr' := hr
        obtain ⟨r1, r2, r3⟩ := hr
        have os' : BT.Ord nv (v + 1) s := by
          cases s with
          | leaf _ => trivial
          | node w a c => obtain ⟨_, p2, p3, p4⟩ := hs; exact ⟨h1, p2, p3, p4⟩
        simp only
        split
        · rename_i hz
          obtain ⟨i1, i2, i3⟩ := ih hi s (v + 1) q4 os' r3 (child_ne hr' hz) (by omega) (by omega)
          refine ⟨⟨q1, i1⟩, fun ρ g => ?_, fun w hw => ?_⟩
          · have e := g (v, true) (by simp)
            rw [BT.eval, if_pos e]
            exact i2 ρ fun p hp => g p (by simp [hp])
          · obtain ⟨x, hx⟩ := i3 w hw; exact ⟨x, by simp [hx]⟩
        · rename_i hz
          obtain ⟨i1, i2, i3⟩ := ih lo s (v + 1) q3 os' r2 hz (by omega) (by omega)
          refine ⟨⟨q1, i1⟩, fun ρ g => ?_, fun w hw => ?_⟩
          · have e := g (v, false) (by simp)
            rw [BT.eval, if_neg (by rw [e]; simp)]
            exact i2 ρ fun p hp => g p (by simp [hp])
          · obtain ⟨x, hx⟩ := i3 w hw; exact ⟨x, by simp [hx]⟩
    rw [if_neg h1]
    by_cases h3 : t.level nv > s.level nv
    · rw [if_pos h3]
      cases s with
      | leaf x => have h3 : t.level nv > nv := h3; have := (level_le ho hb).2; omega
      | node v lo hi =>
        have h3 : t.level nv > v := h3
        obtain ⟨q1, q2, q3, q4⟩ := hs
        have ot' : BT.Ord nv (v + 1) t := by
          cases t with
          | leaf _ => trivial
          | node w a c => obtain ⟨_, p2, p3, p4⟩ := ho; exact ⟨h3, p2, p3, p4⟩
        obtain ⟨i1, i2, i3⟩ := ih t hi (v + 1) ot' q4 hr hne (by omega) (by omega)
        refine ⟨⟨q1, i1⟩, fun ρ g => i2 ρ fun p hp => g p (by simp [hp]), fun w hw => ?_⟩
        rcases List.mem_cons.1 hw with rfl | hw
        · exact ⟨dflt, by simp⟩
        · obtain ⟨x, hx⟩ := i3 w hw; exact ⟨x, by simp [hx]⟩
    rw [if_neg h3]
    have heq : t.level nv = s.level nv := by omega
    cases t with
    | leaf x =>
      cases s with
      | leaf y =>
        cases x
        · exact (hne rfl).elim
        · exact ⟨trivial, fun _ _ => rfl, fun v hv => by simp [BT.hiLevels] at hv⟩
      | node w a c => have heq : nv = w := heq; have := hs.2.1; omega
    | node v lo hi =>
      cases s with
      | leaf y => have heq : v = nv := heq; have := ho.2.1; omega
      | node w a c =>
        have heq : v = w := heq
        subst heq
        obtain ⟨q1, q2, q3, q4⟩ := ho
        obtain ⟨_, _, _, p4⟩ := hs
        have hr' := hr
        obtain ⟨r1, r2, r3⟩ := hr
        simp only
        split
        · rename_i hz
          obtain ⟨i1, i2, i3⟩ := ih hi c (v + 1) q4 p4 r3 (child_ne hr' hz) (by omega) (by omega)
          refine ⟨⟨q1, i1⟩, fun ρ g => ?_, fun w hw => ?_⟩
          · have e := g (v, true) (by simp)
            rw [BT.eval, if_pos e]
            exact i2 ρ fun p hp => g p (by simp [hp])
          · rcases List.mem_cons.1 hw with rfl | hw
            · exact ⟨true, by simp⟩
            · obtain ⟨x, hx⟩ := i3 w hw; exact ⟨x, by simp [hx]⟩
        · rename_i hz
          obtain ⟨i1, i2, i3⟩ := ih lo c (v + 1) q3 p4 r2 hz (by omega) (by omega)
          refine ⟨⟨q1, i1⟩, fun ρ g => ?_, fun w hw => ?_⟩
          · have e := g (v, false) (by simp)
            rw [BT.eval, if_neg (by rw [e]; simp)]
            exact i2 ρ fun p hp => g p (by simp [hp])
          · rcases List.mem_cons.1 hw with rfl | hw
            · exact ⟨false, by simp⟩
            · obtain ⟨x, hx⟩ := i3 w hw; exact ⟨x, by simp [hx]⟩

/-! ### Reading a model -/

/-- A node of the chain of a cube. -/
def OnChain (k : Kernel V) (L : List (Nat × Bool)) (n : Nat) : Prop := n < 2 ∨ ∃ v b L', (v, b) :: L' <:+ L ∧ Den k n (cube ((v, b) :: L'))

theorem cube_node {k : Kernel V} {n v : Nat} {b : Bool} {L : List (Nat × Bool)} (h : Den k n (cube ((v, b) :: L))) : 2 ≤ n ∧ k.level n = v ∧ ∃ lo, k.low n = some lo ∧ Den k lo (if b then .leaf false else cube L) ∧ Den k (k.high n) (if b then cube L else .leaf false) := by
  cases b
  · simp only [cube, Bool.false_eq_true, if_false] at h
    cases h with
    | node h2 hl dl dh => exact ⟨h2, rfl, _, hl, dl, dh⟩
  · simp only [cube, if_true] at h
    cases h with
    | node h2 hl dl dh => exact ⟨h2, rfl, _, hl, dl, dh⟩

theorem onChain_of {k : Kernel V} {L L' : List (Nat × Bool)} {n : Nat} (h : Den k n (cube L')) (hs : L' <:+ L) : OnChain k L n := by
  cases L' with
  | nil =>
    cases h with
    | one => exact .inl (by omega)
  | cons a L' => obtain ⟨v, b⟩ := a; exact .inr ⟨v, b, L', hs, h⟩

theorem nodesModel_ok {k : Kernel Var} {L : List (Nat × Bool)} : ∀ (ns : List Nat), (∀ n ∈ ns, 2 ≤ n ∧ OnChain k L n) → ∃ m, nodesModel k ns = some m ∧
    (∀ x, x ∈ m.pos ↔ ∃ n ∈ ns, k.idx[k.level n]? = some x ∧ k.low n = some 0) ∧ (∀ x, x ∈ m.neg ↔ ∃ n ∈ ns, k.idx[k.level n]? = some x ∧ k.low n ≠ some 0)
  | [], _ => ⟨⟨[], []⟩, rfl, by simp, by simp⟩
  | n :: ns, h => by
    obtain ⟨m, e, h1, h2⟩ := nodesModel_ok ns fun x hx => h x (by simp [hx])
    obtain ⟨hn, hc⟩ := h n (by simp)
    obtain ⟨v, b, L', _, d⟩ := hc.resolve_left (by omega)
    obtain ⟨_, _, lo, hl, dl, dh⟩ := cube_node d
    unfold nodesModel
    rw [hl, Option.bind_some, e, Option.bind_some]
    cases hx : k.idx[k.level n]? with
    | none =>
      refine ⟨m, rfl, fun x => ?_, fun x => ?_⟩
      · rw [h1]; simp [hx]
      · rw [h2]; simp [hx]
    | some x =>
      simp only
      cases b with
      | true =>
        have : lo = 0 := (den_zero_iff dl).2 (by simp)
        rw [if_pos this]
        refine ⟨_, rfl, fun y => ?_, fun y => ?_⟩
        · simp only [List.mem_cons, h1, exists_eq_or_imp, hx, hl, this, Option.some.injEq]
          simp [eq_comm]
        · simp only [List.mem_cons, h2, exists_eq_or_imp, hl, this]
          simp
      | false =>
        have h0 : lo ≠ 0 := fun h => cube_ne L' ((den_zero_iff dl).1 h)
        have h1' : k.high n = 0 := (den_zero_iff dh).2 (by simp)
        rw [if_neg h0, if_pos h1']
        refine ⟨_, rfl, fun y => ?_, fun y => ?_⟩
        · simp only [List.mem_cons, h1, exists_eq_or_imp, hl, Option.some.injEq, h0]
          simp
        · simp only [List.mem_cons, h2, exists_eq_or_imp, hx, hl, ne_eq, Option.some.injEq, h0]
          simp [eq_comm]

/-- The model read off a cube. -/
theorem createModel_ok {k : Kernel Var} (hk : KInv k) {x : Nat} {L : List (Nat × Bool)} (hd : Den k x (cube L)) : ∃ m, createModel x k = some (some m) ∧
    (∀ v, v ∈ m.pos ↔ ∃ i, (i, true) ∈ L ∧ k.idx[i]? = some v) ∧ (∀ v, v ∈ m.neg ↔ ∃ i, (i, false) ∈ L ∧ k.idx[i]? = some v) := by
  unfold createModel
  have h0 : x ≠ 0 := fun h => cube_ne L ((den_zero_iff hd).1 h)
  rw [if_neg h0]
  by_cases h1 : x = 1
  · rw [if_pos h1]
    have : L = [] := by
      subst h1
      cases L with
      | nil => rfl
      | cons a L => obtain ⟨v, b⟩ := a; have := (cube_node hd).1; omega
    subst this
    exact ⟨_, rfl, by simp, by simp⟩
  rw [if_neg h1]
  have hP : ∀ n l, 2 ≤ n → k.low n = some l → OnChain k L n → OnChain k L l ∧ OnChain k L (k.high n) := fun n l h2 hl hc => by
    obtain ⟨v, b, L', hs, d⟩ := hc.resolve_left (by omega)
    obtain ⟨_, _, lo, hl', dl, dh⟩ := cube_node d
    rw [hl] at hl'; cases hl'
    have hs' : L' <:+ L := (List.suffix_cons _ _).trans hs
    cases b with
    | true => exact ⟨.inl (by have := (den_zero_iff dl).2 (by simp); omega), onChain_of dh hs'⟩
    | false => exact ⟨onChain_of dl hs', .inl (by have := (den_zero_iff dh).2 (by simp); omega)⟩
  have hunm : unm k (fun _ => false) < k.size + 1 := by
    unfold unm
    have := List.countP_le_length (p := fun x : Nat => !(fun _ => false) x) (l := List.range k.size)
    rw [List.length_range] at this
    omega
  obtain ⟨m, e, hm, hx⟩ := mark_ok hk.toInv hP (k.size + 1) (fun _ => false) x hunm (hk.den_ok hd) (onChain_of hd (List.suffix_refl L))
  rw [e, Option.bind_some]
  have hmk : ∀ n ∈ (List.range k.size).filter fun n => m n, 2 ≤ n ∧ OnChain k L n := fun n hn => by
    have hn : m n = true := by simpa using (List.mem_filter.1 hn).2
    obtain ⟨_, a, p⟩ := hm.cl n hn rfl
    exact ⟨a.1, p⟩
  obtain ⟨M, eM, hp, hn⟩ := nodesModel_ok (L := L) _ hmk
  rw [eM]
  -- every entry of the cube has a marked node
  have cover : ∀ (L' : List (Nat × Bool)) (n : Nat), Den k n (cube L') → (n < 2 ∨ m n = true) → ∀ v b, (v, b) ∈ L' → ∃ n', m n' = true ∧ k.level n' = v ∧ (k.low n' = some 0 ↔ b = true) := by
    intro L'
    induction L' with
    | nil => intro n _ _ v b h; simp at h
    | cons a L' ih =>
      obtain ⟨v, b⟩ := a
      intro n d hmn v' b' hv'
      obtain ⟨h2, hlv, lo, hl, dl, dh⟩ := cube_node d
      have hmn : m n = true := hmn.resolve_left (by omega)
      obtain ⟨cl, _⟩ := hm.cl n hmn rfl
      obtain ⟨c1, c2⟩ := cl lo hl
      rcases List.mem_cons.1 hv' with e | hv''
      · cases e
        refine ⟨n, hmn, hlv, ?_⟩
        rw [hl]
        cases b with
        | true => simp [(den_zero_iff dl).2 (by simp)]
        | false =>
          have : lo ≠ 0 := fun h => cube_ne L' ((den_zero_iff dl).1 h)
          simp [this]
      · cases b with
        | true => exact ih _ dh c2 v' b' hv''
        | false => exact ih _ dl c1 v' b' hv''
  have back : ∀ n, m n = true → ∃ b, (k.level n, b) ∈ L ∧ (k.low n = some 0 ↔ b = true) := fun n hmn => by
    obtain ⟨_, a, p⟩ := hm.cl n hmn rfl
    obtain ⟨v, b, L', hs, d⟩ := p.resolve_left (by have := a.1; omega)
    obtain ⟨h2, hlv, lo, hl, dl, dh⟩ := cube_node d
    refine ⟨b, by rw [hlv]; exact hs.mem (by simp), ?_⟩
    rw [hl]
    cases b with
    | true => simp [(den_zero_iff dl).2 (by simp)]
    | false =>
      have : lo ≠ 0 := fun h => cube_ne L' ((den_zero_iff dl).1 h)
      simp [this]
  have mem : ∀ n, m n = true → n ∈ (List.range k.size).filter fun n => m n := fun n hmn => by
    obtain ⟨_, a, _⟩ := hm.cl n hmn rfl
    rw [List.mem_filter]
    exact ⟨by simpa using a.2.1, hmn⟩
  refine ⟨M, rfl, fun v => ?_, fun v => ?_⟩
  · rw [hp]
    constructor
    · rintro ⟨n, hn', e1, e2⟩
      obtain ⟨b, h1, h2⟩ := back n (by simpa using (List.mem_filter.1 hn').2)
      have := h2.1 e2; subst this
      exact ⟨_, h1, e1⟩
    · rintro ⟨i, h1, h2⟩
      obtain ⟨n, e1, e2, e3⟩ := cover L x hd hx i true h1
      exact ⟨n, mem n e1, by rw [e2]; exact h2, e3.2 rfl⟩
  · rw [hn]
    constructor
    · rintro ⟨n, hn', e1, e2⟩
      obtain ⟨b, h1, h2⟩ := back n (by simpa using (List.mem_filter.1 hn').2)
      cases b with
      | true => exact (e2 (h2.2 rfl)).elim
      | false => exact ⟨_, h1, e1⟩
    · rintro ⟨i, h1, h2⟩
      obtain ⟨n, e1, e2, e3⟩ := cover L x hd hx i false h1
      exact ⟨n, mem n e1, by rw [e2]; exact h2, fun h => by simpa using e3.1 h⟩

/-! ### Models of handles -/

/-- What a returned model (or its absence) says about the function `F`. -/
structure MOut (idx : List Var) (F : (Nat → Bool) → Bool) (o : Option BModel) : Prop where
  none_iff : o = none ↔ ∀ ρ, F ρ = false
  consist : ∀ m, o = some m → ∀ v, ¬ (v ∈ m.pos ∧ v ∈ m.neg)
  vars : ∀ m, o = some m → ∀ v, v ∈ m.pos ∨ v ∈ m.neg → v ∈ idx
  sound : ∀ m, o = some m → ∀ ρ σ, Agr idx ρ σ → m.admits σ → F ρ = true

theorem nodup_fun {idx : List Var} (hn : idx.Nodup) {i j : Nat} {v : Var} (h1 : idx[i]? = some v) (h2 : idx[j]? = some v) : i = j := by
  obtain ⟨a, e1⟩ := List.getElem?_eq_some_iff.1 h1
  obtain ⟨b, e2⟩ := List.getElem?_eq_some_iff.1 h2
  exact (hn.getElem_inj_iff).1 (e1.trans e2.symm)

theorem admits_iff (m : BModel) (σ : Asg) : m.admits σ = true ↔ (∀ v ∈ m.pos, σ v = true) ∧ ∀ v ∈ m.neg, σ v = false := by
  simp [BModel.admits]

/-- The model of a cube that implies `F`. -/
theorem cube_model {k k' : Kernel Var} (hn : k'.idx.Nodup) {n x : Nat} {L : List (Nat × Bool)} (hc : CubeOk k n L x k') (hi : Incr 0 L) {F : (Nat → Bool) → Bool} (hl : Lv k'.idx.length F) (hs : ∀ ρ, Fits L ρ → F ρ = true) :
    ∃ m, createModel x k' = some (some m) ∧ MOut k'.idx F (some m) ∧ ∀ i v b, (i, b) ∈ L → k'.idx[i]? = some v → v ∈ m.pos ∨ v ∈ m.neg := by
  obtain ⟨m, e, h1, h2⟩ := createModel_ok hc.inv hc.den
  have fits : ∀ ρ : Nat → Bool, Fits L (fun i => if (i, true) ∈ L then true else if (i, false) ∈ L then false else ρ i) := fun ρ p hp => by
    obtain ⟨i, b⟩ := p
    cases b with
    | true => simp only [hp, if_true]
    | false =>
      have : (i, true) ∉ L := fun h => by have := hi.fun _ _ _ h hp; simp at this
      simp only [this, if_false, hp, if_true]
  refine ⟨m, e, ⟨?_, ?_, ?_, ?_⟩, ?_⟩
  · refine ⟨fun h => (nomatch h), fun h => ?_⟩
    have := hs _ (fits fun _ => false)
    rw [h] at this; cases this
  · rintro m' hm v ⟨a, b⟩
    cases hm
    obtain ⟨i, c1, c2⟩ := (h1 v).1 a
    obtain ⟨j, d1, d2⟩ := (h2 v).1 b
    have := nodup_fun hn c2 d2
    subst this
    have := hi.fun _ _ _ c1 d1
    simp at this
  · rintro m' hm v h
    cases hm
    rcases h with h | h
    · obtain ⟨i, _, c⟩ := (h1 v).1 h; exact List.mem_of_getElem? c
    · obtain ⟨i, _, c⟩ := (h2 v).1 h; exact List.mem_of_getElem? c
  · rintro m' hm ρ σ hg ha
    cases hm
    obtain ⟨a1, a2⟩ := (admits_iff m σ).1 ha
    rw [hl ρ (fun i => if (i, true) ∈ L then true else if (i, false) ∈ L then false else ρ i) fun i hi' => ?_]
    · exact hs _ (fits ρ)
    · have hv : k'.idx[i]? = some k'.idx[i] := List.getElem?_eq_getElem hi'
      have ag := hg i _ hv
      by_cases c1 : (i, true) ∈ L
      · simp only [c1, if_true]
        rw [ag]; exact a1 _ ((h1 _).2 ⟨i, c1, hv⟩)
      · by_cases c2 : (i, false) ∈ L
        · simp only [c1, if_false, c2, if_true]
          rw [ag]; exact a2 _ ((h2 _).2 ⟨i, c2, hv⟩)
        · simp only [c1, if_false, c2]
  · intro i v b hb hv
    cases b with
    | true => exact .inl ((h1 v).2 ⟨i, hb, hv⟩)
    | false => exact .inr ((h2 v).2 ⟨i, hb, hv⟩)

theorem no_model {k : Kernel Var} {r : Nat} {F : (Nat → Bool) → Bool} (idx : List Var) (hf : ∀ ρ, (BT.leaf false).eval ρ = F ρ) (h : r = 0) : createModel r k = some none ∧ MOut idx F none :=
  ⟨by simp [createModel, h], ⟨⟨fun _ ρ => (hf ρ).symm, fun _ => rfl⟩, fun _ h => (nomatch h), fun _ h => (nomatch h), fun _ h => (nomatch h)⟩⟩

/-- `Bdd::model`. -/
theorem modelH_ok {k : Kernel Var} {H : List Nat} (hp : Pub k H) {r : Nat} (hr : r < 2 ∨ r ∈ H) {F : (Nat → Bool) → Bool} (hf : Is k r F) (hl : Lv k.idx.length F) :
    ∃ o k', modelH r k = some (o, k') ∧ Pub k' H ∧ Adv H k k' ∧ k'.idx = k.idx ∧ MOut k.idx F o := by
  obtain ⟨t, d, ho, ef⟩ := hf
  unfold modelH Kernel.satOne
  by_cases h0 : r = 0
  · subst h0
    have : t = .leaf false := (den_zero_iff d).1 rfl
    subst this
    obtain ⟨e, m⟩ := no_model (k := k) (r := 0) k.idx ef rfl
    exact ⟨none, k, by simp [e], hp, .rfl, rfl, m⟩
  have hne : t ≠ .leaf false := fun h => h0 ((den_zero_iff d).2 h)
  obtain ⟨i1, i2⟩ := oneL_ok t 0 ho (hp.den_red d) hne
  have fin : ∀ {k0 k' : Kernel Var} {x n : Nat}, CubeOk k0 n (oneL t) x k' → Ge k k' → k'.stack.length ≤ k.varnum → ∃ o, createModel x k' = some o ∧ Pub k' H ∧ Adv H k k' ∧ k'.idx = k.idx ∧ MOut k.idx F o := fun {k0 k' x n} c g hs => by
    obtain ⟨m, e, mo, _⟩ := cube_model (F := F) (by rw [g.idx]; exact hp.idxNd) c i1 (by rw [g.idx]; exact hl) fun ρ hρ => by rw [← ef]; exact i2 ρ hρ
    obtain ⟨p', a'⟩ := hp.adv c.inv g hs
    rw [g.idx] at mo
    exact ⟨_, e, p', a', g.idx, mo⟩
  by_cases h2 : r < 2
  · have h1 : r = 1 := by omega
    subst h1
    have : t = .leaf true := by cases d with | one => rfl | node h => omega
    subst this
    obtain ⟨o, e, h⟩ := fin (k0 := k) (k' := k) (x := 1) (n := 0) ⟨hp.toKInv, .rfl, rfl, .one, .const (by omega)⟩ .rfl hp.stkLen
    exact ⟨o, k, by simp [e], h⟩
  · rw [if_neg h2]
    obtain ⟨p0, a0⟩ := hp.initRef
    have hcap := hp.capEq
    have hdep := ho.depth_le
    obtain ⟨x, k', e1, c1⟩ := satOneRec_ok (k.varnum + 1) k.initRef r 0 t p0.toKInv (a0.den r hr t d) ho (p0.prot hr) hne (by omega) (by show 0 + t.depth ≤ k.cap; omega)
    have hlen := oneL_len t
    have c1l : k'.stack.length = 0 + (oneL t).length := c1.len
    obtain ⟨p1, a1⟩ := p0.adv c1.inv c1.ge (by rw [c1l]; show _ ≤ k.varnum; omega)
    obtain ⟨m, e, mo, _⟩ := cube_model (F := F) (by rw [c1.ge.idx]; exact hp.idxNd) c1 i1 (by rw [c1.ge.idx]; exact hl) fun ρ hρ => by rw [← ef]; exact i2 ρ hρ
    rw [c1.ge.idx] at mo
    exact ⟨some m, k', by simp [e1, e], p1, a0.trans a1, c1.ge.idx, mo⟩

/-- `Bdd::full_model`: every registered variable is set. -/
theorem fullModelH_ok {k : Kernel Var} {H : List Nat} (hp : Pub k H) {r : Nat} (hr : r < 2 ∨ r ∈ H) {F : (Nat → Bool) → Bool} (hf : Is k r F) (hl : Lv k.idx.length F) :
    ∃ o k', fullModelH r k = some (o, k') ∧ Pub k' H ∧ Adv H k k' ∧ k'.idx = k.idx ∧ MOut k.idx F o ∧ ∀ m, o = some m → ∀ v ∈ k.idx, v ∈ m.pos ∨ v ∈ m.neg := by
  obtain ⟨t, d, ho, ef⟩ := hf
  unfold fullModelH Kernel.fullSatOne
  by_cases h0 : r = 0
  · subst h0
    have : t = .leaf false := (den_zero_iff d).1 rfl
    subst this
    obtain ⟨e, m⟩ := no_model (k := k) (r := 0) k.idx ef rfl
    exact ⟨none, k, by simp [e], hp, .rfl, rfl, m, fun _ h => by cases h⟩
  rw [if_neg h0]
  have hne : t ≠ .leaf false := fun h => h0 ((den_zero_iff d).2 h)
  obtain ⟨i1, i2, i3⟩ := fullL_ok t 0 ho (hp.den_red d) hne
  obtain ⟨p0, a0⟩ := hp.initRef
  have hcap := hp.capEq
  have hdep := ho.depth_le
  have hlen := fullL_len t 0 ho (Nat.zero_le _)
  obtain ⟨x, k1, e1, c1⟩ := fullSatOneRec_ok (k.varnum + 1) k.initRef r 0 t p0.toKInv (a0.den r hr t d) ho (Nat.zero_le _) (p0.prot hr) hne (by omega) (by show 0 + (k.varnum - t.level k.varnum) ≤ k.cap; omega)
  have hlv : k1.level r = t.level k.varnum := by
    rw [(c1.ge.same r (p0.prot hr)).1]
    exact hp.level d
  obtain ⟨y, k2, e2, c2⟩ := fillRec_ok 0 (t.level k.varnum) c1 (by show 0 + _ ≤ k.varnum; omega) (by show 0 + (fullL k.varnum t).length + _ ≤ k.cap; omega)
  have c2l : k2.stack.length = 0 + ((fullL k.varnum t).length + t.level k.varnum) := c2.len
  obtain ⟨p2, a2⟩ := p0.adv c2.inv c2.ge (by rw [c2l]; show _ ≤ k.varnum; omega)
  have incr : Incr 0 (gapL 0 (t.level k.varnum) ++ fullL k.varnum t) := incr_gap (by rw [Nat.zero_add]; exact i1)
  obtain ⟨m, e, mo, cov⟩ := cube_model (F := F) (by rw [c2.ge.idx]; exact hp.idxNd) c2 incr (by rw [c2.ge.idx]; exact hl) fun ρ hρ => by
    rw [← ef]; exact i2 ρ fun p hp => hρ p (List.mem_append_right _ hp)
  rw [c2.ge.idx] at mo cov
  refine ⟨some m, k2, by simp only [e1, Option.bind_some, hlv, e2, e, Option.map_some], p2, a0.trans a2, c2.ge.idx, mo, fun m' hm v hv => ?_⟩
  cases hm
  obtain ⟨i, hi, hiv⟩ := List.getElem_of_mem hv
  have hiv' : k.idx[i]? = some v := by rw [List.getElem?_eq_getElem hi, hiv]
  have hlt : i < k.varnum := Nat.lt_of_lt_of_le hi hp.idxLen
  rcases Nat.lt_or_ge i (t.level k.varnum) with g | g
  · exact cov i v false (List.mem_append_left _ (by unfold gapL; exact List.mem_map.2 ⟨i, by rw [List.mem_range'_1]; omega, rfl⟩)) hiv'
  · obtain ⟨b, hb⟩ := i3 i g hlt
    exact cov i v b (List.mem_append_right _ hb) hiv'

section
variable {c0 : AuxTy → Nat} {C : Canon} {cfg : FCfg}

/-- `Bdd::model_for_variables`: every given variable is set. -/
theorem modelForH_ok (hcfg : cfg.cc.Good) (dflt : Bool) {vs : List Var} {H : List Nat} {s : BSt} {E : List Ent} (hov : ∀ v ∈ vs, (cER s.w.cnt).Old v) (hp : Pub s.k H) (hw : WInv c0 s.w E) {r : Nat} (hr : r < 2 ∨ r ∈ H) {F : (Nat → Bool) → Bool} (hf : Is s.k r F) (hl : Lv s.k.idx.length F) :
    (modelForH C cfg r dflt vs s = none ∧ Full' s.k vs) ∨
    ∃ o s' E', modelForH C cfg r dflt vs s = some (some o, s') ∧ Pub s'.k H ∧ Step c0 False [] H s E s' E' ∧ MOut s'.k.idx F o ∧ ∀ m, o = some m → ∀ v ∈ vs, v ∈ m.pos ∨ v ∈ m.neg := by
  unfold modelForH
  have hc : Consist (vs.map fun v => (⟨v, true⟩ : Lit)) := fun v h => by simp at h
  rcases fromLits_ok (C := C) (cfg := cfg) (ls := vs.map fun v => ⟨v, true⟩) hcfg (fun l hl => by obtain ⟨v, hv, rfl⟩ := List.mem_map.1 hl; exact hov v hv) hp hw with ⟨e, h⟩ | ⟨y, s1, E1, e, p1, st1, r1⟩
  · rw [e]
    refine .inl ⟨rfl, fun ws h1 h2 => h ws h1 fun v hv => h2 v ?_⟩
    simpa using hv
  rw [e]
  obtain ⟨hreg, tv, dv, ov', _, c2⟩ := lits_tree p1 hc r1
  have hS : ∀ i, i ∈ tv.hiLevels ↔ ∃ v, s1.k.idx[i]? = some v ∧ v ∈ vs := fun i => by rw [c2 (by simp) i, mem_litLv]
  obtain ⟨t, d0, o0, ef⟩ := hf
  have d := st1.adv.den r hr t d0
  have ho : BT.Ord s1.k.varnum 0 t := by rw [st1.adv.varnum]; exact o0
  have hl1 : Lv s1.k.idx.length F := hl.mono st1.adv.idx.length_le
  have sub : ∀ n ∈ H, n ∈ y :: H := fun n hn => by simp [hn]
  refine .inr ?_
  simp only [bseq, kop]
  unfold Kernel.satOneSet
  by_cases h0 : r = 0
  · subst h0
    have : t = .leaf false := (den_zero_iff d).1 rfl
    subst this
    obtain ⟨e, m⟩ := no_model (k := s1.k) (r := 0) s1.k.idx ef rfl
    exact ⟨none, s1, E1, by simp [e], p1.tail, st1, m, fun _ h => by cases h⟩
  have hne : t ≠ .leaf false := fun h => h0 ((den_zero_iff d).2 h)
  obtain ⟨p0, a0⟩ := p1.initRef
  have hcap := p1.capEq
  obtain ⟨i1, i2, i3⟩ := setL_ok dflt (s1.k.varnum + 1) t tv 0 ho ov' (p1.den_red d) hne (Nat.zero_le _) (by omega)
  have hr' : r < 2 ∨ r ∈ y :: H := hr.imp id fun h => by simp [h]
  obtain ⟨x, k1, e1, hlen, c1⟩ := satOneSetRec_ok dflt (s1.k.varnum + 1) s1.k.initRef r y 0 t tv p0.toKInv (a0.den r hr' t d) (a0.den y (.inr (by simp)) tv dv) ho ov' (Nat.zero_le _) (p0.prot hr') (p0.prot (.inr (by simp))) hne (by show s1.k.varnum - 0 < _; omega) (by show 0 + (s1.k.varnum - 0) ≤ s1.k.cap; omega)
  have c1l : k1.stack.length = 0 + (setL dflt s1.k.varnum (s1.k.varnum + 1) t tv).length := c1.len
  have hlen : (setL dflt s1.k.varnum (s1.k.varnum + 1) t tv).length ≤ s1.k.varnum - 0 := hlen
  obtain ⟨p2, a2⟩ := p0.adv c1.inv c1.ge (by rw [c1l]; show _ ≤ s1.k.varnum; omega)
  obtain ⟨m, e, mo, cov⟩ := cube_model (F := F) (by rw [c1.ge.idx]; exact p1.idxNd) c1 i1 (by rw [c1.ge.idx]; exact hl1) fun ρ hρ => by rw [← ef]; exact i2 ρ hρ
  refine ⟨some m, { s1 with k := k1 }, E1, by simp [h0, e1, e], p2.tail, st1.trans ⟨(a0.trans a2).sub sub, st1.winv, GExt.refl _ _, fun h => h.elim⟩, mo, fun m' hm v hv => ?_⟩
  cases hm
  have hvi := hreg ⟨v, true⟩ (List.mem_map.2 ⟨v, hv, rfl⟩)
  obtain ⟨i, hi, hiv⟩ := List.getElem_of_mem hvi
  have hiv' : s1.k.idx[i]? = some v := by rw [List.getElem?_eq_getElem hi, hiv]
  obtain ⟨b, hb⟩ := i3 i ((hS i).2 ⟨v, hiv', hv⟩)
  exact cov i v b hb (by rw [c1.ge.idx]; exact hiv')
end

end Bdd
end Verif
