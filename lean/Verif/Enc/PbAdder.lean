import Verif.Enc.PbSwc
import Verif.Enc.Sorter
/-!
Pseudo-Boolean encoders, part 2: adder networks.
-/
namespace Verif
open ER

/-- Models `f.new_pb_variable().pos_lit()`, src/formulas/formula_factory.rs:1290-1312. -/
def newPb (s : ER) : Lit × ER := (((s.newAuxs .pb 1).1.nth 0).p, (s.newAuxs .pb 1).2)

/-- Models `fa_sum`, src/pseudo_booleans/pb_adder_networks.rs:68-84 (clauses; `x` is the new variable). -/
def faSum (a b c x : Lit) : List Clause :=
  [[a, b, c, x.neg], [a, b.neg, c.neg, x.neg], [a.neg, b, c.neg, x.neg], [a.neg, b.neg, c, x.neg],
   [a.neg, b.neg, c.neg, x], [a.neg, b, c, x], [a, b.neg, c, x], [a, b, c.neg, x]]

/-- Models `fa_carry`, src/pseudo_booleans/pb_adder_networks.rs:86-99. -/
def faCarry (a b c x : Lit) : List Clause :=
  [[b, c, x.neg], [a, c, x.neg], [a, b, x.neg], [b.neg, c.neg, x], [a.neg, c.neg, x], [a.neg, b.neg, x]]

/-- Models `fa_extra`, src/pseudo_booleans/pb_adder_networks.rs:101-110. -/
def faExtra (xs xc a b c : Lit) : List Clause :=
  [[xc.neg, xs.neg, a], [xc.neg, xs.neg, b], [xc.neg, xs.neg, c], [xc, xs, a.neg], [xc, xs, b.neg], [xc, xs, c.neg]]

/-- Models `ha_sum`, src/pseudo_booleans/pb_adder_networks.rs:112-123. -/
def haSum (a b x : Lit) : List Clause := [[a.neg, b.neg, x.neg], [a, b, x.neg], [a.neg, b, x], [a, b.neg, x]]

/-- Models `ha_carry`, src/pseudo_booleans/pb_adder_networks.rs:125-128. -/
def haCarry (a b x : Lit) : List Clause := [[a, x.neg], [b, x.neg], [a.neg, b.neg, x]]

/-- The inner loops of `adder_tree` for one bucket, src/pseudo_booleans/pb_adder_networks.rs:37-60.
Front of the queue = head of the list; `nxt` is the next bucket.  Returns the literal taken
as result of this bucket, the next bucket, and the state. `none`: out of fuel or empty bucket. -/
def reduceBucket : Nat → List Lit → List Lit → ER → Option (Lit × List Lit × ER)
  | fuel + 1, x :: y :: z :: r, nxt, s =>
    let (xs, s) := newPb s
    let s := s.addClauses (faSum x y z xs)
    let (xc, s) := newPb s
    let s := s.addClauses (faCarry x y z xc)
    let s := s.addClauses (faExtra xs xc x y z)
    reduceBucket fuel (r ++ [xs]) (nxt ++ [xc]) s
  | _ + 1, [x, y], nxt, s =>
    let (xs, s) := newPb s
    let s := s.addClauses (haSum x y xs)
    let (xc, s) := newPb s
    let s := s.addClauses (haCarry x y xc)
    some (xs, nxt ++ [xc], s)
  | _ + 1, [x], nxt, s => some (x, nxt, s)
  | _, _, _, _ => none

/-- Models `adder_tree`, src/pseudo_booleans/pb_adder_networks.rs:28-65: buckets are processed
from the lowest; the head of the list is `buckets[i]`.  The list returned is `result`. -/
def adderTree : Nat → List (List Lit) → ER → Option (List (Option Lit) × ER)
  | _, [], s => some ([], s)
  | 0, _ :: _, _ => none
  | fuel + 1, b :: bs, s =>
    if b.isEmpty then (adderTree fuel bs s).map fun (xs, s) => (none :: xs, s)
    else
      let bs := if bs.isEmpty ∧ 2 ≤ b.length then [[]] else bs
      match bs with
      | [] =>
        (reduceBucket b.length b [] s).bind fun (x, _, s) =>
        (adderTree fuel [] s).map fun (xs, s) => (some x :: xs, s)
      | nxt :: rest =>
        (reduceBucket b.length b nxt s).bind fun (x, nxt, s) =>
        (adderTree fuel (nxt :: rest) s).map fun (xs, s) => (some x :: xs, s)

/-- The inner loop of `less_than_or_equal`, src/pseudo_booleans/pb_adder_networks.rs:137-149, from
bit `j` on (`r` is `rhs >> j`).  `none` is `skip = true`. -/
def leTail : List (Option Lit) → Nat → Option Clause
  | [], _ => some []
  | x :: xs, r =>
    if r % 2 = 1 then
      match x with
      | some l => (leTail xs (r / 2)).map (l.neg :: ·)
      | none => none
    else
      match x with
      | some l => (leTail xs (r / 2)).map (l :: ·)
      | none => leTail xs (r / 2)

/-- Models `less_than_or_equal`, src/pseudo_booleans/pb_adder_networks.rs:130-157, from bit `i` on
(`r` is `rhs >> i`). -/
def leClauses : List (Option Lit) → Nat → List Clause
  | [], _ => []
  | x :: xs, r =>
    (match x with
      | some l => if r % 2 = 1 then [] else
        match leTail xs (r / 2) with
        | some c => [c ++ [l.neg]]
        | none => []
      | none => []) ++ leClauses xs (r / 2)

/-- Models `ld_int`, src/pseudo_booleans/pb_adder_networks.rs:159-161 (number of bits). -/
def ldInt (x : Nat) : Nat := if x = 0 then 0 else Nat.log2 x + 1

/-- The bucket of bit `i`, src/pseudo_booleans/pb_adder_networks.rs:13-20 (`push_front`). -/
def adderBucket (ts : List (Lit × Nat)) (i : Nat) : List Lit :=
  ((ts.filter fun t => t.2.testBit i).map (·.1)).reverse

/-- Models `encode_adder_networks`, src/pseudo_booleans/pb_adder_networks.rs:6-25.  Coefficients
are given as natural numbers (they are positive, see `encodeInternal`). -/
def encodeAdder (ts : List (Lit × Nat)) (rhs : Nat) (s : ER) : Option ER :=
  let nb := ldInt rhs
  let buckets := (List.range nb).map (adderBucket ts)
  (adderTree (nb + (buckets.map List.length).sum) buckets s).map fun (res, s) => s.addClauses (leClauses res rhs)

/-! ### Lemmas -/

theorem newPb_le (s : ER) : Le s (newPb s).2 := newAuxs_le _ _ _
theorem newPb_wf {s : ER} (h : Wf s) : Wf (newPb s).2 := newAuxs_wf h
theorem newPb_sat {s : ER} {σ} : Sat σ (newPb s).2 ↔ Sat σ s := Iff.rfl
theorem newPb_mem (s : ER) : (s.newAuxs .pb 1).1.nth 0 ∈ (s.newAuxs .pb 1).1 := getBang_mem (by rw [newAuxs_length]; decide)
theorem newPb_old (s : ER) : (newPb s).2.Old (newPb s).1.v := newAuxs_old (by decide) _ (newPb_mem s)
theorem newPb_not_old (s : ER) : ¬ s.Old (newPb s).1.v := newAuxs_not_old _ (newPb_mem s)
theorem newPb_ext (s : ER) (b : Bool) (σ : Asg) : ∃ σ', Agree s σ σ' ∧ (newPb s).1.eval σ' = b := by
  obtain ⟨σ', h1, h2⟩ := newAuxs_extTy .pb 1 s (fun _ => b) σ
  exact ⟨σ', h1, by simpa [newPb] using h2 0 (by decide)⟩

/-- One gate: a new variable constrained to a function of existing literals. -/
theorem gate_ok {s : ER} {cs : Lit → List Clause} {g : Asg → Bool} (hw : Wf s)
    (hv : ∀ c ∈ cs (newPb s).1, ∀ l ∈ c, (newPb s).2.Old l.v)
    (hg : ∀ σ σ', Agree s σ σ' → g σ = g σ')
    (hcs : ∀ σ, (∀ c ∈ cs (newPb s).1, Clause.Sat σ c) ↔ (newPb s).1.eval σ = g σ) :
    let s' := (newPb s).2.addClauses (cs (newPb s).1)
    Le s s' ∧ Wf s' ∧ s'.Old (newPb s).1.v ∧ (∀ σ, Sat σ s' ↔ Sat σ s ∧ (newPb s).1.eval σ = g σ) ∧
    (∀ σ, Sat σ s → ∃ σ', Agree s σ σ' ∧ Sat σ' s') := by
  refine ⟨(newPb_le s).trans (addClauses_le _ _), addClauses_wf (newPb_wf hw) hv, (addClauses_old _ _ _).2 (newPb_old s),
    fun σ => ?_, fun σ hs => ?_⟩
  · rw [addClauses_sat, newPb_sat, hcs]
  · obtain ⟨σ', ha, he⟩ := newPb_ext s (g σ) σ
    refine ⟨σ', ha, addClauses_sat.2 ⟨newPb_sat.2 ((ha.sat hw).1 hs), (hcs σ').2 (by rw [he, hg _ _ ha])⟩⟩

theorem reduceBucket_ok : ∀ (fuel : Nat) (b nxt : List Lit) (s : ER), b ≠ [] → b.length ≤ fuel → Wf s →
    (∀ l ∈ b, s.Old l.v) → (∀ l ∈ nxt, s.Old l.v) →
    ∃ x nxt' s', reduceBucket fuel b nxt s = some (x, nxt', s') ∧ Le s s' ∧ Wf s' ∧ s'.Old x.v ∧ (∀ l ∈ nxt', s'.Old l.v) ∧
      nxt'.length = nxt.length + b.length / 2 ∧
      (∀ σ, Sat σ s' → cntL σ b + 2 * cntL σ nxt = (if x.eval σ then 1 else 0) + 2 * cntL σ nxt') ∧
      (∀ σ, Sat σ s → ∃ σ', Agree s σ σ' ∧ Sat σ' s') := by
  intro fuel
  induction fuel with
  | zero => intro b nxt s hb hf; exact absurd (List.length_eq_zero_iff.1 (Nat.le_zero.1 hf)) hb
  | succ fuel ih =>
    intro b nxt s hb hf hw ob on
    match b, hb with
    | [x], _ =>
      refine ⟨x, nxt, s, rfl, Le.refl _, hw, ob x (by simp), on, by simp, fun σ _ => ?_, fun σ hs => ⟨σ, Agree.refl _ _, hs⟩⟩
      simp [cntL, List.countP_cons]
    | [x, y], _ =>
      have ox := ob x (by simp)
      have oy := ob y (by simp)
      obtain ⟨l1, w1, o1, sat1, ext1⟩ := gate_ok (s := s) (cs := haSum x y) (g := fun σ => x.eval σ ^^ y.eval σ) hw
        (by
          intro c hc l hl
          have hx := (newPb_le s).old ox; have hy := (newPb_le s).old oy; have hz := newPb_old s
          simp only [haSum, List.mem_cons, List.not_mem_nil, or_false] at hc
          rcases hc with rfl | rfl | rfl | rfl <;> simp at hl <;> rcases hl with rfl | rfl | rfl <;> simpa)
        (fun σ σ' ha => by simp only [ha.lit ox, ha.lit oy])
        (fun σ => by
          simp only [haSum, List.forall_mem_cons, List.not_mem_nil, false_imp_iff, implies_true, and_true,
            Clause.sat_cons, Clause.sat_nil, or_false, Lit.eval_neg]
          cases x.eval σ <;> cases y.eval σ <;> cases (newPb s).1.eval σ <;> simp)
      generalize hs1 : (newPb s).2.addClauses (haSum x y (newPb s).1) = s1 at *
      have ox1 := l1.old ox
      have oy1 := l1.old oy
      obtain ⟨l2, w2, o2, sat2, ext2⟩ := gate_ok (s := s1) (cs := haCarry x y) (g := fun σ => x.eval σ && y.eval σ) w1
        (by
          intro c hc l hl
          have hx := (newPb_le s1).old ox1; have hy := (newPb_le s1).old oy1; have hz := newPb_old s1
          simp only [haCarry, List.mem_cons, List.not_mem_nil, or_false] at hc
          rcases hc with rfl | rfl | rfl <;> simp at hl <;> rcases hl with rfl | rfl | rfl <;> simpa)
        (fun σ σ' ha => by simp only [ha.lit ox1, ha.lit oy1])
        (fun σ => by
          simp only [haCarry, List.forall_mem_cons, List.not_mem_nil, false_imp_iff, implies_true, and_true,
            Clause.sat_cons, Clause.sat_nil, or_false, Lit.eval_neg]
          cases x.eval σ <;> cases y.eval σ <;> cases (newPb s1).1.eval σ <;> simp)
      generalize hs2 : (newPb s1).2.addClauses (haCarry x y (newPb s1).1) = s2 at *
      refine ⟨(newPb s).1, nxt ++ [(newPb s1).1], s2, ?_, l1.trans l2, w2, l2.old o1, ?_, by simp, ?_, ?_⟩
      · simp only [reduceBucket, hs1, hs2]
      · intro l hl
        simp only [List.mem_append, List.mem_singleton] at hl
        rcases hl with hl | rfl
        · exact l2.old (l1.old (on l hl))
        · exact o2
      · intro σ hs
        have h2 := (sat2 σ).1 hs
        have h1 := (sat1 σ).1 h2.1
        simp only [cntL, List.countP_cons, List.countP_append, List.countP_nil, h1.2, h2.2]
        cases x.eval σ <;> cases y.eval σ <;> simp <;> omega
      · intro σ hs
        obtain ⟨σ1, a1, hs1'⟩ := ext1 σ hs
        obtain ⟨σ2, a2, hs2'⟩ := ext2 σ1 hs1'
        exact ⟨σ2, a1.trans l1 a2, hs2'⟩
    | x :: y :: z :: r, _ =>
      have ox := ob x (by simp)
      have oy := ob y (by simp)
      have oz := ob z (by simp)
      obtain ⟨l1, w1, o1, sat1, ext1⟩ := gate_ok (s := s) (cs := faSum x y z) (g := fun σ => x.eval σ ^^ y.eval σ ^^ z.eval σ) hw
        (by
          intro c hc l hl
          have hx := (newPb_le s).old ox; have hy := (newPb_le s).old oy; have hz := newPb_old s
          have hz' := (newPb_le s).old oz
          simp only [faSum, List.mem_cons, List.not_mem_nil, or_false] at hc
          rcases hc with rfl | rfl | rfl | rfl | rfl | rfl | rfl | rfl <;> simp at hl <;>
            rcases hl with rfl | rfl | rfl | rfl <;> simpa)
        (fun σ σ' ha => by simp only [ha.lit ox, ha.lit oy, ha.lit oz])
        (fun σ => by
          simp only [faSum, List.forall_mem_cons, List.not_mem_nil, false_imp_iff, implies_true, and_true,
            Clause.sat_cons, Clause.sat_nil, or_false, Lit.eval_neg]
          cases x.eval σ <;> cases y.eval σ <;> cases z.eval σ <;> cases (newPb s).1.eval σ <;> simp)
      generalize hs1 : (newPb s).2.addClauses (faSum x y z (newPb s).1) = s1 at *
      have ox1 := l1.old ox
      have oy1 := l1.old oy
      have oz1 := l1.old oz
      obtain ⟨l2, w2, o2, sat2, ext2⟩ := gate_ok (s := s1) (cs := faCarry x y z)
        (g := fun σ => (x.eval σ && y.eval σ) || (x.eval σ && z.eval σ) || (y.eval σ && z.eval σ)) w1
        (by
          intro c hc l hl
          have hx := (newPb_le s1).old ox1; have hy := (newPb_le s1).old oy1; have hz := newPb_old s1
          have hz' := (newPb_le s1).old oz1
          simp only [faCarry, List.mem_cons, List.not_mem_nil, or_false] at hc
          rcases hc with rfl | rfl | rfl | rfl | rfl | rfl <;> simp at hl <;> rcases hl with rfl | rfl | rfl <;> simpa)
        (fun σ σ' ha => by simp only [ha.lit ox1, ha.lit oy1, ha.lit oz1])
        (fun σ => by
          simp only [faCarry, List.forall_mem_cons, List.not_mem_nil, false_imp_iff, implies_true, and_true,
            Clause.sat_cons, Clause.sat_nil, or_false, Lit.eval_neg]
          cases x.eval σ <;> cases y.eval σ <;> cases z.eval σ <;> cases (newPb s1).1.eval σ <;> simp)
      generalize hs2 : (newPb s1).2.addClauses (faCarry x y z (newPb s1).1) = s2 at *
      have w3 : Wf (s2.addClauses (faExtra (newPb s).1 (newPb s1).1 x y z)) := by
        refine addClauses_wf w2 ?_
        intro c hc l hl
        have hx := l2.old ox1; have hy := l2.old oy1; have hz := l2.old oz1; have ho := l2.old o1
        simp only [faExtra, List.mem_cons, List.not_mem_nil, or_false] at hc
        rcases hc with rfl | rfl | rfl | rfl | rfl | rfl <;> simp at hl <;> rcases hl with rfl | rfl | rfl <;> simpa
      have l3 : Le s2 (s2.addClauses (faExtra (newPb s).1 (newPb s1).1 x y z)) := addClauses_le _ _
      have sat3 : ∀ σ, Sat σ s2 → Sat σ (s2.addClauses (faExtra (newPb s).1 (newPb s1).1 x y z)) := by
        intro σ hs
        refine addClauses_sat.2 ⟨hs, ?_⟩
        have h2 := (sat2 σ).1 hs
        have h1 := (sat1 σ).1 h2.1
        simp only [faExtra, List.forall_mem_cons, List.not_mem_nil, false_imp_iff, implies_true, and_true,
            Clause.sat_cons, Clause.sat_nil, or_false, Lit.eval_neg, h1.2, h2.2]
        cases x.eval σ <;> cases y.eval σ <;> cases z.eval σ <;> simp
      generalize hs3 : s2.addClauses (faExtra (newPb s).1 (newPb s1).1 x y z) = s3 at *
      have l13 : Le s s3 := (l1.trans l2).trans l3
      obtain ⟨x', nxt', s', e, le, wf, ox', on', hlen, snd, ext⟩ := ih (r ++ [(newPb s).1]) (nxt ++ [(newPb s1).1]) s3 (by simp)
        (by simp at hf ⊢; omega) w3
        (by
          intro l hl
          simp only [List.mem_append, List.mem_singleton] at hl
          rcases hl with hl | rfl
          · exact l13.old (ob l (by simp [hl]))
          · exact l3.old (l2.old o1))
        (by
          intro l hl
          simp only [List.mem_append, List.mem_singleton] at hl
          rcases hl with hl | rfl
          · exact l13.old (on l hl)
          · exact l3.old o2)
      refine ⟨x', nxt', s', ?_, l13.trans le, wf, ox', on', ?_, ?_, ?_⟩
      · simp only [reduceBucket, hs1, hs2, hs3]; exact e
      · rw [hlen]; simp; omega
      · intro σ hs
        have h := snd σ hs
        have h2 := (sat2 σ).1 (l3.sat (le.sat hs))
        have h1 := (sat1 σ).1 h2.1
        rw [← h]
        simp only [cntL, List.countP_cons, List.countP_append, List.countP_nil, h1.2, h2.2]
        cases x.eval σ <;> cases y.eval σ <;> cases z.eval σ <;> simp <;> omega
      · intro σ hs
        obtain ⟨σ1, a1, hs1'⟩ := ext1 σ hs
        obtain ⟨σ2, a2, hs2'⟩ := ext2 σ1 hs1'
        obtain ⟨σ3, a3, hs3'⟩ := ext σ2 (sat3 σ2 hs2')
        exact ⟨σ3, (a1.trans l1 a2).trans l13 a3, hs3'⟩

/-- Value of buckets: every literal in bucket `i` counts `2^i` (specification). -/
def bval (σ : Asg) : List (List Lit) → Nat
  | [] => 0
  | b :: bs => cntL σ b + 2 * bval σ bs

/-- Value of a list of optional digits, lowest first (specification). -/
def xval (σ : Asg) : List (Option Lit) → Nat
  | [] => 0
  | x :: xs => (match x with | some l => if l.eval σ then 1 else 0 | none => 0) + 2 * xval σ xs

def XOld (s : ER) (xs : List (Option Lit)) : Prop := ∀ l, some l ∈ xs → s.Old l.v

theorem adderTree_ok : ∀ (fuel : Nat) (bs : List (List Lit)) (s : ER), bs.length + (bs.map List.length).sum ≤ fuel → Wf s →
    (∀ b ∈ bs, ∀ l ∈ b, s.Old l.v) →
    ∃ xs s', adderTree fuel bs s = some (xs, s') ∧ Le s s' ∧ Wf s' ∧ XOld s' xs ∧ bs.length ≤ xs.length ∧
      (∀ σ, Sat σ s' → bval σ bs = xval σ xs) ∧
      (∀ σ, Sat σ s → ∃ σ', Agree s σ σ' ∧ Sat σ' s') := by
  intro fuel
  induction fuel with
  | zero =>
    intro bs s hf hw ho
    cases bs with
    | nil => exact ⟨[], s, by simp [adderTree], Le.refl _, hw, by simp [XOld], by simp, by simp [bval, xval],
        fun σ hs => ⟨σ, Agree.refl _ _, hs⟩⟩
    | cons b bs => simp at hf
  | succ fuel ih =>
    intro bs s hf hw ho
    cases bs with
    | nil => exact ⟨[], s, by simp [adderTree], Le.refl _, hw, by simp [XOld], by simp, by simp [bval, xval],
        fun σ hs => ⟨σ, Agree.refl _ _, hs⟩⟩
    | cons b bs =>
      simp only [adderTree]
      by_cases hb : b = []
      · subst hb
        obtain ⟨xs, s', e, le, wf, xo, hl, snd, ext⟩ := ih bs s (by simp at hf ⊢; omega) hw (fun b hb => ho b (by simp [hb]))
        refine ⟨none :: xs, s', by simp [e], le, wf, ?_, by simpa using hl, fun σ hs => ?_, ext⟩
        · intro l hl; simp at hl; exact xo l hl
        · simp [bval, xval, snd σ hs, cntL]
      · have hbe : b.isEmpty = false := by simpa using hb
        rw [hbe]; simp only [Bool.false_eq_true, if_false]
        have ob := ho b (by simp)
        have hlb : 1 ≤ b.length := by cases b <;> simp at hb ⊢
        -- the buckets after a possible `push`
        have key : ∀ nxt rest, (∀ l ∈ nxt, s.Old l.v) → (∀ b ∈ rest, ∀ l ∈ b, s.Old l.v) →
            (rest.length + 1 + nxt.length + b.length / 2 + (rest.map List.length).sum ≤ fuel) →
            ∃ xs s', ((reduceBucket b.length b nxt s).bind fun (x, nxt, s) =>
              (adderTree fuel (nxt :: rest) s).map fun (xs, s) => (some x :: xs, s)) = some (xs, s') ∧ Le s s' ∧ Wf s' ∧ XOld s' xs ∧
              rest.length + 2 ≤ xs.length ∧
              (∀ σ, Sat σ s' → bval σ (b :: nxt :: rest) = xval σ xs) ∧ (∀ σ, Sat σ s → ∃ σ', Agree s σ σ' ∧ Sat σ' s') := by
          intro nxt rest on orr hm
          obtain ⟨x, nxt', s1, e1, l1, w1, ox1, on1, hlen1, snd1, ext1⟩ := reduceBucket_ok b.length b nxt s hb (Nat.le_refl _) hw ob on
          obtain ⟨xs, s2, e2, l2, w2, xo2, hl2, snd2, ext2⟩ := ih (nxt' :: rest) s1 (by simp; omega) w1
            (by
              intro b' hb'
              simp only [List.mem_cons] at hb'
              rcases hb' with rfl | hb'
              · exact on1
              · exact fun l hl => l1.old (orr b' hb' l hl))
          refine ⟨some x :: xs, s2, by simp [e1, e2], l1.trans l2, w2, ?_, by simp at hl2 ⊢; omega, fun σ hs => ?_, fun σ hs => ?_⟩
          · intro l hl; simp at hl
            rcases hl with rfl | hl
            · exact l2.old ox1
            · exact xo2 l hl
          · have h1 := snd1 σ (l2.sat hs)
            have h2 := snd2 σ hs
            simp only [bval, xval] at h2 ⊢
            rw [← h2]; omega
          · obtain ⟨σ1, a1, h1⟩ := ext1 σ hs
            obtain ⟨σ2, a2, h2⟩ := ext2 σ1 h1
            exact ⟨σ2, a1.trans l1 a2, h2⟩
        cases bs with
        | nil =>
          by_cases h2 : 2 ≤ b.length
          · obtain ⟨xs, s', e, le, wf, xo, hl, snd, ext⟩ := key [] [] (by simp) (by simp) (by simp at hf ⊢; omega)
            refine ⟨xs, s', by simpa [h2] using e, le, wf, xo, by simp at hl ⊢; omega, fun σ hs => ?_, ext⟩
            rw [← snd σ hs]; simp [bval, cntL]
          · obtain ⟨x, nxt', s1, e1, l1, w1, ox1, on1, hlen1, snd1, ext1⟩ :=
              reduceBucket_ok b.length b [] s hb (Nat.le_refl _) hw ob (by simp)
            have hn : nxt' = [] := List.length_eq_zero_iff.1 (by rw [hlen1]; simp; omega)
            refine ⟨[some x], s1, by simp [h2, e1, adderTree], l1, w1, ?_, by simp, fun σ hs => ?_, ext1⟩
            · intro l hl; simp at hl; subst hl; exact ox1
            · have := snd1 σ hs; simp [bval, xval, hn, cntL] at this ⊢; exact this
        | cons nxt rest =>
          obtain ⟨xs, s', e, le, wf, xo, hl, snd, ext⟩ := key nxt rest (ho nxt (by simp)) (fun b hb => ho b (by simp [hb]))
            (by simp at hf ⊢; omega)
          exact ⟨xs, s', by simpa using e, le, wf, xo, by simp at hl ⊢; omega, snd, ext⟩

theorem xval_lt (σ : Asg) : ∀ xs, xval σ xs < 2 ^ xs.length
  | [] => by simp [xval]
  | x :: xs => by
    have := xval_lt σ xs
    simp only [xval, List.length_cons, Nat.pow_succ]
    cases x with
    | none => simp; omega
    | some l => simp only; split <;> omega

/-- The higher digits: the clause says that they differ from those of the bound. -/
theorem leTail_ok (σ : Asg) : ∀ (xs : List (Option Lit)) (r : Nat), r < 2 ^ xs.length →
    match leTail xs r with
    | none => xval σ xs ≠ r
    | some c => Clause.Sat σ c ↔ xval σ xs ≠ r
  | [], r, h => by simp at h; simp [leTail, xval, h]
  | x :: xs, r, h => by
    have ih := leTail_ok σ xs (r / 2) (by rw [List.length_cons, Nat.pow_succ] at h; omega)
    simp only [leTail]
    by_cases hr : r % 2 = 1
    · rw [if_pos hr]
      cases x with
      | none => simp [xval]; omega
      | some l =>
        cases ht : leTail xs (r / 2) with
        | none =>
          rw [ht] at ih; simp only [Option.map_none, xval] at ih ⊢
          split <;> omega
        | some c =>
          rw [ht] at ih; simp only [Option.map_some, xval, Clause.sat_cons, Lit.eval_neg] at ih ⊢
          rw [ih]; cases l.eval σ <;> simp <;> omega
    · rw [if_neg hr]
      cases x with
      | none =>
        simp only
        cases ht : leTail xs (r / 2) with
        | none => rw [ht] at ih; simp only [xval] at ih ⊢; omega
        | some c => rw [ht] at ih; simp only [xval] at ih ⊢; rw [ih]; omega
      | some l =>
        cases ht : leTail xs (r / 2) with
        | none =>
          rw [ht] at ih; simp only [Option.map_none, xval] at ih ⊢
          split <;> omega
        | some c =>
          rw [ht] at ih; simp only [Option.map_some, xval, Clause.sat_cons] at ih ⊢
          rw [ih]; cases l.eval σ <;> simp <;> omega

theorem leClauses_ok (σ : Asg) : ∀ (xs : List (Option Lit)) (r : Nat), r < 2 ^ xs.length →
    ((∀ c ∈ leClauses xs r, Clause.Sat σ c) ↔ xval σ xs ≤ r)
  | [], r, h => by simp [leClauses, xval]
  | x :: xs, r, h => by
    have h' : r / 2 < 2 ^ xs.length := by rw [List.length_cons, Nat.pow_succ] at h; omega
    have ih := leClauses_ok σ xs (r / 2) h'
    have ht := leTail_ok σ xs (r / 2) h'
    simp only [leClauses, List.mem_append, or_imp, forall_and, ih, xval]
    cases x with
    | none => simp; omega
    | some l =>
      simp only
      by_cases hr : r % 2 = 1
      · rw [if_pos hr]; cases l.eval σ <;> simp <;> omega
      · rw [if_neg hr]
        cases hT : leTail xs (r / 2) with
        | none => rw [hT] at ht; simp only [List.not_mem_nil, false_imp_iff, implies_true, true_and] at ht ⊢; split <;> omega
        | some c =>
          rw [hT] at ht; simp only [List.mem_singleton, forall_eq] at ht ⊢
          have : Clause.Sat σ (c ++ [l.neg]) ↔ Clause.Sat σ c ∨ l.eval σ = false := by
            simp only [Clause.Sat, List.mem_append, List.mem_singleton]
            constructor
            · rintro ⟨m, hm | rfl, he⟩
              · exact .inl ⟨m, hm, he⟩
              · right; simpa using he
            · rintro (⟨m, hm, he⟩ | he)
              · exact ⟨m, .inl hm, he⟩
              · exact ⟨l.neg, .inr rfl, by simpa using he⟩
          rw [this, ht]; cases l.eval σ <;> simp <;> omega

theorem leTail_vars : ∀ (xs : List (Option Lit)) (r : Nat) (c : Clause), leTail xs r = some c → ∀ l ∈ c, ∃ m, some m ∈ xs ∧ m.v = l.v
  | [], r, c, h => by simp [leTail] at h; subst h; simp
  | x :: xs, r, c, h => by
    have ih := leTail_vars xs (r / 2)
    intro l hl
    have hrec : ∀ c', leTail xs (r / 2) = some c' → l ∈ c' → ∃ m, some m ∈ x :: xs ∧ m.v = l.v := by
      intro c' hc hl'
      obtain ⟨m, hm, he⟩ := ih c' hc l hl'
      exact ⟨m, by simp [hm], he⟩
    simp only [leTail] at h
    split at h
    · cases x with
      | none => simp at h
      | some k =>
        simp only [Option.map_eq_some_iff] at h
        obtain ⟨c', hc, rfl⟩ := h
        simp only [List.mem_cons] at hl
        rcases hl with rfl | hl
        · exact ⟨k, by simp, by simp⟩
        · exact hrec c' hc hl
    · cases x with
      | none => exact hrec c h hl
      | some k =>
        simp only [Option.map_eq_some_iff] at h
        obtain ⟨c', hc, rfl⟩ := h
        simp only [List.mem_cons] at hl
        rcases hl with rfl | hl
        · exact ⟨_, by simp, rfl⟩
        · exact hrec c' hc hl

theorem leClauses_vars : ∀ (xs : List (Option Lit)) (r : Nat), ∀ c ∈ leClauses xs r, ∀ l ∈ c, ∃ m, some m ∈ xs ∧ m.v = l.v
  | [], r => by simp [leClauses]
  | x :: xs, r => by
    intro c hc l hl
    simp only [leClauses, List.mem_append] at hc
    rcases hc with hc | hc
    · cases x with
      | none => simp at hc
      | some k =>
        simp only at hc
        split at hc
        · simp at hc
        · cases hT : leTail xs (r / 2) with
          | none => rw [hT] at hc; simp at hc
          | some c' =>
            rw [hT] at hc; simp only [List.mem_singleton] at hc; subst hc
            simp only [List.mem_append, List.mem_singleton] at hl
            rcases hl with hl | rfl
            · obtain ⟨m, hm, he⟩ := leTail_vars xs _ _ hT l hl; exact ⟨m, by simp [hm], he⟩
            · exact ⟨k, by simp, by simp⟩
    · obtain ⟨m, hm, he⟩ := leClauses_vars xs _ c hc l hl; exact ⟨m, by simp [hm], he⟩

theorem adderBucket_cnt (σ : Asg) (ts : List (Lit × Nat)) (i : Nat) :
    cntL σ (adderBucket ts i) = wsum σ (ts.map fun t => (t.1, t.2 / 2 ^ i % 2)) := by
  unfold adderBucket cntL
  rw [List.countP_reverse]
  induction ts with
  | nil => rfl
  | cons t ts ih =>
    simp only [List.map_cons, wsum_cons, ← ih]
    rw [List.filter_cons]
    have hb := Nat.testBit_eq_decide_div_mod_eq (x := t.2) (i := i)
    have hm := Nat.mod_two_eq_zero_or_one (t.2 / 2 ^ i)
    by_cases h : t.2 / 2 ^ i % 2 = 1
    · have : t.2.testBit i = true := by rw [hb]; simp [h]
      rw [this]; simp only [if_true, List.map_cons, List.countP_cons, h]; split <;> omega
    · have : t.2.testBit i = false := by rw [hb]; simp [h]
      have h0 : t.2 / 2 ^ i % 2 = 0 := by omega
      rw [this]; simp [h0]

theorem wsum_scale (σ : Asg) (ts : List (Lit × Nat)) (f g h : Nat → Nat) (hfg : ∀ t ∈ ts, h t.2 = f t.2 + 2 * g t.2) :
    wsum σ (ts.map fun t => (t.1, h t.2)) = wsum σ (ts.map fun t => (t.1, f t.2)) + 2 * wsum σ (ts.map fun t => (t.1, g t.2)) := by
  induction ts with
  | nil => rfl
  | cons t ts ih =>
    simp only [List.map_cons, wsum_cons, ih (fun t ht => hfg t (by simp [ht])), hfg t (by simp)]
    split <;> omega

theorem adderBuckets_val (σ : Asg) (ts : List (Lit × Nat)) : ∀ (nb k : Nat),
    bval σ ((List.range' k nb).map (adderBucket ts)) = wsum σ (ts.map fun t => (t.1, t.2 / 2 ^ k % 2 ^ nb))
  | 0, k => by
    simp only [List.range'_zero, List.map_nil, bval, Nat.pow_zero, Nat.mod_one]
    induction ts with
    | nil => rfl
    | cons t ts ih => simp [← ih]
  | nb + 1, k => by
    rw [List.range'_succ, List.map_cons, bval, adderBuckets_val σ ts nb (k + 1), adderBucket_cnt]
    refine (wsum_scale σ ts (fun c => c / 2 ^ k % 2) (fun c => c / 2 ^ (k + 1) % 2 ^ nb)
      (fun c => c / 2 ^ k % 2 ^ (nb + 1)) ?_).symm
    intro t _
    rw [Nat.pow_succ 2 nb, Nat.mul_comm (2 ^ nb) 2, Nat.mod_mul, Nat.pow_succ, Nat.div_div_eq_div_mul]

theorem lt_ldInt (x : Nat) : x < 2 ^ ldInt x := by
  unfold ldInt; split
  · omega
  · exact Nat.lt_log2_self

/-- The adder network says exactly `weighted sum ≤ rhs`. -/
theorem encodeAdder_encodes {ts : List (Lit × Nat)} {rhs : Nat} {s : ER} (hw : Wf s) (ho : TermsOld s ts)
    (hle : ∀ t ∈ ts, t.2 ≤ rhs) :
    ∃ s', encodeAdder ts rhs s = some s' ∧ Encodes s s' (fun σ => wsum σ ts ≤ rhs) := by
  have hob : ∀ b ∈ (List.range (ldInt rhs)).map (adderBucket ts), ∀ l ∈ b, s.Old l.v := by
    intro b hb l hl
    simp only [List.mem_map] at hb
    obtain ⟨i, _, rfl⟩ := hb
    simp only [adderBucket, List.mem_reverse, List.mem_map, List.mem_filter] at hl
    obtain ⟨t, ht, rfl⟩ := hl
    exact ho t ht.1
  obtain ⟨xs, s1, e, le, wf, xo, hl, snd, ext⟩ := adderTree_ok (ldInt rhs + (((List.range (ldInt rhs)).map (adderBucket ts)).map List.length).sum)
    ((List.range (ldInt rhs)).map (adderBucket ts)) s (by simp) hw hob
  have hval : ∀ σ, Sat σ s1 → xval σ xs = wsum σ ts := by
    intro σ hs
    rw [← snd σ hs, List.range_eq_range', adderBuckets_val]
    congr 1
    conv => rhs; rw [← List.map_id ts]
    refine List.map_congr_left fun t ht => ?_
    have := hle t ht
    have h2 := lt_ldInt rhs
    simp only [Nat.pow_zero, Nat.div_one, id]
    rw [Nat.mod_eq_of_lt (by omega)]
  have hr : rhs < 2 ^ xs.length := by
    refine Nat.lt_of_lt_of_le (lt_ldInt rhs) (Nat.pow_le_pow_right (by omega) ?_)
    simpa using hl
  refine ⟨s1.addClauses (leClauses xs rhs), by simp only [encodeAdder]; rw [e]; rfl, ?_⟩
  refine Encodes.mk' (le.trans (addClauses_le _ _)) hw (addClauses_wf wf ?_) ?_ ?_ ?_
  · intro c hc l hl
    obtain ⟨m, hm, he⟩ := leClauses_vars xs rhs c hc l hl
    rw [← he]; exact xo m hm
  · intro σ σ' ha h; rwa [← ha.wsum ho]
  · intro σ hs
    obtain ⟨h1, h2⟩ := addClauses_sat.1 hs
    rw [← hval σ h1]; exact (leClauses_ok σ xs rhs hr).1 h2
  · intro σ hs hc
    obtain ⟨σ', ha, h1⟩ := ext σ hs
    refine ⟨σ', ha, addClauses_sat.2 ⟨h1, (leClauses_ok σ' xs rhs hr).2 ?_⟩⟩
    rw [hval σ' h1, ← ha.wsum ho]; exact hc

end Verif
