import Verif.Enc.Modular3
/-
Model of src/cardinality_constraints/cc_sorter.rs.  `none` stands for a panic (failed
`assert!`).
-/
namespace Verif
open ER

/-- `ImplicationDirection`, cc_sorter.rs:7-12. -/
inductive Dir | i2o | o2i | both
  deriving DecidableEq, Repr

/-- `comparator1`, cc_sorter.rs:74-83. -/
def comp1 (x1 x2 y : Lit) (d : Dir) : Option (List Clause) :=
  if x1 = x2 then none else
  some ((if d = .i2o ∨ d = .both then [[x1.neg, y], [x2.neg, y]] else []) ++
        (if d = .o2i ∨ d = .both then [[y.neg, x1, x2]] else []))

/-- `comparator2`, cc_sorter.rs:85-98. -/
def comp2 (x1 x2 y1 y2 : Lit) (d : Dir) : Option (List Clause) :=
  if x1 = x2 ∨ y1 = y2 then none else
  some ((if d = .i2o ∨ d = .both then [[x1.neg, y1], [x2.neg, y1], [x1.neg, x2.neg, y2]] else []) ++
        (if d = .o2i ∨ d = .both then [[y1.neg, x1, x2], [y2.neg, x1], [y2.neg, x2]] else []))

/-- `direct_merger`, cc_sorter.rs:261-279. -/
def directMerger (m : Nat) (a b : List Lit) (s : ER) : List Lit × ER :=
  let (out, s) := newLits m s
  (out, s.addClauses (
    (List.range (min m a.length)).map (fun i => [(a.nth i).neg, out.nth i]) ++
    (List.range (min m b.length)).map (fun i => [(b.nth i).neg, out.nth i]) ++
    (List.range a.length).flatMap (fun i => (List.range b.length).flatMap fun j =>
      if i + j + 1 < m then [[(a.nth i).neg, (b.nth j).neg, out.nth (i + j + 1)]] else [])))

/-- The loop at the end of `recursive_merger`, cc_sorter.rs:228-257 (there `j = i - 1`
throughout).  Fuel bounds the iterations; `odd.length + 2` suffices. -/
def mergeLoop (c : Nat) (odd even : List Lit) (d : Dir) : Nat → Nat → List Lit → ER → Option (List Lit × ER)
  | 0, _, _, _ => none
  | fuel + 1, i, out, s =>
    if i < odd.length ∧ i - 1 < even.length then
      if out.length + 2 ≤ c then
        let (z, s) := newLits 2 s
        (comp2 (odd.nth i) (even.nth (i - 1)) (z.nth 0) (z.nth 1) d).bind fun cs =>
        if out.length + 2 = c then some (out ++ [z.nth 0, z.nth 1], s.addClauses cs)
        else mergeLoop c odd even d fuel (i + 1) (out ++ [z.nth 0, z.nth 1]) (s.addClauses cs)
      else if out.length + 1 = c then
        let (z, s) := newLits 1 s
        (comp1 (odd.nth i) (even.nth (i - 1)) (z.nth 0) d).bind fun cs =>
        some (out ++ [z.nth 0], s.addClauses cs)
      else mergeLoop c odd even d fuel (i + 1) out s
    else if i ≥ odd.length ∧ i - 1 ≥ even.length then some (out, s)
    else if i ≥ odd.length then mergeLoop c odd even d fuel (i + 1) (out ++ [even.nth (even.length - 1)]) s
    else mergeLoop c odd even d fuel (i + 1) (out ++ [odd.nth (odd.length - 1)]) s

/-- Elements 0, 2, 4, ... below `k`: `for i in (0..k).step_by(2)`. -/
def oddsOf (k : Nat) (l : List Lit) : List Lit := (List.range ((k + 1) / 2)).map fun i => l.nth (2 * i)
/-- Elements 1, 3, 5, ... below `k`: `for i in (1..k).step_by(2)`. -/
def evensOf (k : Nat) (l : List Lit) : List Lit := (List.range (k / 2)).map fun i => l.nth (2 * i + 1)

/-- `cc_merge`, cc_sorter.rs:40-64, with `recursive_merger`, 186-259, inlined.  Fuel bounds
the recursion depth. -/
def ccMerge : Nat → Nat → List Lit → List Lit → Dir → ER → Option (List Lit × ER)
  | 0, _, _, _, _, _ => none
  | fuel + 1, m, a, b, d, s =>
    if m = 0 then some ([], s)
    else if a.isEmpty then some (b, s)
    else if b.isEmpty then some (a, s)
    else
      let c := min m (a.length + b.length)
      if d = .i2o then some (directMerger c a b s)
      else
        let a2 := min c a.length
        let b2 := min c b.length
        (if c = 1 then
          let (z, s) := newLits 1 s
          (comp1 (a.nth 0) (b.nth 0) (z.nth 0) d).bind fun cs => some ([z.nth 0], s.addClauses cs)
        else if a2 = 1 ∧ b2 = 1 then
          if c ≠ 2 then none else
          let (z, s) := newLits 2 s
          (comp2 (a.nth 0) (b.nth 0) (z.nth 0) (z.nth 1) d).bind fun cs =>
            some ([z.nth 0, z.nth 1], s.addClauses cs)
        else
          (ccMerge fuel (c / 2 + 1) (oddsOf a2 a) (oddsOf b2 b) d s).bind fun (odd, s) =>
          (ccMerge fuel (c / 2) (evensOf a2 a) (evensOf b2 b) d s).bind fun (even, s) =>
          mergeLoop c odd even d (odd.length + 2) 1 [odd.nth 0] s).bind fun (out, s) =>
        if out.length = c then some (out, s) else none

/-- `counter_sorter_value`, cc_sorter.rs:66-68. -/
def counterSorterValue (m n : Nat) : Nat :=
  2 * n + (m - 1) * (2 * (n - 1) - 1) - (m - 2) - 2 * ((m - 1) * (m - 2) / 2)

/-- `direct_sorter_value`, cc_sorter.rs:70-72 (64-bit `usize`). -/
def directSorterValue (n : Nat) : Nat := if n > 30 then 2 ^ 64 - 1 else 2 ^ n - 1

/-- Columns of new literals of the given sizes. -/
def allocCols : List Nat → ER → List (List Lit) × ER
  | [], s => ([], s)
  | k :: ks, s =>
    let (c, s) := newLits k s
    let (cs, s) := allocCols ks s
    (c :: cs, s)

/-- `counter_sorter`, cc_sorter.rs:121-152, for the direction input-to-output (the only one
it is called with).  `aux_vars[i][j]` exists for `j ≤ i`; here column `j` is a list and
`aux_vars[i][j]` its element `i - j`. -/
def counterSorter (k : Nat) (x : List Lit) (s : ER) : List Lit × ER :=
  let n := x.length
  let (cols, s) := allocCols ((List.range k).map fun j => n - j) s
  let aux := fun i j => (cols.nth j).nth (i - j)
  ((List.range k).map fun j => aux (n - 1) j,
   s.addClauses (
    (List.range n).flatMap (fun i => [[(x.nth i).neg, aux i 0]] ++
      (if i > 0 then [[(aux (i - 1) 0).neg, aux i 0]] else [])) ++
    (List.range' 1 (k - 1)).flatMap (fun j => (List.range' j (n - j)).flatMap fun i =>
      [[(x.nth i).neg, (aux (i - 1) (j - 1)).neg, aux i j]] ++
      (if i > j then [[(aux (i - 1) j).neg, aux i j]] else []))))

/-- The literals selected by a bit mask. -/
def maskSel (mask : Nat) (x : List Lit) : List Lit :=
  ((List.range x.length).filter fun i => mask.testBit i).map fun i => x.nth i

/-- `direct_sorter`, cc_sorter.rs:154-184. -/
def directSorter (m : Nat) (x : List Lit) (s : ER) : Option (List Lit × ER) :=
  if ¬ x.length < 20 then none else
  let (out, s) := newLits m s
  some (out, s.addClauses ((List.range' 1 (2 ^ x.length - 1)).flatMap fun mask =>
    let sel := maskSel mask x
    if sel.length ≤ m then [sel.map Lit.neg ++ [out.nth (sel.length - 1)]] else []))

/-- `cc_sort`, cc_sorter.rs:14-38, with `recursive_sorter`, 100-119, inlined.  Fuel bounds
the recursion depth. -/
def ccSort : Nat → Nat → List Lit → Dir → ER → Option (List Lit × ER)
  | 0, _, _, _, _ => none
  | fuel + 1, m, x, d, s =>
    let n := x.length
    let m2 := min m n
    if m = 0 ∨ n = 0 then some ([], s)
    else if n = 1 then some (x, s)
    else if n = 2 then
      if m2 = 2 then
        let (z, s) := newLits 2 s
        (comp2 (x.nth 0) (x.nth 1) (z.nth 0) (z.nth 1) d).bind fun cs => some ([z.nth 0, z.nth 1], s.addClauses cs)
      else
        let (z, s) := newLits 1 s
        (comp1 (x.nth 0) (x.nth 1) (z.nth 0) d).bind fun cs => some ([z.nth 0], s.addClauses cs)
    else if d ≠ .i2o then
      let l := n / 2
      (ccSort fuel m2 (x.take l) d s).bind fun (o1, s) =>
      (ccSort fuel m2 (x.drop l) d s).bind fun (o2, s) =>
      if o1.length = min m2 l ∧ o2.length = min m2 (n - l) then
        ccMerge (o1.length + o2.length + 2) m2 o1 o2 d s
      else none
    else if m2 < 2 then none -- `m - 2` underflows in `counter_sorter_value`
    else if counterSorterValue m2 n < directSorterValue n then some (counterSorter m2 x s)
    else directSorter m2 x s

/-! ### Lemmas -/

def Up (σ : Asg) (l : List Lit) (N : Nat) : Prop := ∀ k, k < l.length → k < N → (l.nth k).eval σ = true
def Dn (σ : Asg) (l : List Lit) (N : Nat) : Prop := ∀ k, k < l.length → (l.nth k).eval σ = true → k < N
def Ex (σ : Asg) (l : List Lit) (N : Nat) : Prop := ∀ k, k < l.length → (l.nth k).eval σ = decide (k < N)

theorem ER.Agree.ex {s : ER} {σ σ' : Asg} (ha : Agree s σ σ') {l N} (ol : ∀ x ∈ l, s.Old x.v) (h : Ex σ l N) : Ex σ' l N := by
  intro k hk; rw [← ha.lit (ol _ (getBang_mem hk))]; exact h k hk

theorem comp1_spec {x1 x2 y : Lit} {d : Dir} (h : x1 ≠ x2) : ∃ cs, comp1 x1 x2 y d = some cs ∧
    (∀ c ∈ cs, ∀ l ∈ c, l.v = x1.v ∨ l.v = x2.v ∨ l.v = y.v) ∧
    ∀ σ, (∀ c ∈ cs, Clause.Sat σ c) ↔
      (d ≠ .o2i → (x1.eval σ = true ∨ x2.eval σ = true) → y.eval σ = true) ∧
      (d ≠ .i2o → y.eval σ = true → x1.eval σ = true ∨ x2.eval σ = true) := by
  unfold comp1
  rw [if_neg h]
  refine ⟨_, rfl, ?_, ?_⟩
  · intro c hc l hl
    cases d <;> simp at hc <;> rcases hc with rfl | rfl | rfl <;> simp at hl <;> grind [Lit.neg_v]
  · intro σ
    cases d <;> cases h1 : x1.eval σ <;> cases h2 : x2.eval σ <;> cases h3 : y.eval σ <;> simp [h1, h2, h3]

theorem comp2_spec {x1 x2 y1 y2 : Lit} {d : Dir} (h : x1 ≠ x2) (h' : y1 ≠ y2) : ∃ cs, comp2 x1 x2 y1 y2 d = some cs ∧
    (∀ c ∈ cs, ∀ l ∈ c, l.v = x1.v ∨ l.v = x2.v ∨ l.v = y1.v ∨ l.v = y2.v) ∧
    ∀ σ, (∀ c ∈ cs, Clause.Sat σ c) ↔
      (d ≠ .o2i → ((x1.eval σ = true ∨ x2.eval σ = true) → y1.eval σ = true) ∧
        (x1.eval σ = true → x2.eval σ = true → y2.eval σ = true)) ∧
      (d ≠ .i2o → (y1.eval σ = true → x1.eval σ = true ∨ x2.eval σ = true) ∧
        (y2.eval σ = true → x1.eval σ = true ∧ x2.eval σ = true)) := by
  unfold comp2
  rw [if_neg (by simp [h, h'])]
  refine ⟨_, rfl, ?_, ?_⟩
  · intro c hc l hl
    cases d <;> simp at hc <;> rcases hc with rfl | rfl | rfl | rfl | rfl | rfl <;> simp at hl <;> grind [Lit.neg_v]
  · intro σ
    cases d <;> cases h1 : x1.eval σ <;> cases h2 : x2.eval σ <;> cases h3 : y1.eval σ <;> cases h4 : y2.eval σ <;>
      simp [h1, h2, h3, h4]

theorem newLits_not_old {k : Nat} {s : ER} : ∀ l ∈ (newLits k s).1, ¬ s.Old l.v := by
  intro l hl; simp [newLits] at hl; obtain ⟨v, hv, rfl⟩ := hl
  exact newAuxs_not_old v hv

theorem newLits_nodup {k : Nat} {s : ER} : (newLits k s).1.Nodup := by
  unfold newLits
  simp only [List.Nodup, List.pairwise_map]
  refine List.Pairwise.imp ?_ (newAuxs_nodup (ty := .cc) (n := k) (s := s))
  intro a b h h'; simp at h'; exact h h'

theorem nth_ne_of_nodup {l : List Lit} (h : l.Nodup) {i j : Nat} (hi : i < l.length) (hj : j < l.length) (hij : i ≠ j) :
    l.nth i ≠ l.nth j := by
  rw [getBang _ _ hi, getBang _ _ hj]
  intro he
  rcases Nat.lt_or_gt_of_ne hij with h' | h'
  · exact (List.pairwise_iff_getElem.1 h) i j hi hj h' he
  · exact (List.pairwise_iff_getElem.1 h) j i hj hi h' he.symm

/-- `newLits 1`. -/
theorem newLits_one (s : ER) : ∃ z s1, newLits 1 s = ([z], s1) ∧ Le s s1 ∧ (∀ σ, Sat σ s1 ↔ Sat σ s) ∧ (Wf s → Wf s1) ∧
    s1.Old z.v ∧ ¬ s.Old z.v ∧ ∀ (σ : Asg) (b : Bool), ∃ σ', Agree s σ σ' ∧ z.eval σ' = b := by
  have h := newLits_length 1 s
  obtain ⟨z, hz⟩ := List.length_eq_one_iff.1 h
  have e : newLits 1 s = ([z], (newLits 1 s).2) := by rw [← hz]
  refine ⟨z, _, e, newLits_le 1 s, fun σ => newLits_sat, newLits_wf, newLits_old z (by rw [hz]; simp),
    newLits_not_old (k := 1) z (by rw [hz]; simp), ?_⟩
  intro σ b
  obtain ⟨σ', ha, hb⟩ := newLits_ext 1 s (fun _ => b) σ
  have := hb 0 (by omega)
  rw [hz] at this
  exact ⟨σ', ha, this⟩

/-- `newLits 2`. -/
theorem newLits_two (s : ER) : ∃ z0 z1 s1, newLits 2 s = ([z0, z1], s1) ∧ Le s s1 ∧ (∀ σ, Sat σ s1 ↔ Sat σ s) ∧ (Wf s → Wf s1) ∧
    s1.Old z0.v ∧ s1.Old z1.v ∧ ¬ s.Old z0.v ∧ ¬ s.Old z1.v ∧ z0 ≠ z1 ∧
    ∀ (σ : Asg) (b b' : Bool), ∃ σ', Agree s σ σ' ∧ z0.eval σ' = b ∧ z1.eval σ' = b' := by
  have h := newLits_length 2 s
  obtain ⟨z0, z1, hz⟩ : ∃ z0 z1, (newLits 2 s).1 = [z0, z1] := by
    match (newLits 2 s).1, h with
    | [z0, z1], _ => exact ⟨z0, z1, rfl⟩
  have e : newLits 2 s = ([z0, z1], (newLits 2 s).2) := by rw [← hz]
  have hnd := newLits_nodup (k := 2) (s := s)
  rw [hz] at hnd
  refine ⟨z0, z1, _, e, newLits_le 2 s, fun σ => newLits_sat, newLits_wf, newLits_old z0 (by rw [hz]; simp),
    newLits_old z1 (by rw [hz]; simp),
    newLits_not_old (k := 2) z0 (by rw [hz]; simp), newLits_not_old (k := 2) z1 (by rw [hz]; simp), by simpa using hnd, ?_⟩
  intro σ b b'
  obtain ⟨σ', ha, hb⟩ := newLits_ext 2 s (fun i => if i = 0 then b else b') σ
  have h0 := hb 0 (by omega)
  have h1 := hb 1 (by omega)
  rw [hz] at h0 h1
  exact ⟨σ', ha, h0, h1⟩

theorem nth_append_left {l l' : List Lit} {k : Nat} (h : k < l.length) : (l ++ l').nth k = l.nth k := by
  rw [getBang _ _ (by simp; omega), getBang _ _ h]; simp [List.getElem_append_left, h]

theorem nth_append_len {l : List Lit} {x : Lit} {l'} : (l ++ x :: l').nth l.length = x := by
  rw [getBang _ _ (by simp)]; simp

theorem nth_append_len1 {l : List Lit} {x y : Lit} {l'} : (l ++ x :: y :: l').nth (l.length + 1) = y := by
  rw [getBang _ _ (by simp)]; simp [List.getElem_append]

/-- What the loop of the recursive merger achieves. -/
structure LoopOK (c P Q : Nat) (d : Dir) (odd even out : List Lit) (s : ER) (out' : List Lit) (s' : ER) : Prop where
  len : out'.length = c
  le : Le s s'
  wf : Wf s'
  old : ∀ l ∈ out', s'.Old l.v
  nodup : out'.Nodup
  mem : ∀ l ∈ out', l ∈ out ∨ l ∈ odd ∨ l ∈ even ∨ ¬ s.Old l.v
  pre : ∀ k, k < out.length → out'.nth k = out.nth k
  up : d ≠ .o2i → ∀ σ, Sat σ s' → ∀ O E, E ≤ O → O ≤ E + 2 → O ≤ P → E ≤ Q → Up σ odd O → Up σ even E →
    ∀ k, out.length ≤ k → k < c → k < O + E → (out'.nth k).eval σ = true
  dn : d ≠ .i2o → ∀ σ, Sat σ s' → ∀ O E, E ≤ O → O ≤ E + 2 → Dn σ odd O → Dn σ even E →
    ∀ k, out.length ≤ k → k < c → (out'.nth k).eval σ = true → k < O + E
  compl : ∀ σ, Sat σ s → ∀ O E, E ≤ O → O ≤ E + 2 → O ≤ P → E ≤ Q → Ex σ odd O → Ex σ even E →
    ∃ σ', Agree s σ σ' ∧ Sat σ' s' ∧ ∀ k, out.length ≤ k → k < c → (out'.nth k).eval σ' = decide (k < O + E)

theorem mergeLoop_spec {c P Q : Nat} {odd even : List Lit} {d : Dir}
    (hP : odd.length = min (c / 2 + 1) P) (hQ : even.length = min (c / 2) Q) (h1 : Q ≤ P) (h2 : P ≤ Q + 2)
    (h3 : c ≤ P + Q) (disj : ∀ x ∈ odd, x ∉ even) :
    ∀ (fuel i : Nat) (out : List Lit) (s : ER), 1 ≤ i → out.length = 2 * i - 1 → out.length < c →
      odd.length + 3 ≤ fuel + i → Wf s → (∀ l ∈ odd, s.Old l.v) → (∀ l ∈ even, s.Old l.v) → (∀ l ∈ out, s.Old l.v) →
      out.Nodup → (∀ k, i ≤ k → k < odd.length → odd.nth k ∉ out) →
      (∀ k, i - 1 ≤ k → k < even.length → even.nth k ∉ out) →
      ∃ out' s', mergeLoop c odd even d fuel i out s = some (out', s') ∧ LoopOK c P Q d odd even out s out' s' := by
  intro fuel
  induction fuel with
  | zero => intros; omega
  | succ fuel ih =>
    intro i out s hi hlen hlt hfuel hw oo oe oout nd no ne
    simp only [mergeLoop]
    by_cases hb : i < odd.length ∧ i - 1 < even.length
    · rw [if_pos hb]
      have hoi : s.Old (odd.nth i).v := oo _ (getBang_mem hb.1)
      have hei : s.Old (even.nth (i - 1)).v := oe _ (getBang_mem hb.2)
      have hne : odd.nth i ≠ even.nth (i - 1) := fun h => disj _ (getBang_mem hb.1) (h ▸ getBang_mem hb.2)
      by_cases hc2 : out.length + 2 ≤ c
      · rw [if_pos hc2]
        obtain ⟨z0, z1, s1, e1, le1, sat1, w1, oz0, oz1, nz0, nz1, zne, ext⟩ := newLits_two s
        rw [e1]
        simp only [show ([z0, z1] : List Lit).nth 0 = z0 from rfl, show ([z0, z1] : List Lit).nth 1 = z1 from rfl]
        obtain ⟨cs, ecs, vcs, scs⟩ := comp2_spec (d := d) hne zne
        rw [ecs]; simp only [Option.bind_some]
        have w2 : Wf (s1.addClauses cs) := addClauses_wf (w1 hw) (by
          intro c hc l hl
          rcases vcs c hc l hl with h | h | h | h <;> rw [h]
          · exact le1.old hoi
          · exact le1.old hei
          · exact oz0
          · exact oz1)
        have le2 : Le s (s1.addClauses cs) := le1.trans (addClauses_le _ _)
        have nd2 : (out ++ [z0, z1]).Nodup := by
          rw [List.nodup_append]
          refine ⟨nd, by simpa using zne, ?_⟩
          intro a ha b hb' hab
          subst hab
          simp at hb'
          rcases hb' with rfl | rfl
          · exact nz0 (oout _ ha)
          · exact nz1 (oout _ ha)
        have oout2 : ∀ l ∈ out ++ [z0, z1], (s1.addClauses cs).Old l.v := by
          intro l hl; simp at hl; rw [addClauses_old]
          rcases hl with hl | rfl | rfl
          · exact le1.old (oout l hl)
          · exact oz0
          · exact oz1
        have U0 : d ≠ .o2i → ∀ σ, Sat σ (s1.addClauses cs) → ∀ O E, E ≤ O → O ≤ E + 2 → O ≤ P → E ≤ Q → Up σ odd O → Up σ even E →
            (out.length < O + E → z0.eval σ = true) ∧ (out.length + 1 < O + E → z1.eval σ = true) := by
          intro hd σ hs O E hO hO2 _ _ u1 u2
          have := ((scs σ).1 (addClauses_sat.1 hs).2).1 hd
          constructor
          · intro h
            apply this.1
            by_cases h' : i < O
            · left; exact u1 _ hb.1 h'
            · right; exact u2 _ hb.2 (by omega)
          · intro h
            exact this.2 (u1 _ hb.1 (by omega)) (u2 _ hb.2 (by omega))
        have D0 : d ≠ .i2o → ∀ σ, Sat σ (s1.addClauses cs) → ∀ O E, E ≤ O → O ≤ E + 2 → Dn σ odd O → Dn σ even E →
            (z0.eval σ = true → out.length < O + E) ∧ (z1.eval σ = true → out.length + 1 < O + E) := by
          intro hd σ hs O E hO hO2 u1 u2
          have := ((scs σ).1 (addClauses_sat.1 hs).2).2 hd
          constructor
          · intro h
            rcases this.1 h with h' | h'
            · have := u1 _ hb.1 h'; omega
            · have := u2 _ hb.2 h'; omega
          · intro h
            have h' := this.2 h
            have := u1 _ hb.1 h'.1
            have := u2 _ hb.2 h'.2
            omega
        have C0 : ∀ σ, Sat σ s → ∀ O E, E ≤ O → O ≤ E + 2 → Ex σ odd O → Ex σ even E →
            ∃ σ', Agree s σ σ' ∧ Sat σ' (s1.addClauses cs) ∧ z0.eval σ' = decide (out.length < O + E) ∧
              z1.eval σ' = decide (out.length + 1 < O + E) := by
          intro σ hs O E hO hO2 x1 x2
          obtain ⟨σ', ha, b0, b1⟩ := ext σ (decide (out.length < O + E)) (decide (out.length + 1 < O + E))
          refine ⟨σ', ha, addClauses_sat.2 ⟨(sat1 _).2 ((ha.sat hw).1 hs), (scs σ').2 ?_⟩, b0, b1⟩
          have y1 := ha.ex oo x1 i hb.1
          have y2 := ha.ex oe x2 (i - 1) hb.2
          rw [y1, y2, b0, b1]
          simp only [decide_eq_true_eq]
          refine ⟨fun _ => ⟨?_, ?_⟩, fun _ => ⟨?_, ?_⟩⟩ <;> omega
        by_cases hc' : out.length + 2 = c
        · rw [if_pos hc']
          refine ⟨_, _, rfl, ⟨by simpa using hc', le2, w2, oout2, nd2, ?_, ?_, ?_, ?_, ?_⟩⟩
          · intro l hl; simp at hl
            rcases hl with hl | rfl | rfl
            · exact Or.inl hl
            · exact Or.inr (Or.inr (Or.inr nz0))
            · exact Or.inr (Or.inr (Or.inr nz1))
          · intro k hk; exact nth_append_left hk
          · intro hd σ hs O E a1 a2 a3 a4 u1 u2 k k1 k2 k3
            have := U0 hd σ hs O E a1 a2 a3 a4 u1 u2
            have hk : k = out.length ∨ k = out.length + 1 := by omega
            rcases hk with rfl | rfl
            · rw [nth_append_len]; exact this.1 k3
            · rw [nth_append_len1]; exact this.2 k3
          · intro hd σ hs O E a1 a2 u1 u2 k k1 k2 k3
            have := D0 hd σ hs O E a1 a2 u1 u2
            have hk : k = out.length ∨ k = out.length + 1 := by omega
            rcases hk with rfl | rfl
            · rw [nth_append_len] at k3; exact this.1 k3
            · rw [nth_append_len1] at k3; exact this.2 k3
          · intro σ hs O E a1 a2 _ _ x1 x2
            obtain ⟨σ', ha, hs', b0, b1⟩ := C0 σ hs O E a1 a2 x1 x2
            refine ⟨σ', ha, hs', ?_⟩
            intro k k1 k2
            have hk : k = out.length ∨ k = out.length + 1 := by omega
            rcases hk with rfl | rfl
            · rw [nth_append_len]; exact b0
            · rw [nth_append_len1]; exact b1
        · rw [if_neg hc']
          obtain ⟨out', s', e, L⟩ := ih (i + 1) (out ++ [z0, z1]) (s1.addClauses cs) (by omega) (by simp; omega) (by simp; omega)
            (by omega) w2 (fun l h => le2.old (oo l h)) (fun l h => le2.old (oe l h)) oout2 nd2
            (by
              intro k k1 k2 hm; simp at hm
              rcases hm with hm | hm | hm
              · exact no k (by omega) k2 hm
              · exact nz0 (hm ▸ oo _ (getBang_mem k2))
              · exact nz1 (hm ▸ oo _ (getBang_mem k2)))
            (by
              intro k k1 k2 hm; simp at hm
              rcases hm with hm | hm | hm
              · exact ne k (by omega) k2 hm
              · exact nz0 (hm ▸ oe _ (getBang_mem k2))
              · exact nz1 (hm ▸ oe _ (getBang_mem k2)))
          have p0 : out'.nth out.length = z0 := by rw [L.pre _ (by simp)]; exact nth_append_len
          have p1 : out'.nth (out.length + 1) = z1 := by rw [L.pre _ (by simp)]; exact nth_append_len1
          have hl2 : (out ++ [z0, z1]).length = out.length + 2 := by simp
          refine ⟨out', s', e, ⟨L.len, le2.trans L.le, L.wf, L.old, L.nodup, ?_, ?_, ?_, ?_, ?_⟩⟩
          · intro l hl
            rcases L.mem l hl with h | h | h | h
            · simp at h
              rcases h with h | rfl | rfl
              · exact Or.inl h
              · exact Or.inr (Or.inr (Or.inr nz0))
              · exact Or.inr (Or.inr (Or.inr nz1))
            · exact Or.inr (Or.inl h)
            · exact Or.inr (Or.inr (Or.inl h))
            · exact Or.inr (Or.inr (Or.inr (fun h' => h (le2.old h'))))
          · intro k hk; rw [L.pre k (by simp; omega)]; exact nth_append_left hk
          · intro hd σ hs O E a1 a2 a3 a4 u1 u2 k k1 k2 k3
            have := U0 hd σ (L.le.sat hs) O E a1 a2 a3 a4 u1 u2
            by_cases hk0 : k = out.length
            · subst hk0; rw [p0]; exact this.1 k3
            · by_cases hk1 : k = out.length + 1
              · subst hk1; rw [p1]; exact this.2 k3
              · exact L.up hd σ hs O E a1 a2 a3 a4 u1 u2 k (by omega) k2 k3
          · intro hd σ hs O E a1 a2 u1 u2 k k1 k2 k3
            have := D0 hd σ (L.le.sat hs) O E a1 a2 u1 u2
            by_cases hk0 : k = out.length
            · subst hk0; rw [p0] at k3; exact this.1 k3
            · by_cases hk1 : k = out.length + 1
              · subst hk1; rw [p1] at k3; exact this.2 k3
              · exact L.dn hd σ hs O E a1 a2 u1 u2 k (by omega) k2 k3
          · intro σ hs O E a1 a2 a3 a4 x1 x2
            obtain ⟨σ1, ha1, hs1, b0, b1⟩ := C0 σ hs O E a1 a2 x1 x2
            obtain ⟨σ2, ha2, hs2, hx⟩ := L.compl σ1 hs1 O E a1 a2 a3 a4 (ha1.ex oo x1) (ha1.ex oe x2)
            refine ⟨σ2, ha1.trans le2 ha2, hs2, ?_⟩
            intro k k1 k2
            by_cases hk0 : k = out.length
            · subst hk0; rw [p0, ← ha2.lit (by rw [addClauses_old]; exact oz0)]; exact b0
            · by_cases hk1 : k = out.length + 1
              · subst hk1; rw [p1, ← ha2.lit (by rw [addClauses_old]; exact oz1)]; exact b1
              · exact hx k (by omega) k2
      · rw [if_neg hc2, if_pos (by omega)]
        obtain ⟨z0, s1, e1, le1, sat1, w1, oz0, nz0, ext⟩ := newLits_one s
        rw [e1]
        simp only [show ([z0] : List Lit).nth 0 = z0 from rfl]
        obtain ⟨cs, ecs, vcs, scs⟩ := comp1_spec (y := z0) (d := d) hne
        rw [ecs]; simp only [Option.bind_some]
        have w2 : Wf (s1.addClauses cs) := addClauses_wf (w1 hw) (by
          intro c hc l hl
          rcases vcs c hc l hl with h | h | h <;> rw [h]
          · exact le1.old hoi
          · exact le1.old hei
          · exact oz0)
        have le2 : Le s (s1.addClauses cs) := le1.trans (addClauses_le _ _)
        have hlast : out.length + 1 = c := by omega
        refine ⟨_, _, rfl, ⟨by simpa using hlast, le2, w2, ?_, ?_, ?_, ?_, ?_, ?_, ?_⟩⟩
        · intro l hl; simp at hl; rw [addClauses_old]
          rcases hl with hl | rfl
          · exact le1.old (oout l hl)
          · exact oz0
        · rw [List.nodup_append]
          refine ⟨nd, by simp, ?_⟩
          intro a ha b hb' hab
          subst hab
          simp at hb'; subst hb'
          exact nz0 (oout _ ha)
        · intro l hl; simp at hl
          rcases hl with hl | rfl
          · exact Or.inl hl
          · exact Or.inr (Or.inr (Or.inr nz0))
        · intro k hk; exact nth_append_left hk
        · intro hd σ hs O E a1 a2 a3 a4 u1 u2 k k1 k2 k3
          have := ((scs σ).1 (addClauses_sat.1 hs).2).1 hd
          have hk : k = out.length := by omega
          subst hk; rw [nth_append_len]
          apply this
          by_cases h' : i < O
          · left; exact u1 _ hb.1 h'
          · right; exact u2 _ hb.2 (by omega)
        · intro hd σ hs O E a1 a2 u1 u2 k k1 k2 k3
          have := ((scs σ).1 (addClauses_sat.1 hs).2).2 hd
          have hk : k = out.length := by omega
          subst hk; rw [nth_append_len] at k3
          rcases this k3 with h' | h'
          · have := u1 _ hb.1 h'; omega
          · have := u2 _ hb.2 h'; omega
        · intro σ hs O E a1 a2 _ _ x1 x2
          obtain ⟨σ', ha, b0⟩ := ext σ (decide (out.length < O + E))
          refine ⟨σ', ha, addClauses_sat.2 ⟨(sat1 _).2 ((ha.sat hw).1 hs), (scs σ').2 ?_⟩, ?_⟩
          · have y1 := ha.ex oo x1 i hb.1
            have y2 := ha.ex oe x2 (i - 1) hb.2
            rw [y1, y2, b0]
            simp only [decide_eq_true_eq]
            refine ⟨fun _ => ?_, fun _ => ?_⟩ <;> omega
          · intro k k1 k2
            have hk : k = out.length := by omega
            subst hk; rw [nth_append_len]; exact b0
    · rw [if_neg hb, if_neg (by omega)]
      -- one side is exhausted, the other has exactly one element left
      have fin : ∀ x : Lit, mergeLoop c odd even d fuel (i + 1) (out ++ [x]) s = some (out ++ [x], s) := by
        intro x
        obtain ⟨f, rfl⟩ : ∃ f, fuel = f + 1 := ⟨fuel - 1, by omega⟩
        simp only [mergeLoop]
        rw [if_neg (by omega), if_pos (by omega)]
      have hlast : out.length + 1 = c := by omega
      have key : ∀ x : Lit, s.Old x.v → x ∉ out → (x ∈ odd ∨ x ∈ even) →
          (∀ (σ : Asg) (O E : Nat), E ≤ O → O ≤ E + 2 → O ≤ P → E ≤ Q → Up σ odd O → Up σ even E → out.length < O + E → x.eval σ = true) →
          (∀ (σ : Asg) (O E : Nat), E ≤ O → O ≤ E + 2 → Dn σ odd O → Dn σ even E → x.eval σ = true → out.length < O + E) →
          (∀ (σ : Asg) (O E : Nat), E ≤ O → O ≤ E + 2 → O ≤ P → E ≤ Q → Ex σ odd O → Ex σ even E → x.eval σ = decide (out.length < O + E)) →
          LoopOK c P Q d odd even out s (out ++ [x]) s := by
        intro x ox nx mx ux dx ex
        refine ⟨by simpa using hlast, Le.refl _, hw, ?_, ?_, ?_, ?_, ?_, ?_, ?_⟩
        · intro l hl; simp at hl
          rcases hl with hl | rfl
          · exact oout l hl
          · exact ox
        · rw [List.nodup_append]
          refine ⟨nd, by simp, ?_⟩
          intro a ha b hb' hab
          subst hab
          simp at hb'; subst hb'
          exact nx ha
        · intro l hl; simp at hl
          rcases hl with hl | rfl
          · exact Or.inl hl
          · rcases mx with h | h
            · exact Or.inr (Or.inl h)
            · exact Or.inr (Or.inr (Or.inl h))
        · intro k hk; exact nth_append_left hk
        · intro hd σ hs O E a1 a2 a3 a4 u1 u2 k k1 k2 k3
          have hk : k = out.length := by omega
          subst hk; rw [nth_append_len]
          exact ux σ O E a1 a2 a3 a4 u1 u2 k3
        · intro hd σ hs O E a1 a2 u1 u2 k k1 k2 k3
          have hk : k = out.length := by omega
          subst hk; rw [nth_append_len] at k3
          exact dx σ O E a1 a2 u1 u2 k3
        · intro σ hs O E a1 a2 a3 a4 x1 x2
          refine ⟨σ, Agree.refl _ _, hs, ?_⟩
          intro k k1 k2
          have hk : k = out.length := by omega
          subst hk; rw [nth_append_len]
          exact ex σ O E a1 a2 a3 a4 x1 x2
      by_cases ho : i ≥ odd.length
      · rw [if_pos ho, fin]
        have hel : even.length - 1 = i - 1 := by omega
        have hel' : i - 1 < even.length := by omega
        have hio : i = odd.length := by omega
        refine ⟨_, _, rfl, key _ (oe _ (getBang_mem (by omega))) (ne _ (by omega) (by omega)) (Or.inr (getBang_mem (by omega))) ?_ ?_ ?_⟩
        · intro σ O E a1 a2 a3 a4 u1 u2 h
          rw [hel]; exact u2 _ hel' (by omega)
        · intro σ O E a1 a2 u1 u2 h
          rw [hel] at h
          have := u2 _ hel' h; omega
        · intro σ O E a1 a2 a3 a4 x1 x2
          rw [hel, x2 _ hel', decide_eq_decide]; omega
      · rw [if_neg ho, fin]
        have hel : odd.length - 1 = i := by omega
        have hel' : i < odd.length := by omega
        refine ⟨_, _, rfl, key _ (oo _ (getBang_mem (by omega))) (no _ (by omega) (by omega)) (Or.inl (getBang_mem (by omega))) ?_ ?_ ?_⟩
        · intro σ O E a1 a2 a3 a4 u1 u2 h
          rw [hel]; exact u1 _ hel' (by omega)
        · intro σ O E a1 a2 u1 u2 h
          rw [hel] at h
          have := u1 _ hel' h; omega
        · intro σ O E a1 a2 a3 a4 x1 x2
          rw [hel, x1 _ hel', decide_eq_decide]; omega

end Verif
