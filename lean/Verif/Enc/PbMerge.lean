import Verif.Enc.PbAdder
import Verif.Enc.Sorter3
/-!
Pseudo-Boolean encoders, part 3: binary merge.
-/
namespace Verif
open ER

/-- `n` new variables of the PB kind as literals, src/pseudo_booleans/pb_binary_merge.rs:218-220. -/
def newPbLits (n : Nat) (s : ER) : List Lit × ER := ((s.newAuxs .pb n).1.map Var.p, (s.newAuxs .pb n).2)

/-- Models `unary_adder`, src/pseudo_booleans/pb_binary_merge.rs:210-234. -/
def unaryAdder (u v : List Lit) (s : ER) : List Lit × ER :=
  if u.isEmpty then (v, s)
  else if v.isEmpty then (u, s)
  else
    let (w, s) := newPbLits (u.length + v.length) s
    (w, s.addClauses
      ((List.range u.length).flatMap (fun a => (List.range v.length).map fun b => [(u.nth a).neg, (v.nth b).neg, w.nth (a + b + 1)]) ++
       (List.range v.length).map (fun i => [(v.nth i).neg, w.nth i]) ++
       (List.range u.length).map (fun i => [(u.nth i).neg, w.nth i])))

/-- Models `totalizer`, src/pseudo_booleans/pb_binary_merge.rs:196-208.  The first argument
bounds the recursion depth; `none` = exhausted. -/
def pbTotalizer : Nat → List Lit → ER → Option (List Lit × ER)
  | 0, _, _ => none
  | fuel + 1, x, s =>
    if x.length ≤ 1 then some (x, s)
    else
      (pbTotalizer fuel (x.take (x.length / 2)) s).bind fun (u, s) =>
      (pbTotalizer fuel (x.drop (x.length / 2)) s).bind fun (v, s) =>
      some (unaryAdder u v s)

/-- Models `div_ceil`, src/pseudo_booleans/pb_binary_merge.rs:191-194. -/
def divCeil (a b : Nat) : Nat := if a % b = 0 then a / b else a / b + 1

/-- A clause with the optional guard literal in front, src/pseudo_booleans/pb_binary_merge.rs:151-155, 173-177. -/
def guardCl (gac : Option Lit) (l : Lit) : Clause :=
  match gac with
  | some g => [g, l]
  | none => [l]

/-- The loop over the buckets in `binary_merge`, src/pseudo_booleans/pb_binary_merge.rs:136-187.
`none`: the assertion at line 150 fails, or a panic inside the sorter. -/
def bmLoop (wd : Bool) (nlt : Nat) (gac : Option Lit) : Nat → List (List Lit) → List Lit → ER → Option ER
  | _, [], _, s => some s
  | i, b :: bs, carries, s =>
    let k := divCeil nlt (2 ^ i)
    (if wd then pbTotalizer (b.length + 1) b s else ccSort (b.length + 1) k b .i2o s).bind fun (card, s) =>
    if k ≤ b.length ∧ ¬ (k = card.length ∨ wd) then none
    else
      let s := if k ≤ b.length then s.addClauses [guardCl gac (card.nth (k - 1)).neg] else s
      (if i > 0 ∧ ¬ carries.isEmpty then
        if card.isEmpty then some (carries, s)
        else
          (if wd then some (unaryAdder card carries s) else ccMerge (card.length + carries.length + 1) k card carries .i2o s).bind fun (mg, s) =>
          some (mg, if k = mg.length ∨ (wd ∧ k ≤ mg.length) then s.addClauses [guardCl gac (mg.nth (k - 1)).neg] else s)
      else some (card, s)).bind fun (mg, s) =>
      bmLoop wd nlt gac (i + 1) bs (evensOf mg.length mg) s

/-- Whether a term goes into the buckets, src/pseudo_booleans/pb_binary_merge.rs:126. -/
def bmKeep (lt : Nat) (gac : Option Lit) (t : Lit × Nat) : Bool := !(gac.isSome && decide (lt ≤ t.2))

/-- The bucket of bit `i`, src/pseudo_booleans/pb_binary_merge.rs:117-133. -/
def bmBucket (ts : List (Lit × Nat)) (lt : Nat) (gac : Option Lit) (t : Nat) (tl : Lit) (i : Nat) : List Lit :=
  (if t.testBit i then [tl] else []) ++ (((ts.filter (bmKeep lt gac)).filter fun x => x.2.testBit i).map (·.1))

/-- The clauses written while filling the bucket of bit `i`, src/pseudo_booleans/pb_binary_merge.rs:126-127. -/
def bmGac (ts : List (Lit × Nat)) (lt : Nat) (gac : Option Lit) (i : Nat) : List Clause :=
  (ts.filter fun x => x.2.testBit i && !bmKeep lt gac x).map fun x => guardCl gac x.1.neg

/-- Models `binary_merge`, src/pseudo_booleans/pb_binary_merge.rs:96-189.  Integers are natural
numbers here; with `leq < 2^62` no step of the original overflows. -/
def binaryMerge (wd : Bool) (ts : List (Lit × Nat)) (leq maxW : Nat) (gac : Option Lit) (s : ER) : Option ER :=
  let lt := leq + 1
  let p := Nat.log2 maxW
  let m := divCeil lt (2 ^ p)
  let nlt := m * 2 ^ p
  let t := nlt - lt
  let (tl, s) := newPb s
  let s := s.addClauses [[tl]]
  let s := s.addClauses ((List.range (p + 1)).flatMap (bmGac ts lt gac))
  bmLoop wd nlt gac 0 ((List.range (p + 1)).map (bmBucket ts lt gac t tl)) [] s

/-! ### Lemmas -/

/-- Adding two unary numbers (inputs imply outputs). -/
structure AddOK (a b : List Lit) (s : ER) (out : List Lit) (s' : ER) : Prop where
  le : Le s s'
  wf : Wf s'
  old : ∀ l ∈ out, s'.Old l.v
  up : ∀ σ, Sat σ s' → ∀ A B, A ≤ a.length → B ≤ b.length → Up σ a A → Up σ b B → Up σ out (A + B)
  compl : ∀ σ, Sat σ s → ∀ A B, A ≤ a.length → B ≤ b.length → Ex σ a A → Ex σ b B →
    ∃ σ', Agree s σ σ' ∧ Sat σ' s' ∧ Ex σ' out (A + B)

/-- Counting a list in unary (inputs imply outputs). -/
structure CardOK (x : List Lit) (s : ER) (out : List Lit) (s' : ER) : Prop where
  le : Le s s'
  wf : Wf s'
  old : ∀ l ∈ out, s'.Old l.v
  up : ∀ σ, Sat σ s' → Up σ out (cntL σ x)
  compl : ∀ σ, Sat σ s → ∃ σ', Agree s σ σ' ∧ Sat σ' s' ∧ Ex σ' out (cntL σ x)

theorem newPbLits_nth {k i : Nat} {s : ER} (h : i < k) : (newPbLits k s).1.nth i = ((s.newAuxs .pb k).1.nth i).p := by
  rw [getBang _ _ (by simpa [newPbLits] using h), getBang _ _ (by simpa using h)]; simp [newPbLits]

theorem newPbLits_length (k : Nat) (s : ER) : (newPbLits k s).1.length = k := by simp [newPbLits]
theorem newPbLits_old {k : Nat} {s : ER} : ∀ l ∈ (newPbLits k s).1, (newPbLits k s).2.Old l.v := by
  intro l hl; simp [newPbLits] at hl; obtain ⟨v, hv, rfl⟩ := hl
  exact newAuxs_old (by decide) v hv
theorem newPbLits_le (k : Nat) (s : ER) : Le s (newPbLits k s).2 := newAuxs_le _ _ _
theorem newPbLits_wf {k : Nat} {s : ER} (h : Wf s) : Wf (newPbLits k s).2 := newAuxs_wf h
theorem newPbLits_sat {k : Nat} {s : ER} {σ} : Sat σ (newPbLits k s).2 ↔ Sat σ s := Iff.rfl
theorem newPbLits_ext (k : Nat) (s : ER) (b : Nat → Bool) (σ : Asg) :
    ∃ σ', Agree s σ σ' ∧ ∀ i, i < k → ((newPbLits k s).1.nth i).eval σ' = b i := by
  obtain ⟨σ', h, h'⟩ := newAuxs_extTy .pb k s b σ
  refine ⟨σ', h, fun i hi => ?_⟩
  rw [newPbLits_nth hi]; simpa using h' i hi

theorem unaryAdder_ok {u v : List Lit} {s : ER} (hw : Wf s) (ou : ∀ l ∈ u, s.Old l.v) (ov : ∀ l ∈ v, s.Old l.v) :
    (unaryAdder u v s).1.length = u.length + v.length ∧ AddOK u v s (unaryAdder u v s).1 (unaryAdder u v s).2 := by
  unfold unaryAdder
  by_cases hu : u.isEmpty
  · rw [if_pos hu]
    have : u = [] := by simpa using hu
    subst this
    refine ⟨by simp, Le.refl _, hw, ov, fun σ _ A B hA _ _ h => ?_, fun σ hs A B hA _ _ h => ⟨σ, Agree.refl _ _, hs, ?_⟩⟩
    · simp at hA; subst hA; simpa using h
    · simp at hA; subst hA; simpa using h
  rw [if_neg hu]
  by_cases hv : v.isEmpty
  · rw [if_pos hv]
    have : v = [] := by simpa using hv
    subst this
    refine ⟨by simp, Le.refl _, hw, ou, fun σ _ A B _ hB h _ => ?_, fun σ hs A B _ hB h _ => ⟨σ, Agree.refl _ _, hs, ?_⟩⟩
    · simp at hB; subst hB; simpa using h
    · simp at hB; subst hB; simpa using h
  rw [if_neg hv]
  have hlen := newPbLits_length (u.length + v.length) s
  have le1 := newPbLits_le (u.length + v.length) s
  have sat1 := @newPbLits_sat (u.length + v.length) s
  have w1 := newPbLits_wf (k := u.length + v.length) hw
  have oo := newPbLits_old (k := u.length + v.length) (s := s)
  have ext := newPbLits_ext (u.length + v.length) s
  generalize newPbLits (u.length + v.length) s = r at *
  obtain ⟨out, s1⟩ := r
  simp only at *
  generalize hcs : ((List.range u.length).flatMap (fun a => (List.range v.length).map fun b => [(u.nth a).neg, (v.nth b).neg, out.nth (a + b + 1)]) ++
       (List.range v.length).map (fun i => [(v.nth i).neg, out.nth i]) ++
       (List.range u.length).map (fun i => [(u.nth i).neg, out.nth i])) = cs
  have hcsm : ∀ c, c ∈ cs ↔ (∃ i, i < u.length ∧ c = [(u.nth i).neg, out.nth i]) ∨
      (∃ i, i < v.length ∧ c = [(v.nth i).neg, out.nth i]) ∨
      (∃ i j, i < u.length ∧ j < v.length ∧ c = [(u.nth i).neg, (v.nth j).neg, out.nth (i + j + 1)]) := by
    intro c; subst hcs
    simp only [List.mem_append, List.mem_map, List.mem_range, List.mem_flatMap]
    constructor
    · rintro ((⟨i, hi, j, hj, rfl⟩ | ⟨i, hi, rfl⟩) | ⟨i, hi, rfl⟩)
      · exact Or.inr (Or.inr ⟨i, j, hi, hj, rfl⟩)
      · exact Or.inr (Or.inl ⟨i, hi, rfl⟩)
      · exact Or.inl ⟨i, hi, rfl⟩
    · rintro (⟨i, hi, rfl⟩ | ⟨i, hi, rfl⟩ | ⟨i, j, hi, hj, rfl⟩)
      · exact Or.inr ⟨i, hi, rfl⟩
      · exact Or.inl (Or.inr ⟨i, hi, rfl⟩)
      · exact Or.inl (Or.inl ⟨i, hi, j, hj, rfl⟩)
  refine ⟨hlen, le1.trans (addClauses_le _ _), addClauses_wf w1 ?_, fun l hl => by rw [addClauses_old]; exact oo l hl, ?_, ?_⟩
  · intro c hc l hl
    rcases (hcsm c).1 hc with ⟨i, h2, rfl⟩ | ⟨i, h2, rfl⟩ | ⟨i, j, h1, h2, rfl⟩
    · simp at hl; rcases hl with rfl | rfl
      · rw [Lit.neg_v]; exact le1.old (ou _ (getBang_mem h2))
      · exact oo _ (getBang_mem (by omega))
    · simp at hl; rcases hl with rfl | rfl
      · rw [Lit.neg_v]; exact le1.old (ov _ (getBang_mem h2))
      · exact oo _ (getBang_mem (by omega))
    · simp at hl; rcases hl with rfl | rfl | rfl
      · rw [Lit.neg_v]; exact le1.old (ou _ (getBang_mem h1))
      · rw [Lit.neg_v]; exact le1.old (ov _ (getBang_mem h2))
      · exact oo _ (getBang_mem (by omega))
  · intro σ hs A B hA hB uA uB k k1 k2
    have hc := (addClauses_sat.1 hs).2
    by_cases h1 : k < A
    · have := hc _ ((hcsm _).2 (Or.inl ⟨k, by omega, rfl⟩))
      have ha := uA k (by omega) h1
      simpa [Clause.Sat, ha] using this
    · by_cases h2 : k < B
      · have := hc _ ((hcsm _).2 (Or.inr (Or.inl ⟨k, by omega, rfl⟩)))
        have ha := uB k (by omega) h2
        simpa [Clause.Sat, ha] using this
      · have := hc _ ((hcsm _).2 (Or.inr (Or.inr ⟨A - 1, k - A, by omega, by omega, rfl⟩)))
        have ha := uA (A - 1) (by omega) (by omega)
        have hb := uB (k - A) (by omega) (by omega)
        rw [show A - 1 + (k - A) + 1 = k by omega] at this
        simpa [Clause.Sat, ha, hb] using this
  · intro σ hs A B hA hB xA xB
    obtain ⟨σ', ha, hb⟩ := ext (fun k => decide (k < A + B)) σ
    refine ⟨σ', ha, addClauses_sat.2 ⟨sat1.2 ((ha.sat hw).1 hs), ?_⟩, fun k hk => hb k (by omega)⟩
    intro c hc
    have yA := ha.ex ou xA
    have yB := ha.ex ov xB
    rcases (hcsm c).1 hc with ⟨i, h2, rfl⟩ | ⟨i, h2, rfl⟩ | ⟨i, j, h1, h2, rfl⟩
    · have e1 := yA i h2
      have e2 := hb i (by omega)
      simp [Clause.Sat, e1, e2]; omega
    · have e1 := yB i h2
      have e2 := hb i (by omega)
      simp [Clause.Sat, e1, e2]; omega
    · have e1 := yA i h1
      have e2 := yB j h2
      have e3 := hb (i + j + 1) (by omega)
      simp [Clause.Sat, e1, e2, e3]; omega

theorem pbTotalizer_ok : ∀ (fuel : Nat) (x : List Lit) (s : ER), x.length < fuel → Wf s → (∀ l ∈ x, s.Old l.v) →
    ∃ out s', pbTotalizer fuel x s = some (out, s') ∧ out.length = x.length ∧ CardOK x s out s' := by
  intro fuel
  induction fuel with
  | zero => intros; omega
  | succ fuel ih =>
    intro x s hf hw ox
    simp only [pbTotalizer]
    by_cases h1 : x.length ≤ 1
    · rw [if_pos h1]
      have hex : ∀ σ, Ex σ x (cntL σ x) := by
        intro σ k hk
        have : k = 0 := by omega
        subst this
        match x, hk with
        | [l], _ => simp only [cntL, List.nth, List.countP_cons]; cases h : l.eval σ <;> simp [h]
        | a :: b :: c, _ => simp at h1
      refine ⟨x, s, rfl, rfl, Le.refl _, hw, ox, fun σ _ k hk hk2 => ?_, fun σ hs => ⟨σ, Agree.refl _ _, hs, hex σ⟩⟩
      rw [hex σ k hk]; simpa using hk2
    · rw [if_neg h1]
      obtain ⟨u, s1, e1, len1, ok1⟩ := ih (x.take (x.length / 2)) s (by simp; omega) hw (fun l hl => ox l (List.mem_of_mem_take hl))
      obtain ⟨v, s2, e2, len2, ok2⟩ := ih (x.drop (x.length / 2)) s1 (by simp; omega) ok1.wf
        (fun l hl => ok1.le.old (ox l (List.mem_of_mem_drop hl)))
      obtain ⟨len3, ok3⟩ := unaryAdder_ok ok2.wf (fun l hl => ok2.le.old (ok1.old l hl)) ok2.old
      generalize hr : unaryAdder u v s2 = r at *
      obtain ⟨out, s3⟩ := r
      have hcnt : ∀ σ, cntL σ x = cntL σ (x.take (x.length / 2)) + cntL σ (x.drop (x.length / 2)) := by
        intro σ; rw [← cntL_append, List.take_append_drop]
      have c1 : ∀ σ, cntL σ (x.take (x.length / 2)) ≤ u.length := fun σ => by rw [len1]; exact cntL_le _ _
      have c2 : ∀ σ, cntL σ (x.drop (x.length / 2)) ≤ v.length := fun σ => by rw [len2]; exact cntL_le _ _
      refine ⟨out, s3, by simp [e1, e2, hr], by simp only at len3; rw [len3, len1, len2]; simp; omega,
        (ok1.le.trans ok2.le).trans ok3.le, ok3.wf, ok3.old, fun σ hs => ?_, fun σ hs => ?_⟩
      · rw [hcnt]
        exact ok3.up σ hs _ _ (c1 σ) (c2 σ) (ok1.up σ (ok2.le.sat (ok3.le.sat hs))) (ok2.up σ (ok3.le.sat hs))
      · obtain ⟨σ1, a1, hs1, x1⟩ := ok1.compl σ hs
        obtain ⟨σ2, a2, hs2, x2⟩ := ok2.compl σ1 hs1
        have a12 := a1.trans ok1.le a2
        obtain ⟨σ3, a3, hs3, x3⟩ := ok3.compl σ2 hs2 _ _ (c1 σ) (c2 σ1) (a2.ex ok1.old x1) x2
        refine ⟨σ3, a12.trans (ok1.le.trans ok2.le) a3, hs3, ?_⟩
        rw [hcnt, a1.cntL (ls := x.drop (x.length / 2)) (fun l hl => ox l (List.mem_of_mem_drop hl))]; exact x3

theorem guardCl_sat {σ : Asg} {gac : Option Lit} {l : Lit} :
    Clause.Sat σ (guardCl gac l) ↔ (∃ g, gac = some g ∧ g.eval σ = true) ∨ l.eval σ = true := by
  cases gac <;> simp [guardCl]

theorem guardCl_vars {P : Var → Prop} {gac : Option Lit} {l : Lit} (hg : ∀ g, gac = some g → P g.v) (hl : P l.v) :
    ∀ c ∈ [guardCl gac l], ∀ m ∈ c, P m.v := by
  intro c hc m hm
  simp only [List.mem_singleton] at hc; subst hc
  cases gac with
  | none => simp [guardCl] at hm; subst hm; exact hl
  | some g => simp [guardCl] at hm; rcases hm with rfl | rfl; exacts [hg _ rfl, hl]

/-- An optional guarded negative clause. -/
theorem optClause_ok {s : ER} {gac : Option Lit} {x : Lit} {P : Prop} [Decidable P] (hw : Wf s)
    (hg : ∀ g, gac = some g → s.Old g.v) (hx : P → s.Old x.v) :
    let s' := if P then s.addClauses [guardCl gac x.neg] else s
    Le s s' ∧ Wf s' ∧ (∀ σ, Sat σ s' ↔ Sat σ s ∧ (P → (∃ g, gac = some g ∧ g.eval σ = true) ∨ x.eval σ = false)) := by
  by_cases hP : P
  · simp only [if_pos hP]
    refine ⟨addClauses_le _ _, addClauses_wf hw (guardCl_vars hg (by simpa using hx hP)), fun σ => ?_⟩
    rw [addClauses_sat]
    simp only [List.mem_singleton, forall_eq, guardCl_sat, Lit.eval_neg, Bool.not_eq_true', hP, forall_const]
  · simp only [if_neg hP]
    exact ⟨Le.refl _, hw, fun σ => by simp [hP]⟩

/-- One round: the cardinality of the bucket. -/
theorem bmCard_ok (wd : Bool) {k : Nat} {b : List Lit} {s : ER} (hw : Wf s) (ob : ∀ l ∈ b, s.Old l.v) (nb : b.Nodup)
    (hbig : b.length < 2 ^ 30) (hk : 3 ≤ b.length → 2 ≤ k) :
    ∃ card s', (if wd then pbTotalizer (b.length + 1) b s else ccSort (b.length + 1) k b .i2o s) = some (card, s') ∧
      card.length = (if wd then b.length else min k b.length) ∧ CardOK b s card s' := by
  cases wd with
  | true =>
    obtain ⟨out, s', e, hl, ok⟩ := pbTotalizer_ok (b.length + 1) b s (by omega) hw ob
    exact ⟨out, s', by simpa using e, by simpa using hl, ok⟩
  | false =>
    obtain ⟨out, s', e, ok⟩ := ccSort_spec (b.length + 1) k b .i2o s (by omega) hbig hw ob nb (fun _ => hk)
    exact ⟨out, s', by simpa using e, by simpa using ok.len, ok.le, ok.wf, ok.old, ok.up (by decide), ok.compl⟩

theorem bmAdd_ok (wd : Bool) {k : Nat} {a b : List Lit} {s : ER} (hk : 1 ≤ k) (hw : Wf s) (oa : ∀ l ∈ a, s.Old l.v) (ob : ∀ l ∈ b, s.Old l.v)
    (ha : a ≠ []) (hb : b ≠ []) :
    ∃ mg s', (if wd then some (unaryAdder a b s) else ccMerge (a.length + b.length + 1) k a b .i2o s) = some (mg, s') ∧
      mg.length = (if wd then a.length + b.length else min k (a.length + b.length)) ∧ AddOK a b s mg s' := by
  cases wd with
  | true =>
    obtain ⟨h1, h2⟩ := unaryAdder_ok (u := a) (v := b) hw oa ob
    exact ⟨_, _, by simp, by simpa using h1, h2⟩
  | false =>
    have ok := directMerger_ok (m := min k (a.length + b.length)) hw oa ob (by omega)
    refine ⟨(directMerger (min k (a.length + b.length)) a b s).1, (directMerger (min k (a.length + b.length)) a b s).2, ?_, ?_,
      ok.le, ok.wf, ok.old, ok.up (by decide), ok.compl⟩
    · have h0 : k ≠ 0 := by omega
      simp only [Bool.false_eq_true, if_false, ccMerge]
      rw [if_neg h0, if_neg (by simpa using ha), if_neg (by simpa using hb)]; simp
    · have := ok.len; simp only [Bool.false_eq_true, if_false]; omega

theorem divCeil_exact {a b : Nat} (h : b ∣ a) : divCeil a b = a / b := by
  unfold divCeil; rw [if_pos (Nat.mod_eq_zero_of_dvd h)]

theorem evensOf_old {s : ER} {l : List Lit} (h : ∀ x ∈ l, s.Old x.v) : ∀ x ∈ evensOf l.length l, s.Old x.v := by
  intro x hx
  obtain ⟨i, hi, _, rfl⟩ := mem_evensOf (Nat.le_refl _) hx
  exact h _ (getBang_mem hi)

/-- The bucket loop. `T` is the value of the buckets already processed. -/
theorem bmLoop_ok (wd : Bool) (nlt : Nat) (gac : Option Lit) (hn : 0 < nlt) : ∀ (bs : List (List Lit)) (i : Nat) (carries : List Lit) (s : ER),
    Wf s → (∀ b ∈ bs, ∀ l ∈ b, s.Old l.v) → (∀ b ∈ bs, b.Nodup ∧ b.length < 2 ^ 30) → (∀ l ∈ carries, s.Old l.v) →
    (∀ g, gac = some g → s.Old g.v) → (∀ j, j < bs.length → 2 ^ (i + j) ∣ nlt ∧ (3 ≤ (bs.nth j).length → 2 ≤ nlt / 2 ^ (i + j))) →
    (i = 0 → carries = []) →
    ∃ s', bmLoop wd nlt gac i bs carries s = some s' ∧ Le s s' ∧ Wf s' ∧
      (∀ σ T, Sat σ s' → (∀ g, gac = some g → g.eval σ = false) → T < nlt → Up σ carries (T / 2 ^ i) → T / 2 ^ i ≤ carries.length →
        T + 2 ^ i * bval σ bs < nlt) ∧
      (∀ σ T B, Sat σ s → Ex σ carries B → B ≤ T / 2 ^ i → B ≤ carries.length →
        ((∃ g, gac = some g ∧ g.eval σ = true) ∨ T + 2 ^ i * bval σ bs < nlt) → ∃ σ', Agree s σ σ' ∧ Sat σ' s') := by
  intro bs
  induction bs with
  | nil =>
    intro i carries s hw _ _ _ _ _ _
    exact ⟨s, by simp [bmLoop], Le.refl _, hw, fun σ T _ _ h _ _ => by simpa [bval] using h,
      fun σ T B hs _ _ _ _ => ⟨σ, Agree.refl _ _, hs⟩⟩
  | cons b bs ih =>
    intro i carries s hw ob nb oc og hk hi0
    obtain ⟨hdvd, hk2⟩ := hk 0 (by simp)
    have hbn : (b :: bs).nth 0 = b := rfl
    rw [hbn, Nat.add_zero] at hk2
    rw [Nat.add_zero] at hdvd
    have hpow : 0 < 2 ^ i := Nat.two_pow_pos i
    simp only [bmLoop]
    rw [divCeil_exact hdvd]
    generalize hkk : nlt / 2 ^ i = k at *
    have hnk : nlt = k * 2 ^ i := by rw [← hkk, Nat.div_mul_cancel hdvd]
    have hk1 : 1 ≤ k := by
      apply Nat.pos_of_ne_zero; intro h0; rw [h0] at hnk; omega
    obtain ⟨card, s1, e1, len1, ok1⟩ := bmCard_ok wd (k := k) hw (ob b (by simp)) (nb b (by simp)).1 (nb b (by simp)).2 hk2
    rw [e1]; simp only [Option.bind_some]
    have hassert : ¬ (k ≤ b.length ∧ ¬ (k = card.length ∨ wd = true)) := by
      rintro ⟨h1, h2⟩
      cases wd with
      | true => simp at h2
      | false => simp at h2 len1; omega
    rw [if_neg hassert]
    have hcl : k ≤ b.length → k ≤ card.length := by
      intro h; cases wd <;> simp at len1 <;> omega
    obtain ⟨le2, wf2, sat2⟩ := optClause_ok (s := s1) (gac := gac) (x := card.nth (k - 1)) (P := k ≤ b.length) ok1.wf
      (fun g hg => ok1.le.old (og g hg)) (fun h => ok1.old _ (getBang_mem (by have := hcl h; omega)))
    generalize hs2 : (if k ≤ b.length then s1.addClauses [guardCl gac (card.nth (k - 1)).neg] else s1) = s2 at *
    have le12 : Le s s2 := ok1.le.trans le2
    have oc2 : ∀ l ∈ carries, s2.Old l.v := fun l hl => le12.old (oc l hl)
    have ocard2 : ∀ l ∈ card, s2.Old l.v := fun l hl => le2.old (ok1.old l hl)
    -- the merge step
    have hmerge : ∃ mg s3, ((if i > 0 ∧ ¬ carries.isEmpty = true then
        if card.isEmpty = true then some (carries, s2)
        else
          (if wd = true then some (unaryAdder card carries s2) else ccMerge (card.length + carries.length + 1) k card carries .i2o s2).bind fun x =>
          some (x.1, if k = x.1.length ∨ (wd = true ∧ k ≤ x.1.length) then x.2.addClauses [guardCl gac (x.1.nth (k - 1)).neg] else x.2)
        else some (card, s2)) = some (mg, s3)) ∧ Le s2 s3 ∧ Wf s3 ∧ (∀ l ∈ mg, s3.Old l.v) ∧
        (∀ σ C, Sat σ s3 → (∀ g, gac = some g → g.eval σ = false) → C < k → Up σ carries C → C ≤ carries.length →
          cntL σ b + C < k ∧ Up σ mg (cntL σ b + C) ∧ cntL σ b + C ≤ mg.length) ∧
        (∀ σ A B, Sat σ s2 → A ≤ cntL σ b → A ≤ card.length → Ex σ card A → Ex σ carries B → B ≤ carries.length →
          ((∃ g, gac = some g ∧ g.eval σ = true) ∨ A + B < k) →
          ∃ σ' M, Agree s2 σ σ' ∧ Sat σ' s3 ∧ M ≤ A + B ∧ M ≤ mg.length ∧ Ex σ' mg M) := by
      -- facts about the bucket count under the first clause
      have hcard : ∀ σ, Sat σ s2 → (∀ g, gac = some g → g.eval σ = false) → cntL σ b < k ∧ cntL σ b ≤ card.length ∧ Up σ card (cntL σ b) := by
        intro σ hs hg
        obtain ⟨hs1, hc⟩ := (sat2 σ).1 hs
        have hu := ok1.up σ hs1
        have hle := cntL_le σ b
        have hlt : cntL σ b < k := by
          apply Nat.lt_of_not_le; intro hge
          have hkb : k ≤ b.length := by omega
          rcases hc hkb with ⟨g, h1, h2⟩ | h
          · rw [hg g h1] at h2; exact absurd h2 (by decide)
          · rw [hu (k - 1) (by have := hcl hkb; omega) (by omega)] at h; exact absurd h (by decide)
        refine ⟨hlt, ?_, hu⟩
        cases wd <;> simp at len1 <;> omega
      by_cases hc0 : carries = []
      · subst hc0
        refine ⟨card, s2, by simp, Le.refl _, wf2, ocard2, ?_, ?_⟩
        · intro σ C hs hg hC _ hCl
          simp at hCl; subst hCl
          obtain ⟨h1, h2, h3⟩ := hcard σ hs hg
          exact ⟨by omega, by simpa using h3, by omega⟩
        · intro σ A B hs hA hAl hxA hxB hBl _
          exact ⟨σ, A, Agree.refl _ _, hs, by omega, hAl, hxA⟩
      · have hi : i > 0 := by apply Nat.pos_of_ne_zero; intro h; exact hc0 (hi0 h)
        have hce : ¬ carries.isEmpty = true := by simpa using hc0
        rw [if_pos ⟨hi, hce⟩]
        by_cases hcd : card = []
        · subst hcd
          have hb0 : b.length = 0 := by cases wd <;> simp at len1 <;> omega
          have hb0' : b = [] := List.length_eq_zero_iff.1 hb0
          refine ⟨carries, s2, by simp, Le.refl _, wf2, oc2, ?_, ?_⟩
          · intro σ C hs hg hC hu hCl
            rw [hb0']; simp only [cntL, List.countP_nil, Nat.zero_add]; exact ⟨hC, hu, hCl⟩
          · intro σ A B hs hA hAl hxA hxB hBl _
            exact ⟨σ, B, Agree.refl _ _, hs, by omega, hBl, hxB⟩
        · have hcde : ¬ card.isEmpty = true := by simpa using hcd
          rw [if_neg hcde]
          obtain ⟨mg, s3, e3, len3, ok3⟩ := bmAdd_ok wd hk1 wf2 ocard2 oc2 hcd hc0
          rw [e3]; simp only [Option.bind_some]
          have hmk : (k = mg.length ∨ (wd = true ∧ k ≤ mg.length)) → k ≤ mg.length := by rintro (h | h) <;> omega
          obtain ⟨le4, wf4, sat4⟩ := optClause_ok (s := s3) (gac := gac) (x := mg.nth (k - 1))
            (P := k = mg.length ∨ (wd = true ∧ k ≤ mg.length)) ok3.wf
            (fun g hg => ok3.le.old (le12.old (og g hg))) (fun h => ok3.old _ (getBang_mem (by have := hmk h; omega)))
          refine ⟨mg, _, rfl, ok3.le.trans le4, wf4, fun l hl => le4.old (ok3.old l hl), ?_, ?_⟩
          · intro σ C hs hg hC hu hCl
            obtain ⟨hs3, hcl4⟩ := (sat4 σ).1 hs
            obtain ⟨h1, h2, h3⟩ := hcard σ (ok3.le.sat hs3) hg
            have hup := ok3.up σ hs3 _ _ h2 hCl h3 hu
            have hlt : cntL σ b + C < k := by
              apply Nat.lt_of_not_le; intro hge
              have hp : k = mg.length ∨ (wd = true ∧ k ≤ mg.length) := by
                cases wd with
                | true => right; simp at len3 ⊢; omega
                | false => left; simp at len3; omega
              rcases hcl4 hp with ⟨g, e1, e2⟩ | h
              · rw [hg g e1] at e2; exact absurd e2 (by decide)
              · rw [hup (k - 1) (by have := hmk hp; omega) (by omega)] at h; exact absurd h (by decide)
            refine ⟨hlt, hup, ?_⟩
            cases wd <;> simp at len3 <;> omega
          · intro σ A B hs hA hAl hxA hxB hBl hor
            obtain ⟨σ', ha, hs', hx⟩ := ok3.compl σ hs A B hAl hBl hxA hxB
            refine ⟨σ', min (A + B) mg.length, ha, (sat4 σ').2 ⟨hs', fun hp => ?_⟩, by omega, by omega, ?_⟩
            · rcases hor with ⟨g, e1, e2⟩ | hlt
              · exact .inl ⟨g, e1, by rw [← ha.lit (le12.old (og g e1))]; exact e2⟩
              · right; rw [hx (k - 1) (by have := hmk hp; omega)]; simp; omega
            · intro j hj; rw [hx j hj, decide_eq_decide]; omega
    obtain ⟨mg, s3, e3, le3, wf3, omg, snd3, cpl3⟩ := hmerge
    rw [e3]; simp only [Option.bind_some]
    have le13 : Le s s3 := le12.trans le3
    obtain ⟨s4, e4, le4, wf4, snd4, cpl4⟩ := ih (i + 1) (evensOf mg.length mg) s3 wf3
      (fun b' hb' l hl => le13.old (ob b' (by simp [hb']) l hl)) (fun b' hb' => nb b' (by simp [hb'])) (evensOf_old omg)
      (fun g hg => le13.old (og g hg))
      (by
        intro j hj
        have := hk (j + 1) (by simp; omega)
        rw [show i + 1 + j = i + (j + 1) by omega]
        exact this)
      (by omega)
    refine ⟨s4, e4, le13.trans le4, wf4, ?_, ?_⟩
    · intro σ T hs hg hT hu hTl
      have hC : T / 2 ^ i < k := by rw [Nat.div_lt_iff_lt_mul hpow]; omega
      obtain ⟨h1, h2, h3⟩ := snd3 σ (T / 2 ^ i) (le4.sat hs) hg hC hu hTl
      have hTd : (T + 2 ^ i * cntL σ b) / 2 ^ i = cntL σ b + T / 2 ^ i := by
        rw [Nat.add_mul_div_left _ _ hpow]; omega
      have hTd2 : (T + 2 ^ i * cntL σ b) / 2 ^ (i + 1) = (cntL σ b + T / 2 ^ i) / 2 := by
        rw [Nat.pow_succ, ← Nat.div_div_eq_div_mul, hTd]
      have := snd4 σ (T + 2 ^ i * cntL σ b) hs hg
        (by rw [hnk, ← Nat.div_lt_iff_lt_mul hpow, hTd]; exact h1)
        (by rw [hTd2]; exact evens_up (Nat.le_refl _) h2)
        (by rw [hTd2, evensOf_length]; omega)
      simp only [bval]
      rw [Nat.pow_succ] at this
      rw [Nat.mul_add, ← Nat.mul_assoc]; omega
    · intro σ T B hs hxB hB hBl hor
      obtain ⟨σ1, a1, hs1, x1⟩ := ok1.compl σ hs
      have hor' : (∃ g, gac = some g ∧ g.eval σ = true) ∨ (cntL σ b < k ∧ cntL σ b + T / 2 ^ i < k) := by
        rcases hor with h | h
        · exact .inl h
        · right
          have h2 : T + 2 ^ i * cntL σ b < nlt := by
            simp only [bval] at h; rw [Nat.mul_add] at h; omega
          have : (T + 2 ^ i * cntL σ b) / 2 ^ i < k := by rw [Nat.div_lt_iff_lt_mul hpow]; omega
          rw [Nat.add_mul_div_left _ _ hpow] at this
          omega
      have hcnt : cntL σ b = cntL σ1 b := a1.cntL (ob b (by simp))
      have hs2 : Sat σ1 s2 := by
        refine (sat2 σ1).2 ⟨hs1, fun hkb => ?_⟩
        rcases hor' with ⟨g, e1, e2⟩ | h
        · exact .inl ⟨g, e1, by rw [← a1.lit (og g e1)]; exact e2⟩
        · right; rw [x1 (k - 1) (by have := hcl hkb; omega)]; simp; omega
      obtain ⟨σ2, M, a2, hs3, hM, hMl, hxM⟩ := cpl3 σ1 (min (cntL σ b) card.length) B hs2 (by rw [← hcnt]; omega) (by omega)
        (fun j hj => by rw [x1 j hj, decide_eq_decide]; omega) (a1.ex oc hxB) hBl
        (by
          rcases hor' with ⟨g, e1, e2⟩ | h
          · exact .inl ⟨g, e1, by rw [← a1.lit (og g e1)]; exact e2⟩
          · right; omega)
      have a12 : Agree s σ σ2 := a1.trans le12 (a2)
      have hTd2 : (T + 2 ^ i * cntL σ b) / 2 ^ (i + 1) = (T / 2 ^ i + cntL σ b) / 2 := by
        rw [Nat.pow_succ, ← Nat.div_div_eq_div_mul, Nat.add_mul_div_left _ _ hpow]
      have hbv : bval σ bs = bval σ2 bs := by
        have : ∀ bs : List (List Lit), (∀ b ∈ bs, ∀ l ∈ b, s.Old l.v) → bval σ bs = bval σ2 bs := by
          intro bs
          induction bs with
          | nil => intro _; rfl
          | cons c cs ih => intro h; simp only [bval]; rw [a12.cntL (h c (by simp)), ih (fun b hb => h b (by simp [hb]))]
        exact this bs (fun b hb => ob b (by simp [hb]))
      obtain ⟨σ3, a3, hs4⟩ := cpl4 σ2 (T + 2 ^ i * cntL σ b) (M / 2) hs3 (evens_ex (Nat.le_refl _) hxM)
        (by rw [hTd2]; omega) (by rw [evensOf_length]; omega)
        (by
          rcases hor with ⟨g, e1, e2⟩ | h
          · exact .inl ⟨g, e1, by rw [← a12.lit (og g e1)]; exact e2⟩
          · right; rw [← hbv]; simp only [bval] at h; rw [Nat.pow_succ]; rw [Nat.mul_add, ← Nat.mul_assoc] at h; omega)
      exact ⟨σ3, a12.trans le13 a3, hs4⟩

end Verif
