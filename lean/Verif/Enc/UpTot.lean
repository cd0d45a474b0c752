import Verif.Enc.Up
import Verif.Enc.Totalizer

/-
Unit propagation on the totalizer encoding.
-/
namespace Verif
open ER
namespace Prop1

/-- `S` is closed under unit propagation. -/
def ClN (S : Lit → Prop) (cs : List Clause) : Prop := ∀ c ∈ cs, ∀ l ∈ c, (∀ l' ∈ c, l' ≠ l → S l'.neg) → S l

theorem _root_.Verif.UP.clN (cs : List Clause) (A : Lit → Prop) : ClN (UP cs A) cs := fun _ hc _ hl h => .prop hc hl h

theorem ClN.mono {S : Lit → Prop} {cs cs' : List Clause} (h : ClN S cs') (hs : ∀ c ∈ cs, c ∈ cs') : ClN S cs :=
  fun c hc => h c (hs c hc)

theorem ClN.one {S : Lit → Prop} {cs : List Clause} {a : Lit} (h : ClN S cs) (hc : [a] ∈ cs) : S a :=
  h _ hc a (by simp) fun l hl hne => absurd (by simpa using hl) hne

theorem ClN.two {S : Lit → Prop} {cs : List Clause} {a b : Lit} (h : ClN S cs) (hc : [a, b] ∈ cs) : (S a.neg → S b) ∧ (S b.neg → S a) := by
  refine ⟨fun ha => h _ hc b (by simp) fun l hl hne => ?_, fun hb => h _ hc a (by simp) fun l hl hne => ?_⟩
  · simp at hl; rcases hl with rfl | rfl; exacts [ha, absurd rfl hne]
  · simp at hl; rcases hl with rfl | rfl; exacts [absurd rfl hne, hb]

theorem ClN.three {S : Lit → Prop} {cs : List Clause} {a b d : Lit} (h : ClN S cs) (hc : [a, b, d] ∈ cs) :
    (S b.neg → S d.neg → S a) ∧ (S a.neg → S d.neg → S b) ∧ (S a.neg → S b.neg → S d) := by
  refine ⟨fun h1 h2 => h _ hc a (by simp) fun l hl hne => ?_, fun h1 h2 => h _ hc b (by simp) fun l hl hne => ?_,
    fun h1 h2 => h _ hc d (by simp) fun l hl hne => ?_⟩
  · simp at hl; rcases hl with rfl | rfl | rfl; exacts [absurd rfl hne, h1, h2]
  · simp at hl; rcases hl with rfl | rfl | rfl; exacts [h1, absurd rfl hne, h2]
  · simp at hl; rcases hl with rfl | rfl | rfl; exacts [h1, h2, absurd rfl hne]

/-- The tree of adders over the inputs. -/
inductive Tree (cs : List Clause) (b : TBound) (rhs : Nat) : List Var → List Var → Prop
  | leaf (x : Var) : Tree cs b rhs [x] [x]
  | node {L R O il ir : List Var} : O.length = L.length + R.length → (b ≠ .lower → ∀ c ∈ adderAmk L R O rhs, c ∈ cs) →
      (b ≠ .upper → ∀ c ∈ adderAlk L R O, c ∈ cs) → Tree cs b rhs L il → Tree cs b rhs R ir → Tree cs b rhs O (il ++ ir)

theorem Tree.mono {cs cs' b rhs O ins} (h : Tree cs b rhs O ins) (hs : ∀ c ∈ cs, c ∈ cs') : Tree cs' b rhs O ins := by
  induction h with
  | leaf x => exact .leaf x
  | node h1 h2 h3 _ _ ih1 ih2 => exact .node h1 (fun hb c hc => hs c (h2 hb c hc)) (fun hb c hc => hs c (h3 hb c hc)) ih1 ih2

theorem Tree.length {cs b rhs O ins} (h : Tree cs b rhs O ins) : ins.length = O.length := by
  induction h with
  | leaf => rfl
  | node h _ _ _ _ h1 h2 => simp; omega

theorem popOrNew_tree {k : Nat} {st : List Var} {s : ER} (hst : k = 1 → 1 ≤ st.length) :
    ∃ L st' s', popOrNew k st s = (L, st', s') ∧ L.length = k ∧ s'.clauses = s.clauses ∧
      ((k = 1 ∧ st = L ++ st') ∨ (k ≠ 1 ∧ st' = st)) := by
  unfold popOrNew
  by_cases h1 : k = 1
  · rw [if_pos h1]
    refine ⟨_, _, _, rfl, ?_, rfl, .inl ⟨h1, (List.take_append_drop 1 st).symm⟩⟩
    have := hst h1; simp; omega
  · rw [if_neg h1]
    exact ⟨_, _, _, rfl, by simp, rfl, .inr ⟨h1, rfl⟩⟩

theorem totCnf_tree (rhs : Nat) (b : TBound) : ∀ (fuel : Nat) (st O : List Var) (s : ER),
    2 ≤ O.length → O.length ≤ fuel → O.length ≤ st.length →
    ∃ ins st' s', totCnf rhs b fuel st O s = (st', s') ∧ st = ins ++ st' ∧ (∀ c ∈ s.clauses, c ∈ s'.clauses) ∧ Tree s'.clauses b rhs O ins := by
  intro fuel
  induction fuel with
  | zero => intro st O s h h'; omega
  | succ fuel ih =>
    intro st O s h2 hf hst
    simp only [totCnf]
    obtain ⟨L, st1, s1, e1, lL, cl1, cL⟩ := popOrNew_tree (k := O.length / 2) (st := st) (s := s) (by omega)
    rw [e1]; simp only
    have hlen1 : O.length - O.length / 2 ≤ st1.length := by
      rcases cL with ⟨h1, h⟩ | ⟨_, rfl⟩
      · rw [h] at hst; simp at hst; omega
      · omega
    obtain ⟨R, st2, s2, e2, lR, cl2, cR⟩ := popOrNew_tree (k := O.length - O.length / 2) (st := st1) (s := s1) (by omega)
    rw [e2]; simp only
    have hOlen : O.length = L.length + R.length := by omega
    generalize hs3 : (if b = TBound.upper ∨ b = TBound.both then s2.addClauses (adderAmk L R O rhs) else s2) = s3
    have m3 : (∀ c ∈ s2.clauses, c ∈ s3.clauses) ∧ (b ≠ .lower → ∀ c ∈ adderAmk L R O rhs, c ∈ s3.clauses) := by
      rw [← hs3]
      by_cases hb : b = TBound.upper ∨ b = TBound.both
      · rw [if_pos hb]; exact ⟨fun c hc => mem_addClauses.2 (.inl hc), fun _ c hc => mem_addClauses.2 (.inr hc)⟩
      · rw [if_neg hb]; refine ⟨fun c hc => hc, fun h => absurd ?_ hb⟩
        clear hs3 ih
        cases b
        all_goals first | exact .inl rfl | exact .inr rfl | exact absurd rfl h
    generalize hs4 : (if b = TBound.lower ∨ b = TBound.both then s3.addClauses (adderAlk L R O) else s3) = s4
    have m4 : (∀ c ∈ s3.clauses, c ∈ s4.clauses) ∧ (b ≠ .upper → ∀ c ∈ adderAlk L R O, c ∈ s4.clauses) := by
      rw [← hs4]
      by_cases hb : b = TBound.lower ∨ b = TBound.both
      · rw [if_pos hb]; exact ⟨fun c hc => mem_addClauses.2 (.inl hc), fun _ c hc => mem_addClauses.2 (.inr hc)⟩
      · rw [if_neg hb]; refine ⟨fun c hc => hc, fun h => absurd ?_ hb⟩
        clear hs3 hs4 m3 ih
        cases b
        all_goals first | exact .inl rfl | exact .inr rfl | exact absurd rfl h
    have EL : ∃ il st3 s5, (if L.length > 1 then totCnf rhs b fuel st2 L s4 else (st2, s4)) = (st3, s5) ∧
        (∀ c ∈ s4.clauses, c ∈ s5.clauses) ∧ Tree s5.clauses b rhs L il ∧
        ((O.length / 2 = 1 ∧ il = L ∧ st3 = st2) ∨ (O.length / 2 ≠ 1 ∧ st2 = il ++ st3)) := by
      by_cases h1 : L.length > 1
      · rw [if_pos h1]
        have hlen2 : L.length ≤ st2.length := by
          rcases cL with ⟨h, _⟩ | ⟨_, rfl⟩
          · omega
          · rcases cR with ⟨h, _⟩ | ⟨_, rfl⟩ <;> omega
        obtain ⟨il, st3, s5, h, h', h'', T⟩ := ih st2 L s4 (by omega) (by omega) hlen2
        exact ⟨il, st3, s5, h, h'', T, Or.inr ⟨by omega, h'⟩⟩
      · rw [if_neg h1]
        obtain ⟨x, rfl⟩ := List.length_eq_one_iff.1 (show L.length = 1 by omega)
        exact ⟨[x], st2, s4, rfl, fun _ h => h, .leaf x, Or.inl ⟨by simp at lL; omega, rfl, rfl⟩⟩
    obtain ⟨il, st3, s5, e5, m5, T5, cL'⟩ := EL
    rw [e5]; simp only
    have ER : ∃ ir st4 s6, (if R.length > 1 then totCnf rhs b fuel st3 R s5 else (st3, s5)) = (st4, s6) ∧
        (∀ c ∈ s5.clauses, c ∈ s6.clauses) ∧ Tree s6.clauses b rhs R ir ∧
        ((O.length - O.length / 2 = 1 ∧ ir = R ∧ st4 = st3) ∨ (O.length - O.length / 2 ≠ 1 ∧ st3 = ir ++ st4)) := by
      by_cases h1 : R.length > 1
      · rw [if_pos h1]
        have lil := T5.length
        have hlen3 : R.length ≤ st3.length := by
          rcases cR with ⟨h, _⟩ | ⟨_, hh⟩
          · omega
          · subst hh
            rcases cL' with ⟨hq, _, rfl⟩ | ⟨hq, h⟩
            · omega
            · rcases cL with ⟨h', _⟩ | ⟨_, h'⟩
              · omega
              · subst h'; rw [h] at hst; simp at hst; omega
        obtain ⟨ir, st4, s6, h, h', h'', T⟩ := ih st3 R s5 (by omega) (by omega) hlen3
        exact ⟨ir, st4, s6, h, h'', T, Or.inr ⟨by omega, h'⟩⟩
      · rw [if_neg h1]
        obtain ⟨x, rfl⟩ := List.length_eq_one_iff.1 (show R.length = 1 by omega)
        exact ⟨[x], st3, s5, rfl, fun _ h => h, .leaf x, Or.inl ⟨by simp at lR; omega, rfl, rfl⟩⟩
    obtain ⟨ir, st4, s6, e6, m6, T6, cR'⟩ := ER
    have hsplit : st = (il ++ ir) ++ st4 := by
      rcases cL with ⟨q1, h1⟩ | ⟨q1, h1⟩ <;> rcases cR with ⟨q2, h2⟩ | ⟨q2, h2⟩ <;>
        rcases cL' with ⟨q3, h3, h3'⟩ | ⟨q3, h3⟩ <;> rcases cR' with ⟨q4, h4, h4'⟩ | ⟨q4, h4⟩ <;>
        first | omega | (subst_vars; simp [*])
    refine ⟨il ++ ir, st4, s6, e6, hsplit, fun c hc => ?_, ?_⟩
    · exact m6 c (m5 c (m4.1 c (m3.1 c (by rw [cl2, cl1]; exact hc))))
    · exact .node hOlen (fun hb c hc => m6 c (m5 c (m4.1 c (m3.2 hb c hc)))) (fun hb c hc => m6 c (m5 c (m4.2 hb c hc)))
        (T5.mono m6) T6

theorem totBuild_tree (b : TBound) {vars : List Var} {rhs : Nat} {s : ER} (h2 : 2 ≤ vars.length) :
    ∃ ins, ins.Perm vars ∧ Tree (totBuild b vars rhs s).2.clauses b rhs (totBuild b vars rhs s).1 ins ∧ (totBuild b vars rhs s).1.length = vars.length := by
  have hl : (s.newAuxs .cc vars.length).1.length = vars.length := newAuxs_length _ _ _
  obtain ⟨ins, st', s', e, h1, _, T⟩ := totCnf_tree rhs b vars.length vars.reverse (s.newAuxs .cc vars.length).1
    (s.newAuxs .cc vars.length).2 (by omega) (by omega) (by simp)
  have hT := T.length
  have hst : st' = [] := by
    have := congrArg List.length h1
    simp only [List.length_reverse, List.length_append] at this
    exact List.length_eq_zero_iff.1 (by omega)
  subst hst
  rw [List.append_nil] at h1
  refine ⟨ins, h1 ▸ List.reverse_perm _, ?_, hl⟩
  have e' : totBuild b vars rhs s = ((s.newAuxs .cc vars.length).1, s') := by
    simp only [totBuild, hl, e]
  rw [e']
  exact T

open Classical in
/-- Number of variables derived to be true. -/
noncomputable def tr (S : Lit → Prop) (vs : List Var) : Nat := vs.countP fun v => decide (S v.p)

open Classical in
/-- Number of variables derived to be false. -/
noncomputable def fa (S : Lit → Prop) (vs : List Var) : Nat := vs.countP fun v => decide (S v.n)

theorem tr_append (S vs ws) : tr S (vs ++ ws) = tr S vs + tr S ws := List.countP_append
theorem fa_append (S vs ws) : fa S (vs ++ ws) = fa S vs + fa S ws := List.countP_append
theorem tr_le (S vs) : tr S vs ≤ vs.length := List.countP_le_length
theorem fa_le (S vs) : fa S vs ≤ vs.length := List.countP_le_length

theorem adderAmk_mem {L R O : List Var} {rhs i j : Nat} (hi : i ≤ L.length) (hj : j ≤ R.length) (h1 : 1 ≤ i + j) (h2 : i + j ≤ rhs + 1) :
    (if i = 0 then [(R.nth (j - 1)).n, (O.nth (j - 1)).p] else if j = 0 then [(L.nth (i - 1)).n, (O.nth (i - 1)).p]
      else [(L.nth (i - 1)).n, (R.nth (j - 1)).n, (O.nth (i + j - 1)).p]) ∈ adderAmk L R O rhs := by
  simp only [adderAmk, List.mem_flatMap, List.mem_range]
  refine ⟨i, by omega, j, by omega, ?_⟩
  rw [if_neg (by omega)]
  by_cases h0 : i = 0
  · simp [h0]
  · by_cases h3 : j = 0 <;> simp [h0, h3]

theorem adderAlk_mem {L R O : List Var} {i j : Nat} (hi : i ≤ L.length) (hj : j ≤ R.length) (h1 : 1 ≤ i + j) :
    (if i = 0 then [(R.nth (j - 1)).p, (O.nth (L.length + j - 1)).n] else if j = 0 then [(L.nth (i - 1)).p, (O.nth (R.length + i - 1)).n]
      else [(L.nth (i - 1)).p, (R.nth (j - 1)).p, (O.nth (i + j - 2)).n]) ∈ adderAlk L R O := by
  simp only [adderAlk, List.mem_flatMap, List.mem_range]
  refine ⟨i, by omega, j, by omega, ?_⟩
  rw [if_neg (by omega)]
  by_cases h0 : i = 0
  · simp [h0]
  · by_cases h3 : j = 0 <;> simp [h0, h3]

/-- The adder counts true inputs. -/
theorem Tree.up {cs b rhs O ins} {S : Lit → Prop} (hS : ClN S cs) (hb : b ≠ .lower) (h : Tree cs b rhs O ins) :
    ∀ m, 1 ≤ m → m ≤ tr S ins → m ≤ rhs + 1 → S (O.nth (m - 1)).p := by
  induction h with
  | leaf x =>
    intro m h1 h2 _
    have := tr_le S [x]
    simp at this
    have : m = 1 := by omega
    subst this
    have : tr S [x] = 1 := by omega
    simpa [tr, List.countP_cons, List.nth] using this
  | @node L R O il ir hO ha _ t1 t2 ih1 ih2 =>
    intro m h1 h2 h3
    rw [tr_append] at h2
    have l1 := tr_le S il
    have l2 := tr_le S ir
    have e1 := t1.length
    have e2 := t2.length
    have hm := adderAmk_mem (L := L) (R := R) (O := O) (rhs := rhs) (i := min m (tr S il)) (j := m - min m (tr S il)) (by omega) (by omega) (by omega) (by omega)
    have hm := ha hb _ hm
    generalize hi : min m (tr S il) = i at hm
    generalize hj : m - i = j at hm
    by_cases h0 : i = 0
    · rw [if_pos h0] at hm
      have := (hS.two hm).1 (ih2 j (by omega) (by omega) (by omega))
      rwa [show j - 1 = m - 1 by omega] at this
    · rw [if_neg h0] at hm
      by_cases h4 : j = 0
      · rw [if_pos h4] at hm
        have := (hS.two hm).1 (ih1 i (by omega) (by omega) (by omega))
        rwa [show i - 1 = m - 1 by omega] at this
      · rw [if_neg h4] at hm
        have := (hS.three hm).2.2 (ih1 i (by omega) (by omega) (by omega)) (ih2 j (by omega) (by omega) (by omega))
        rwa [show i + j - 1 = m - 1 by omega] at this

/-- If the bound is reached, the other inputs become false. -/
theorem Tree.down {cs b rhs O ins} {S : Lit → Prop} (hS : ClN S cs) (hb : b ≠ .lower) (h : Tree cs b rhs O ins) :
    tr S ins ≤ rhs → (tr S ins < O.length → S (O.nth (tr S ins)).n) → ∀ v ∈ ins, S v.p ∨ S v.n := by
  induction h with
  | leaf x =>
    intro _ h v hv
    simp at hv; subst hv
    by_cases hx : S v.p
    · exact .inl hx
    · right
      have h0 : tr S [v] = 0 := by simp [tr, hx]
      have := h (by simp [h0])
      rw [h0] at this
      simpa [List.nth] using this
  | @node L R O il ir hO ha _ t1 t2 ih1 ih2 =>
    intro hr h v hv
    rw [tr_append] at hr h
    have l1 := tr_le S il
    have l2 := tr_le S ir
    have e1 := t1.length
    have e2 := t2.length
    rcases List.mem_append.1 hv with hv | hv
    · refine ih1 (by omega) (fun hl => ?_) v hv
      have ho := h (by omega)
      have hm := ha hb _ (adderAmk_mem (L := L) (R := R) (O := O) (rhs := rhs) (i := tr S il + 1) (j := tr S ir) (by omega) (by omega) (by omega) (by omega))
      rw [if_neg (by omega)] at hm
      by_cases h4 : tr S ir = 0
      · rw [if_pos h4] at hm
        rw [h4] at ho
        exact (hS.two hm).2 ho
      · rw [if_neg h4] at hm
        refine (hS.three hm).1 (t2.up hS hb _ (by omega) (by omega) (by omega)) ?_
        rw [show tr S il + 1 + tr S ir - 1 = tr S il + tr S ir by omega]
        exact ho
    · refine ih2 (by omega) (fun hl => ?_) v hv
      have ho := h (by omega)
      have hm := ha hb _ (adderAmk_mem (L := L) (R := R) (O := O) (rhs := rhs) (i := tr S il) (j := tr S ir + 1) (by omega) (by omega) (by omega) (by omega))
      by_cases h4 : tr S il = 0
      · rw [if_pos h4] at hm
        rw [h4, Nat.zero_add] at ho
        exact (hS.two hm).2 ho
      · rw [if_neg h4, if_neg (by omega)] at hm
        refine (hS.three hm).2.1 (t1.up hS hb _ (by omega) (by omega) (by omega)) ?_
        rw [show tr S il + (tr S ir + 1) - 1 = tr S il + tr S ir by omega]
        exact ho

/-- The adder counts false inputs. -/
theorem Tree.upF {cs b rhs O ins} {S : Lit → Prop} (hS : ClN S cs) (hb : b ≠ .upper) (h : Tree cs b rhs O ins) :
    ∀ t, t ≤ O.length → O.length - fa S ins < t → S (O.nth (t - 1)).n := by
  induction h with
  | leaf x =>
    intro m h1 h2
    have := fa_le S [x]
    simp at this h1 h2
    have : m = 1 := by omega
    subst this
    have : fa S [x] = 1 := by omega
    simpa [fa, List.countP_cons, List.nth] using this
  | @node L R O il ir hO _ ha t1 t2 ih1 ih2 =>
    intro t h1 h2
    rw [fa_append] at h2
    have l1 := fa_le S il
    have l2 := fa_le S ir
    have e1 := t1.length
    have e2 := t2.length
    by_cases c1 : L.length + (R.length - fa S ir) < t
    · have hm := ha hb _ (adderAlk_mem (L := L) (R := R) (O := O) (i := 0) (j := t - L.length) (by omega) (by omega) (by omega))
      rw [if_pos rfl] at hm
      have := (hS.two hm).1 (ih2 _ (by omega) (by omega))
      rwa [show L.length + (t - L.length) - 1 = t - 1 by omega] at this
    · by_cases c2 : R.length + (L.length - fa S il) < t
      · have hm := ha hb _ (adderAlk_mem (L := L) (R := R) (O := O) (i := t - R.length) (j := 0) (by omega) (by omega) (by omega))
        rw [if_neg (by omega), if_pos rfl] at hm
        have := (hS.two hm).1 (ih1 _ (by omega) (by omega))
        rwa [show R.length + (t - R.length) - 1 = t - 1 by omega] at this
      · have hm := ha hb _ (adderAlk_mem (L := L) (R := R) (O := O) (i := L.length - fa S il + 1) (j := t - (L.length - fa S il)) (by omega) (by omega) (by omega))
        rw [if_neg (by omega), if_neg (by omega)] at hm
        have := (hS.three hm).2.2 (ih1 _ (by omega) (by omega)) (ih2 _ (by omega) (by omega))
        rwa [show L.length - fa S il + 1 + (t - (L.length - fa S il)) - 2 = t - 1 by omega] at this

/-- If only as many inputs are left as needed, they become true. -/
theorem Tree.downF {cs b rhs O ins} {S : Lit → Prop} (hS : ClN S cs) (hb : b ≠ .upper) (h : Tree cs b rhs O ins) :
    (1 ≤ O.length - fa S ins → S (O.nth (O.length - fa S ins - 1)).p) → ∀ v ∈ ins, S v.p ∨ S v.n := by
  induction h with
  | leaf x =>
    intro h v hv
    simp at hv; subst hv
    by_cases hx : S v.n
    · exact .inr hx
    · left
      have h0 : fa S [v] = 0 := by simp [fa, hx]
      have := h (by simp [h0])
      rw [h0] at this
      simpa [List.nth] using this
  | @node L R O il ir hO _ ha t1 t2 ih1 ih2 =>
    intro h v hv
    rw [fa_append] at h
    have l1 := fa_le S il
    have l2 := fa_le S ir
    have e1 := t1.length
    have e2 := t2.length
    rcases List.mem_append.1 hv with hv | hv
    · refine ih1 (fun hl => ?_) v hv
      have ho := h (by omega)
      by_cases h4 : fa S ir = 0
      · have hm := ha hb _ (adderAlk_mem (L := L) (R := R) (O := O) (i := L.length - fa S il) (j := 0) (by omega) (by omega) (by omega))
        rw [if_neg (by omega), if_pos rfl] at hm
        refine (hS.two hm).2 ?_
        rw [show R.length + (L.length - fa S il) - 1 = O.length - (fa S il + fa S ir) - 1 by omega]
        exact ho
      · have hm := ha hb _ (adderAlk_mem (L := L) (R := R) (O := O) (i := L.length - fa S il) (j := R.length - fa S ir + 1) (by omega) (by omega) (by omega))
        rw [if_neg (by omega), if_neg (by omega)] at hm
        refine (hS.three hm).1 (t2.upF hS hb _ (by omega) (by omega)) ?_
        rw [show L.length - fa S il + (R.length - fa S ir + 1) - 2 = O.length - (fa S il + fa S ir) - 1 by omega]
        exact ho
    · refine ih2 (fun hl => ?_) v hv
      have ho := h (by omega)
      by_cases h4 : fa S il = 0
      · have hm := ha hb _ (adderAlk_mem (L := L) (R := R) (O := O) (i := 0) (j := R.length - fa S ir) (by omega) (by omega) (by omega))
        rw [if_pos rfl] at hm
        refine (hS.two hm).2 ?_
        rw [show L.length + (R.length - fa S ir) - 1 = O.length - (fa S il + fa S ir) - 1 by omega]
        exact ho
      · have hm := ha hb _ (adderAlk_mem (L := L) (R := R) (O := O) (i := L.length - fa S il + 1) (j := R.length - fa S ir) (by omega) (by omega) (by omega))
        rw [if_neg (by omega), if_neg (by omega)] at hm
        refine (hS.three hm).2.1 (t1.upF hS hb _ (by omega) (by omega)) ?_
        rw [show L.length - fa S il + 1 + (R.length - fa S ir) - 2 = O.length - (fa S il + fa S ir) - 1 by omega]
        exact ho

theorem nth_mem_drop {O : List Var} {k i : Nat} (h1 : k ≤ i) (h2 : i < O.length) : O.nth i ∈ O.drop k := by
  rw [getBang _ _ h2, List.mem_iff_getElem]
  exact ⟨i - k, by simp; omega, by simp; congr 1; omega⟩

theorem nth_mem_take {O : List Var} {k i : Nat} (h1 : i < k) (h2 : i < O.length) : O.nth i ∈ O.take k := by
  rw [getBang _ _ h2, List.mem_iff_getElem]
  exact ⟨i, by simp; omega, by simp⟩

theorem tr_perm {S vs ws} (h : List.Perm vs ws) : tr S vs = tr S ws := h.countP_eq _
theorem fa_perm {S vs ws} (h : List.Perm vs ws) : fa S vs = fa S ws := h.countP_eq _

/-- Upper bound: units on the outputs from `k` on. -/
theorem Tree.amk {cs b rhs O ins} {S : Lit → Prop} (hS : ClN S cs) (hb : b ≠ .lower) (h : Tree cs b rhs O ins)
    (hu : ∀ o ∈ O.drop rhs, [o.n] ∈ cs) :
    (rhs + 1 ≤ tr S ins → ∃ l, S l ∧ S l.neg) ∧ (tr S ins = rhs → ∀ v ∈ ins, S v.p ∨ S v.n) := by
  have l1 := tr_le S ins
  have e1 := h.length
  refine ⟨fun ht => ?_, fun ht => h.down hS hb (by omega) fun hl => hS.one (hu _ (nth_mem_drop (by omega) hl))⟩
  exact ⟨(O.nth rhs).p, h.up hS hb (rhs + 1) (by omega) ht (by omega), hS.one (hu _ (nth_mem_drop (Nat.le_refl _) (by omega)))⟩

/-- Lower bound: units on the first `k` outputs. -/
theorem Tree.alk {cs b rhs O ins k} {S : Lit → Prop} (hS : ClN S cs) (hb : b ≠ .upper) (h : Tree cs b rhs O ins) (hk : k ≤ O.length)
    (hu : ∀ o ∈ O.take k, [o.p] ∈ cs) :
    (O.length - k + 1 ≤ fa S ins → ∃ l, S l ∧ S l.neg) ∧ (fa S ins = O.length - k → ∀ v ∈ ins, S v.p ∨ S v.n) := by
  have l1 := fa_le S ins
  have e1 := h.length
  refine ⟨fun ht => ?_, fun ht => h.downF hS hb fun hl => hS.one (hu _ (nth_mem_take (by omega) (by omega)))⟩
  exact ⟨(O.nth (k - 1)).p, hS.one (hu _ (nth_mem_take (by omega) (by omega))), h.upF hS hb k hk (by omega)⟩

end Prop1
end Verif
