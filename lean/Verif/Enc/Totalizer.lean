import Verif.Enc.Inc
/-
Model of the totalizer encoding, src/cardinality_constraints/cc_totalizer.rs.
-/
namespace Verif
open ER

/-- `Bound`, cc_totalizer.rs:7-12. -/
inductive TBound | lower | upper | both
  deriving DecidableEq, Repr

/-- `adder_amk`, cc_totalizer.rs:102-122. -/
def adderAmk (L R O : List Var) (rhs : Nat) : List Clause :=
  (List.range (L.length + 1)).flatMap fun i => (List.range (R.length + 1)).flatMap fun j =>
    if i = 0 ∧ j = 0 ∨ i + j > rhs + 1 then []
    else if i = 0 then [[(R.nth (j - 1)).n, (O.nth (j - 1)).p]]
    else if j = 0 then [[(L.nth (i - 1)).n, (O.nth (i - 1)).p]]
    else [[(L.nth (i - 1)).n, (R.nth (j - 1)).n, (O.nth (i + j - 1)).p]]

/-- `adder_alk`, cc_totalizer.rs:124-144. -/
def adderAlk (L R O : List Var) : List Clause :=
  (List.range (L.length + 1)).flatMap fun i => (List.range (R.length + 1)).flatMap fun j =>
    if i = 0 ∧ j = 0 then []
    else if i = 0 then [[(R.nth (j - 1)).p, (O.nth (L.length + j - 1)).n]]
    else if j = 0 then [[(L.nth (i - 1)).p, (O.nth (R.length + i - 1)).n]]
    else [[(L.nth (i - 1)).p, (R.nth (j - 1)).p, (O.nth (i + j - 2)).n]]

/-- One half of the loop cc_totalizer.rs:73-87: a half of size 1 is popped from the input
variables (the stack is kept in reverse, so the end of the vector is the head), a larger
half consists of new variables. -/
def popOrNew (k : Nat) (st : List Var) (s : ER) : List Var × List Var × ER :=
  if k = 1 then (st.take 1, st.drop 1, s)
  else ((s.newAuxs .cc k).1, st, (s.newAuxs .cc k).2)

/-- `to_cnf`, cc_totalizer.rs:68-100.  Fuel bounds the recursion depth; the recursion is on
halves, so `fuel ≥ outs.length` always suffices. Returns the remaining input variables. -/
def totCnf (rhs : Nat) (b : TBound) : Nat → List Var → List Var → ER → List Var × ER
  | 0, st, _, s => (st, s)
  | fuel + 1, st, O, s =>
    let split := O.length / 2
    let (L, st, s) := popOrNew split st s
    let (R, st, s) := popOrNew (O.length - split) st s
    let s := if b = .upper ∨ b = .both then s.addClauses (adderAmk L R O rhs) else s
    let s := if b = .lower ∨ b = .both then s.addClauses (adderAlk L R O) else s
    let (st, s) := if L.length > 1 then totCnf rhs b fuel st L s else (st, s)
    if R.length > 1 then totCnf rhs b fuel st R s else (st, s)

/-- `initialize_constraint`, cc_totalizer.rs:58-66, then `to_cnf`.  Returns the output
variables (kept as incremental data). -/
def totBuild (b : TBound) (vars : List Var) (rhs : Nat) (s : ER) : List Var × ER :=
  let (O, s) := s.newAuxs .cc vars.length
  let (_, s) := totCnf rhs b O.length vars.reverse O s
  (O, s)

/-- `build_amk`, cc_totalizer.rs:14-28; also returns the vector kept in the incremental data. -/
def totAmk (vars : List Var) (rhs : Nat) (s : ER) : List Var × ER :=
  let (O, s) := totBuild .upper vars rhs s
  (O, s.addClauses ((O.drop rhs).map fun o => [o.n]))

/-- `build_alk`, cc_totalizer.rs:30-44. -/
def totAlk (vars : List Var) (rhs : Nat) (s : ER) : List Var × ER :=
  let (O, s) := totBuild .lower vars rhs s
  (O, s.addClauses ((O.take rhs).map fun o => [o.p]))

/-- `build_exk`, cc_totalizer.rs:46-56. -/
def totExk (vars : List Var) (rhs : Nat) (s : ER) : ER :=
  let (O, s) := totBuild .both vars rhs s
  let s := s.addClauses ((O.take rhs).map fun o => [o.p])
  s.addClauses ((O.drop rhs).map fun o => [o.n])

/-! ### Lemmas -/

/-- The outputs count at least as far as the inputs, up to `rhs + 1`. -/
def UnaryUp (rhs : Nat) (O ins : List Var) (σ : Asg) : Prop :=
  ∀ t, 1 ≤ t → t ≤ O.length → t ≤ rhs + 1 → t ≤ cntV σ ins → σ (O.nth (t - 1)) = true
/-- The outputs count at most as far as the inputs. -/
def UnaryLo (O ins : List Var) (σ : Asg) : Prop :=
  ∀ t, 1 ≤ t → t ≤ O.length → cntV σ ins < t → σ (O.nth (t - 1)) = false

def Unary (b : TBound) (rhs : Nat) (O ins : List Var) (σ : Asg) : Prop :=
  (b ≠ .lower → UnaryUp rhs O ins σ) ∧ (b ≠ .upper → UnaryLo O ins σ)

theorem adderAmk_sat {σ : Asg} {L R O : List Var} {rhs : Nat} :
    (∀ c ∈ adderAmk L R O rhs, Clause.Sat σ c) ↔
    ∀ i j, i ≤ L.length → j ≤ R.length → 1 ≤ i + j → i + j ≤ rhs + 1 →
      (i = 0 ∨ σ (L.nth (i - 1)) = true) → (j = 0 ∨ σ (R.nth (j - 1)) = true) → σ (O.nth (i + j - 1)) = true := by
  simp only [adderAmk, List.mem_flatMap, List.mem_range, forall_exists_index, and_imp]
  constructor
  · intro h i j hi hj h1 h2 hl hr
    by_cases hi0 : i = 0
    · subst hi0
      have := h [(R.nth (j - 1)).n, (O.nth (j - 1)).p] 0 (by omega) j (by omega) (by
        rw [if_neg (by omega), if_pos rfl]; simp)
      simp only [Nat.zero_add]
      rcases hr with hr | hr
      · omega
      · simpa [hr] using this
    · by_cases hj0 : j = 0
      · subst hj0
        have := h [(L.nth (i - 1)).n, (O.nth (i - 1)).p] i (by omega) 0 (by omega) (by
          rw [if_neg (by omega), if_neg hi0, if_pos rfl]; simp)
        rcases hl with hl | hl
        · omega
        · simpa [hl] using this
      · have := h [(L.nth (i - 1)).n, (R.nth (j - 1)).n, (O.nth (i + j - 1)).p] i (by omega) j (by omega) (by
          rw [if_neg (by omega), if_neg hi0, if_neg hj0]; simp)
        rcases hl with hl | hl
        · omega
        · rcases hr with hr | hr
          · omega
          · simpa [hl, hr] using this
  · intro h c i hi j hj hc
    split at hc
    · simp at hc
    · rename_i hcond
      have := h i j (by omega) (by omega) (by omega) (by omega)
      split at hc
      · rename_i hi0; subst hi0
        simp at hc; subst hc
        simp only [Nat.zero_add] at this
        cases hr : σ (R.nth (j - 1)) <;> simp_all
      · split at hc
        · rename_i hj0; subst hj0
          simp at hc; subst hc
          cases hr : σ (L.nth (i - 1)) <;> simp_all
        · simp at hc; subst hc
          cases hr : σ (L.nth (i - 1)) <;> cases hr : σ (R.nth (j - 1)) <;> simp_all

theorem adderAlk_sat {σ : Asg} {L R O : List Var} :
    (∀ c ∈ adderAlk L R O, Clause.Sat σ c) ↔
    (∀ j, 1 ≤ j → j ≤ R.length → σ (R.nth (j - 1)) = false → σ (O.nth (L.length + j - 1)) = false) ∧
    (∀ i, 1 ≤ i → i ≤ L.length → σ (L.nth (i - 1)) = false → σ (O.nth (R.length + i - 1)) = false) ∧
    (∀ i j, 1 ≤ i → i ≤ L.length → 1 ≤ j → j ≤ R.length →
      σ (L.nth (i - 1)) = false → σ (R.nth (j - 1)) = false → σ (O.nth (i + j - 2)) = false) := by
  simp only [adderAlk, List.mem_flatMap, List.mem_range, forall_exists_index, and_imp]
  constructor
  · intro h
    refine ⟨?_, ?_, ?_⟩
    · intro j h1 h2 hf
      have := h [(R.nth (j - 1)).p, (O.nth (L.length + j - 1)).n] 0 (by omega) j (by omega) (by
        rw [if_neg (by omega), if_pos rfl]; simp)
      simpa [hf] using this
    · intro i h1 h2 hf
      have := h [(L.nth (i - 1)).p, (O.nth (R.length + i - 1)).n] i (by omega) 0 (by omega) (by
        rw [if_neg (by omega), if_neg (by omega), if_pos rfl]; simp)
      simpa [hf] using this
    · intro i j h1 h2 h3 h4 hf hf'
      have := h [(L.nth (i - 1)).p, (R.nth (j - 1)).p, (O.nth (i + j - 2)).n] i (by omega) j (by omega) (by
        rw [if_neg (by omega), if_neg (by omega), if_neg (by omega)]; simp)
      simpa [hf, hf'] using this
  · rintro ⟨h1, h2, h3⟩ c i hi j hj hc
    split at hc
    · simp at hc
    · split at hc
      · simp at hc; subst hc
        have := h1 j (by omega) (by omega)
        cases hr : σ (R.nth (j - 1)) <;> simp_all
      · split at hc
        · simp at hc; subst hc
          have := h2 i (by omega) (by omega)
          cases hr : σ (L.nth (i - 1)) <;> simp_all
        · simp at hc; subst hc
          have := h3 i j (by omega) (by omega) (by omega) (by omega)
          cases hr : σ (L.nth (i - 1)) <;> cases hr : σ (R.nth (j - 1)) <;> simp_all

theorem adderAmk_vars {L R O : List Var} {rhs : Nat} {P : Var → Prop} (hO : O.length = L.length + R.length)
    (h1 : ∀ v ∈ L, P v) (h2 : ∀ v ∈ R, P v) (h3 : ∀ v ∈ O, P v) :
    ∀ c ∈ adderAmk L R O rhs, ∀ l ∈ c, P l.v := by
  intro c hc l hl
  simp only [adderAmk, List.mem_flatMap, List.mem_range] at hc
  obtain ⟨i, hi, j, hj, hc⟩ := hc
  have a1 : ∀ k, k < L.length → P (L.nth k) := fun k hk => h1 _ (getBang_mem hk)
  have a2 : ∀ k, k < R.length → P (R.nth k) := fun k hk => h2 _ (getBang_mem hk)
  have a3 : ∀ k, k < O.length → P (O.nth k) := fun k hk => h3 _ (getBang_mem hk)
  split at hc
  · simp at hc
  · split at hc
    · simp at hc; subst hc; simp at hl
      rcases hl with rfl | rfl
      · exact a2 _ (by omega)
      · exact a3 _ (by omega)
    · split at hc
      · simp at hc; subst hc; simp at hl
        rcases hl with rfl | rfl
        · exact a1 _ (by omega)
        · exact a3 _ (by omega)
      · simp at hc; subst hc; simp at hl
        rcases hl with rfl | rfl | rfl
        · exact a1 _ (by omega)
        · exact a2 _ (by omega)
        · exact a3 _ (by omega)

theorem adderAlk_vars {L R O : List Var} {P : Var → Prop} (hO : O.length = L.length + R.length)
    (h1 : ∀ v ∈ L, P v) (h2 : ∀ v ∈ R, P v) (h3 : ∀ v ∈ O, P v) :
    ∀ c ∈ adderAlk L R O, ∀ l ∈ c, P l.v := by
  intro c hc l hl
  simp only [adderAlk, List.mem_flatMap, List.mem_range] at hc
  obtain ⟨i, hi, j, hj, hc⟩ := hc
  have a1 : ∀ k, k < L.length → P (L.nth k) := fun k hk => h1 _ (getBang_mem hk)
  have a2 : ∀ k, k < R.length → P (R.nth k) := fun k hk => h2 _ (getBang_mem hk)
  have a3 : ∀ k, k < O.length → P (O.nth k) := fun k hk => h3 _ (getBang_mem hk)
  split at hc
  · simp at hc
  · split at hc
    · simp at hc; subst hc; simp at hl
      rcases hl with rfl | rfl
      · exact a2 _ (by omega)
      · exact a3 _ (by omega)
    · split at hc
      · simp at hc; subst hc; simp at hl
        rcases hl with rfl | rfl
        · exact a1 _ (by omega)
        · exact a3 _ (by omega)
      · simp at hc; subst hc; simp at hl
        rcases hl with rfl | rfl | rfl
        · exact a1 _ (by omega)
        · exact a2 _ (by omega)
        · exact a3 _ (by omega)

theorem cntV_append (σ : Asg) (a b : List Var) : cntV σ (a ++ b) = cntV σ a + cntV σ b := by
  simp [cntV, List.countP_append]

theorem cntV_le (σ : Asg) (a : List Var) : cntV σ a ≤ a.length := List.countP_le_length

/-- Soundness of one node. -/
theorem unary_sound {b : TBound} {rhs : Nat} {L R O il ir : List Var} {σ : Asg}
    (hO : O.length = L.length + R.length) (hil : il.length = L.length) (hir : ir.length = R.length)
    (hl : Unary b rhs L il σ) (hr : Unary b rhs R ir σ)
    (ha : b = .upper ∨ b = .both → ∀ c ∈ adderAmk L R O rhs, Clause.Sat σ c)
    (hb : b = .lower ∨ b = .both → ∀ c ∈ adderAlk L R O, Clause.Sat σ c) :
    Unary b rhs O (il ++ ir) σ := by
  have cl := cntV_le σ il
  have cr := cntV_le σ ir
  constructor
  · intro hne t h1 h2 h3 h4
    have ha := ha (by cases b <;> simp_all)
    rw [adderAmk_sat] at ha
    rw [cntV_append] at h4
    have := ha (min t (cntV σ il)) (t - min t (cntV σ il)) (by omega) (by omega) (by omega) (by omega) ?_ ?_
    · have he : min t (cntV σ il) + (t - min t (cntV σ il)) - 1 = t - 1 := by omega
      rw [he] at this; exact this
    · by_cases h0 : min t (cntV σ il) = 0
      · exact Or.inl h0
      · right; exact hl.1 hne _ (by omega) (by omega) (by omega) (by omega)
    · by_cases h0 : t - min t (cntV σ il) = 0
      · exact Or.inl h0
      · right; exact hr.1 hne _ (by omega) (by omega) (by omega) (by omega)
  · intro hne t h1 h2 h4
    have hb := hb (by cases b <;> simp_all)
    rw [adderAlk_sat] at hb
    obtain ⟨b1, b2, b3⟩ := hb
    rw [cntV_append] at h4
    by_cases c1 : L.length + cntV σ ir < t
    · have := b1 (t - L.length) (by omega) (by omega) (hr.2 hne _ (by omega) (by omega) (by omega))
      have he : L.length + (t - L.length) - 1 = t - 1 := by omega
      rw [he] at this; exact this
    · by_cases c2 : R.length + cntV σ il < t
      · have := b2 (t - R.length) (by omega) (by omega) (hl.2 hne _ (by omega) (by omega) (by omega))
        have he : R.length + (t - R.length) - 1 = t - 1 := by omega
        rw [he] at this; exact this
      · have := b3 (cntV σ il + 1) (t - cntV σ il) (by omega) (by omega) (by omega) (by omega)
          (hl.2 hne _ (by omega) (by omega) (by omega)) (hr.2 hne _ (by omega) (by omega) (by omega))
        have he : cntV σ il + 1 + (t - cntV σ il) - 2 = t - 1 := by omega
        rw [he] at this; exact this

/-- Exact unary representation. -/
def Exact (L il : List Var) (σ : Asg) : Prop := ∀ i, i < L.length → σ (L.nth i) = decide (i + 1 ≤ cntV σ il)

theorem Exact.unary {b rhs L il σ} (h : Exact L il σ) : Unary b rhs L il σ := by
  constructor
  · intro _ t h1 h2 h3 h4
    rw [h (t - 1) (by omega)]; simp; omega
  · intro _ t h1 h2 h4
    rw [h (t - 1) (by omega)]; simp; omega

/-- Completeness of one node. -/
theorem unary_compl {b : TBound} {rhs : Nat} {L R O il ir : List Var} {σ : Asg}
    (hO : O.length = L.length + R.length) (hil : il.length = L.length) (hir : ir.length = R.length)
    (hl : Exact L il σ) (hr : Exact R ir σ) (h : Unary b rhs O (il ++ ir) σ) :
    (b = .upper ∨ b = .both → ∀ c ∈ adderAmk L R O rhs, Clause.Sat σ c) ∧
    (b = .lower ∨ b = .both → ∀ c ∈ adderAlk L R O, Clause.Sat σ c) := by
  have cl := cntV_le σ il
  have cr := cntV_le σ ir
  constructor
  · intro hb
    rw [adderAmk_sat]
    intro i j hi hj h1 h2 h3 h4
    refine h.1 (by rintro rfl; simp at hb) (i + j) h1 (by omega) (by omega) ?_
    rw [cntV_append]
    have a1 : i ≤ cntV σ il := by
      rcases h3 with h3 | h3
      · omega
      · by_cases h0 : i = 0
        · omega
        · rw [hl _ (by omega)] at h3; simp at h3; omega
    have a2 : j ≤ cntV σ ir := by
      rcases h4 with h3 | h3
      · omega
      · by_cases h0 : j = 0
        · omega
        · rw [hr _ (by omega)] at h3; simp at h3; omega
    omega
  · intro hb
    have hne : b ≠ .upper := by rintro rfl; simp at hb
    rw [adderAlk_sat]
    refine ⟨?_, ?_, ?_⟩
    · intro j h1 h2 hf
      rw [hr _ (by omega)] at hf; simp at hf
      refine h.2 hne (L.length + j) (by omega) (by omega) ?_
      rw [cntV_append]; omega
    · intro i h1 h2 hf
      rw [hl _ (by omega)] at hf; simp at hf
      have := h.2 hne (R.length + i) (by omega) (by omega) (by rw [cntV_append]; omega)
      exact this
    · intro i j h1 h2 h3 h4 hf hf'
      rw [hl _ (by omega)] at hf; simp at hf
      rw [hr _ (by omega)] at hf'; simp at hf'
      have := h.2 hne (i + j - 1) (by omega) (by omega) (by rw [cntV_append]; omega)
      have he : i + j - 1 - 1 = i + j - 2 := by omega
      rw [he] at this; exact this

theorem ER.Agree.unary {s : ER} {σ σ' : Asg} (ha : Agree s σ σ') {b rhs O ins} (h1 : ∀ v ∈ O, s.Old v)
    (h2 : ∀ v ∈ ins, s.Old v) (h : Unary b rhs O ins σ) : Unary b rhs O ins σ' := by
  constructor
  · intro hb t t1 t2 t3 t4
    rw [← ha _ (h1 _ (getBang_mem (by omega)))]
    exact h.1 hb t t1 t2 t3 (by rw [ha.cntV h2]; exact t4)
  · intro hb t t1 t2 t4
    rw [← ha _ (h1 _ (getBang_mem (by omega)))]
    exact h.2 hb t t1 t2 (by rw [ha.cntV h2]; exact t4)

theorem popOrNew_spec {k : Nat} {st : List Var} {s : ER} (hst : k = 1 → 1 ≤ st.length) (hw : Wf s)
    (hv : ∀ v ∈ st, s.Old v) :
    ∃ L st' s', popOrNew k st s = (L, st', s') ∧ L.length = k ∧ Le s s' ∧ (∀ σ, Sat σ s → Sat σ s') ∧ Wf s' ∧
      (∀ v ∈ L, s'.Old v) ∧
      ((k = 1 ∧ st = L ++ st' ∧ s' = s) ∨
       (k ≠ 1 ∧ st' = st ∧ ∀ (σ : Asg) (b : Nat → Bool), ∃ σ', Agree s σ σ' ∧ ∀ i, i < k → σ' (L.nth i) = b i)) := by
  unfold popOrNew
  split
  · rename_i h1
    refine ⟨_, _, _, rfl, ?_, Le.refl _, fun _ h => h, hw, ?_, Or.inl ⟨h1, ?_, rfl⟩⟩
    · have := hst h1; simp; omega
    · intro v hv'; exact hv v (List.mem_of_mem_take hv')
    · rw [List.take_append_drop]
  · rename_i h1
    refine ⟨_, _, _, rfl, by simp, newAuxs_le _ _ _, fun σ h => newAuxs_sat.2 h, newAuxs_wf hw,
      newAuxs_old (by decide), Or.inr ⟨h1, rfl, fun σ b => newAuxs_ext! k s b σ⟩⟩

theorem totCnf_encodes (rhs : Nat) (b : TBound) : ∀ (fuel : Nat) (st O : List Var) (s : ER),
    2 ≤ O.length → O.length ≤ fuel → O.length ≤ st.length → Wf s → (∀ v ∈ O, s.Old v) → (∀ v ∈ st, s.Old v) →
    ∃ ins st' s', totCnf rhs b fuel st O s = (st', s') ∧ st = ins ++ st' ∧ ins.length = O.length ∧
      Encodes s s' (Unary b rhs O ins) := by
  intro fuel
  induction fuel with
  | zero => intro st O s h h'; omega
  | succ fuel ih =>
    intro st O s h2 hf hst hw hvO hvst
    simp only [totCnf]
    obtain ⟨L, st1, s1, e1, lL, le1, sat1, w1, oL, cL⟩ := popOrNew_spec (k := O.length / 2) (st := st) (s := s)
      (by omega) hw hvst
    rw [e1]; simp only
    have hst1 : ∀ v ∈ st1, s1.Old v := by
      rcases cL with ⟨_, h, _⟩ | ⟨_, rfl, _⟩
      · intro v hv; exact le1.old (hvst v (by rw [h]; simp [hv]))
      · intro v hv; exact le1.old (hvst v hv)
    have hlen1 : O.length - O.length / 2 ≤ st1.length := by
      rcases cL with ⟨h1, h, _⟩ | ⟨_, rfl, _⟩
      · rw [h] at hst; simp at hst; omega
      · omega
    obtain ⟨R, st2, s2, e2, lR, le2, sat2, w2, oR, cR⟩ := popOrNew_spec (k := O.length - O.length / 2) (st := st1) (s := s1)
      (by omega) w1 hst1
    rw [e2]; simp only
    have hst2 : ∀ v ∈ st2, s2.Old v := by
      rcases cR with ⟨_, h, _⟩ | ⟨_, rfl, _⟩
      · intro v hv; exact le2.old (hst1 v (by rw [h]; simp [hv]))
      · intro v hv; exact le2.old (hst1 v hv)
    have hle2 := le1.trans le2
    have oL2 : ∀ v ∈ L, s2.Old v := fun v hv => le2.old (oL v hv)
    have oO2 : ∀ v ∈ O, s2.Old v := fun v hv => hle2.old (hvO v hv)
    have hOlen : O.length = L.length + R.length := by omega
    -- the adder clauses
    generalize hs3 : (if b = TBound.upper ∨ b = TBound.both then s2.addClauses (adderAmk L R O rhs) else s2) = s3
    have E3 : Encodes s2 s3 (fun σ => b = .upper ∨ b = .both → ∀ c ∈ adderAmk L R O rhs, Clause.Sat σ c) := by
      rw [← hs3]; split
      · rename_i h
        exact (addClauses_encodes w2 (adderAmk_vars hOlen oL2 oR oO2)).congr fun σ => by simp [h]
      · rename_i h
        exact (Encodes.id w2).congr fun σ => by simp [h]
    generalize hs4 : (if b = TBound.lower ∨ b = TBound.both then s3.addClauses (adderAlk L R O) else s3) = s4
    have E4 : Encodes s3 s4 (fun σ => b = .lower ∨ b = .both → ∀ c ∈ adderAlk L R O, Clause.Sat σ c) := by
      rw [← hs4]; split
      · rename_i h
        exact (addClauses_encodes E3.wf (adderAlk_vars hOlen (fun v hv => E3.le.old (oL2 v hv))
          (fun v hv => E3.le.old (oR v hv)) (fun v hv => E3.le.old (oO2 v hv)))).congr fun σ => by simp [h]
      · rename_i h
        exact (Encodes.id E3.wf).congr fun σ => by simp [h]
    have le24 := E3.le.trans E4.le
    -- left subtree
    have EL : ∃ il st3 s5, (if L.length > 1 then totCnf rhs b fuel st2 L s4 else (st2, s4)) = (st3, s5) ∧
        il.length = L.length ∧ Encodes s4 s5 (Unary b rhs L il) ∧
        ((O.length / 2 = 1 ∧ il = L ∧ st3 = st2) ∨ (O.length / 2 ≠ 1 ∧ st2 = il ++ st3)) := by
      by_cases h1 : L.length > 1
      · rw [if_pos h1]
        have hlen2 : L.length ≤ st2.length := by
          rcases cL with ⟨h, _⟩ | ⟨_, rfl, _⟩
          · omega
          · rcases cR with ⟨h, _⟩ | ⟨_, rfl, _⟩ <;> omega
        obtain ⟨il, st3, s5, h, h', h'', E⟩ := ih st2 L s4 (by omega) (by omega) hlen2 E4.wf
          (fun v hv => le24.old (oL2 v hv)) (fun v hv => le24.old (hst2 v hv))
        exact ⟨il, st3, s5, h, h'', E, Or.inr ⟨by omega, h'⟩⟩
      · rw [if_neg h1]
        refine ⟨L, st2, s4, rfl, rfl, (Encodes.id E4.wf).congr fun σ => ?_, Or.inl ⟨by omega, rfl, rfl⟩⟩
        obtain ⟨x, rfl⟩ := List.length_eq_one_iff.1 (show L.length = 1 by omega)
        simp only [true_iff]
        refine Exact.unary ?_
        intro i hi; simp at hi; subst hi
        cases hx : σ x <;> simp [cntV, List.nth, hx]
    obtain ⟨il, st3, s5, e5, lil, E5, cL'⟩ := EL
    rw [e5]; simp only
    have hst3 : ∀ v ∈ st3, s4.Old v := by
      rcases cL' with ⟨_, _, rfl⟩ | ⟨_, h⟩
      · intro v hv; exact le24.old (hst2 v hv)
      · intro v hv; exact le24.old (hst2 v (by rw [h]; simp [hv]))
    have ER : ∃ ir st4 s6, (if R.length > 1 then totCnf rhs b fuel st3 R s5 else (st3, s5)) = (st4, s6) ∧
        ir.length = R.length ∧ Encodes s5 s6 (Unary b rhs R ir) ∧
        ((O.length - O.length / 2 = 1 ∧ ir = R ∧ st4 = st3) ∨ (O.length - O.length / 2 ≠ 1 ∧ st3 = ir ++ st4)) := by
      by_cases h1 : R.length > 1
      · rw [if_pos h1]
        have hlen3 : R.length ≤ st3.length := by
          rcases cR with ⟨h, _⟩ | ⟨_, hh, _⟩
          · omega
          · subst hh
            rcases cL' with ⟨hq, _, rfl⟩ | ⟨hq, h⟩
            · omega
            · rcases cL with ⟨h', _⟩ | ⟨_, h', _⟩
              · omega
              · subst h'; rw [h] at hst; simp at hst; omega
        obtain ⟨ir, st4, s6, h, h', h'', E⟩ := ih st3 R s5 (by omega) (by omega) hlen3 E5.wf
          (fun v hv => E5.le.old (le24.old (oR v hv))) (fun v hv => E5.le.old (hst3 v hv))
        exact ⟨ir, st4, s6, h, h'', E, Or.inr ⟨by omega, h'⟩⟩
      · rw [if_neg h1]
        refine ⟨R, st3, s5, rfl, rfl, (Encodes.id E5.wf).congr fun σ => ?_, Or.inl ⟨by omega, rfl, rfl⟩⟩
        obtain ⟨x, rfl⟩ := List.length_eq_one_iff.1 (show R.length = 1 by omega)
        simp only [true_iff]
        refine Exact.unary ?_
        intro i hi; simp at hi; subst hi
        cases hx : σ x <;> simp [cntV, List.nth, hx]
    obtain ⟨ir, st4, s6, e6, lir, E6, cR'⟩ := ER
    -- how the stack splits
    have hsplit : st = (il ++ ir) ++ st4 := by
      rcases cL with ⟨q1, h1, _⟩ | ⟨q1, h1, _⟩ <;> rcases cR with ⟨q2, h2, _⟩ | ⟨q2, h2, _⟩ <;>
        rcases cL' with ⟨q3, h3, h3'⟩ | ⟨q3, h3⟩ <;> rcases cR' with ⟨q4, h4, h4'⟩ | ⟨q4, h4⟩ <;>
        first | omega | (subst_vars; simp [*])
    have oil : ∀ v ∈ il, s.Old v := fun v hv => hvst v (by rw [hsplit]; simp [hv])
    have oir : ∀ v ∈ ir, s.Old v := fun v hv => hvst v (by rw [hsplit]; simp [hv])
    refine ⟨il ++ ir, st4, s6, e6, hsplit, by simp; omega, ?_⟩
    have EE := ((E3.trans E4 (fun σ σ' ha h hb c hc =>
        (ha.clause (adderAlk_vars hOlen oL2 oR oO2 c hc)).1 (h hb c hc))).trans E5
      (fun σ σ' ha h => ha.unary oL2 (fun v hv => hle2.old (oil v hv)) h)).trans E6
      (fun σ σ' ha h => ha.unary oR (fun v hv => hle2.old (oir v hv)) h)
    refine alloc_encodes hw hle2 (fun σ h => sat2 σ (sat1 σ h)) EE ?_ ?_ ?_
    · intro σ σ' ha h
      exact ha.unary hvO (by intro v hv; simp at hv; rcases hv with hv | hv; exact oil v hv; exact oir v hv) h
    · rintro σ ⟨⟨⟨h1, h2⟩, h3⟩, h4⟩
      exact unary_sound hOlen lil lir h3 h4 h1 h2
    · intro σ hC
      -- extend to L
      have X1 : ∃ σ1, Agree s σ σ1 ∧ Exact L il σ1 := by
        rcases cL with ⟨q1, h1, _⟩ | ⟨q1, h1, hx⟩
        · refine ⟨σ, Agree.refl _ _, ?_⟩
          rcases cL' with ⟨_, rfl, _⟩ | ⟨q, _⟩
          · obtain ⟨x, rfl⟩ := List.length_eq_one_iff.1 (show il.length = 1 by omega)
            intro i hi; simp at hi; subst hi
            cases hx : σ x <;> simp [cntV, List.nth, hx]
          · exact absurd q1 q
        · obtain ⟨σ1, ha, hb⟩ := hx σ (fun i => decide (i + 1 ≤ cntV σ il))
          refine ⟨σ1, ha, ?_⟩
          intro i hi; rw [hb i (by omega), ha.cntV oil]
      obtain ⟨σ1, ha1, x1⟩ := X1
      have X2 : ∃ σ2, Agree s1 σ1 σ2 ∧ Exact R ir σ2 := by
        rcases cR with ⟨q1, h1, _⟩ | ⟨q1, h1, hx⟩
        · refine ⟨σ1, Agree.refl _ _, ?_⟩
          rcases cR' with ⟨_, rfl, _⟩ | ⟨q, _⟩
          · obtain ⟨x, rfl⟩ := List.length_eq_one_iff.1 (show ir.length = 1 by omega)
            intro i hi; simp at hi; subst hi
            cases hx : σ1 x <;> simp [cntV, List.nth, hx]
          · exact absurd q1 q
        · obtain ⟨σ2, ha, hb⟩ := hx σ1 (fun i => decide (i + 1 ≤ cntV σ1 ir))
          refine ⟨σ2, ha, ?_⟩
          intro i hi; rw [hb i (by omega), ha.cntV (fun v hv => le1.old (oir v hv))]
      obtain ⟨σ2, ha2, x2⟩ := X2
      have x1' : Exact L il σ2 := by
        intro i hi
        rw [← ha2 _ (oL _ (getBang_mem hi)), ← ha2.cntV (fun v hv => le1.old (oil v hv))]
        exact x1 i hi
      have ha := ha1.trans le1 ha2
      have hC2 : Unary b rhs O (il ++ ir) σ2 :=
        ha.unary hvO (by intro v hv; simp at hv; rcases hv with hv | hv; exact oil v hv; exact oir v hv) hC
      obtain ⟨k1, k2⟩ := unary_compl hOlen lil lir x1' x2 hC2
      exact ⟨σ2, ha, ⟨⟨k1, k2⟩, x1'.unary⟩, x2.unary⟩

theorem cntV_reverse (σ : Asg) (vs : List Var) : cntV σ vs.reverse = cntV σ vs := by
  simp [cntV, List.countP_reverse]

/-- The tree part of the totalizer, relative to the state after allocating the outputs. -/
theorem totBuild_spec (b : TBound) {vars : List Var} {rhs : Nat} {s : ER} (h2 : 2 ≤ vars.length) (hw : Wf s)
    (hv : ∀ v ∈ vars, s.Old v) :
    Encodes (s.newAuxs .cc vars.length).2 (totBuild b vars rhs s).2
      (fun σ => Unary b rhs (totBuild b vars rhs s).1 vars σ) ∧
    (totBuild b vars rhs s).1 = (s.newAuxs .cc vars.length).1 := by
  obtain ⟨ins, st', s', e, h1, h2', E⟩ := totCnf_encodes rhs b vars.length vars.reverse (s.newAuxs .cc vars.length).1
    (s.newAuxs .cc vars.length).2 (by simpa using h2) (by simp) (by simp) (newAuxs_wf hw) (newAuxs_old (by decide))
    (by intro v hv'; simp at hv'; exact old_newAuxs (hv v hv'))
  have hst : st' = [] := by
    have := congrArg List.length h1
    simp at this h2'
    have : st'.length = 0 := by omega
    exact List.length_eq_zero_iff.1 this
  subst hst
  simp at h1
  subst h1
  simp only [totBuild, newAuxs_length, e]
  refine ⟨E.congr fun σ => ?_, trivial⟩
  unfold Unary UnaryUp UnaryLo
  rw [cntV_reverse]

theorem Exact.of_new {vars : List Var} {s : ER} (hv : ∀ v ∈ vars, s.Old v) (σ : Asg) :
    ∃ σ', Agree s σ σ' ∧ Exact (s.newAuxs .cc vars.length).1 vars σ' := by
  obtain ⟨σ', ha, hb⟩ := newAuxs_ext! vars.length s (fun i => decide (i + 1 ≤ cntV σ vars)) σ
  refine ⟨σ', ha, ?_⟩
  intro i hi
  rw [hb i (by simpa using hi), ha.cntV hv]

/-- The tree with exact outputs can be satisfied. -/
theorem totBuild_compl (b : TBound) {vars : List Var} {rhs : Nat} {s : ER} (h2 : 2 ≤ vars.length) (hw : Wf s)
    (hv : ∀ v ∈ vars, s.Old v) {σ : Asg} (hs : Sat σ s) :
    ∃ σ', Agree s σ σ' ∧ Sat σ' (totBuild b vars rhs s).2 ∧ Exact (totBuild b vars rhs s).1 vars σ' := by
  obtain ⟨E, he⟩ := totBuild_spec b (rhs := rhs) h2 hw hv
  obtain ⟨σ1, ha1, hx⟩ := Exact.of_new hv σ
  obtain ⟨σ2, ha2, hs2⟩ := E.compl (σ := σ1) (newAuxs_sat.2 ((ha1.sat hw).1 hs)) (by rw [he]; exact hx.unary)
  refine ⟨σ2, ha1.trans (newAuxs_le _ _ _) ha2, hs2, ?_⟩
  rw [he]
  intro i hi
  rw [← ha2 _ (newAuxs_old (by decide) _ (getBang_mem hi)), ← ha2.cntV (fun v h => old_newAuxs (hv v h))]
  exact hx i hi

theorem mem_drop_nth {l : List Var} {r : Nat} {v : Var} : v ∈ l.drop r ↔ ∃ i, r ≤ i ∧ i < l.length ∧ v = l.nth i := by
  rw [List.mem_iff_getElem]
  constructor
  · rintro ⟨i, hi, rfl⟩
    simp at hi
    refine ⟨r + i, by omega, by omega, ?_⟩
    rw [getBang _ _ (by omega)]; simp
  · rintro ⟨i, h1, h2, rfl⟩
    refine ⟨i - r, by simp; omega, ?_⟩
    rw [getBang _ _ h2]; simp [show r + (i - r) = i by omega]

theorem mem_take_nth {l : List Var} {r : Nat} {v : Var} : v ∈ l.take r ↔ ∃ i, i < r ∧ i < l.length ∧ v = l.nth i := by
  rw [List.mem_iff_getElem]
  constructor
  · rintro ⟨i, hi, rfl⟩
    simp at hi
    refine ⟨i, by omega, by omega, ?_⟩
    rw [getBang _ _ (by omega)]; simp
  · rintro ⟨i, h1, h2, rfl⟩
    refine ⟨i, by simp; omega, ?_⟩
    rw [getBang _ _ h2]; simp

theorem totAmk_inc {vars : List Var} {rhs : Nat} {s : ER} (h2 : 2 ≤ vars.length) (hr : rhs < vars.length) (hw : Wf s)
    (hv : ∀ v ∈ vars, s.Old v) :
    IncOK s (totAmk vars rhs s).2 (CUp vars) TUp rhs
      (fun r => (((totAmk vars rhs s).1.map Var.p).drop r).map fun o => [o.neg]) := by
  obtain ⟨E, he⟩ := totBuild_spec .upper (rhs := rhs) h2 hw hv
  have hO : ∀ v ∈ (totBuild .upper vars rhs s).1, (totBuild .upper vars rhs s).2.Old v := by
    rw [he]; intro v h; exact E.le.old (newAuxs_old (by decide) v h)
  have hlen : (totBuild .upper vars rhs s).1.length = vars.length := by rw [he]; simp
  have hcl : ∀ σ r, (∀ c ∈ ((((totBuild .upper vars rhs s).1.map Var.p).drop r).map fun o => [o.neg]), Clause.Sat σ c) ↔
      ∀ i, r ≤ i → i < vars.length → σ ((totBuild .upper vars rhs s).1.nth i) = false := by
    intro σ r
    simp only [← List.map_drop, List.map_map, List.mem_map, mem_drop_nth, hlen]
    constructor
    · intro h i h1 h2
      have := h _ ⟨_, ⟨i, h1, h2, rfl⟩, rfl⟩
      simpa using this
    · rintro h c ⟨v, ⟨i, h1, h2, rfl⟩, rfl⟩
      simpa using h i h1 h2
  have hcl' : ((totBuild .upper vars rhs s).1.drop rhs).map (fun o => [o.n])
      = ((((totBuild .upper vars rhs s).1.map Var.p).drop rhs).map fun o => [o.neg]) := by
    simp only [← List.map_drop, List.map_map]; rfl
  have hold : ∀ r, ∀ c ∈ ((((totBuild .upper vars rhs s).1.map Var.p).drop r).map fun o => [o.neg]), ∀ l ∈ c,
      (totBuild .upper vars rhs s).2.Old l.v := by
    intro r c hc l hl
    simp only [← List.map_drop, List.map_map, List.mem_map] at hc
    obtain ⟨v, hv', rfl⟩ := hc
    simp at hl; subst hl
    exact hO _ (List.mem_of_mem_drop hv')
  have hsnd : ∀ σ r', Sat σ (totBuild .upper vars rhs s).2 → r' ≤ rhs →
      (∀ i, r' ≤ i → i < vars.length → σ ((totBuild .upper vars rhs s).1.nth i) = false) → cntV σ vars ≤ r' := by
    intro σ r' hs hr' hc
    by_contra hcon
    have := (E.sound hs).1 (by decide) (r' + 1) (by omega) (by omega) (by omega) (by omega)
    rw [hc _ (by omega) (by omega)] at this
    cases this
  constructor
  · exact (newAuxs_le .cc vars.length s).trans (E.le.trans (addClauses_le _ _))
  · have h := addClauses_wf E.wf (hold rhs)
    rw [← hcl'] at h; exact h
  · intro r' _ c hc l hl
    simp only [totAmk, addClauses_old]
    exact hold r' c hc l hl
  · intro σ hs
    simp only [totAmk, addClauses_sat] at hs
    rw [hcl', hcl] at hs
    exact hsnd σ rhs hs.1 (Nat.le_refl _) hs.2
  · intro σ r' hs ht hc
    simp only [totAmk, addClauses_sat] at hs hc
    rw [hcl] at hc
    exact hsnd σ r' hs.1 (Nat.le_of_lt ht) hc
  · intro σ hs hc
    obtain ⟨σ', ha, hs', hx⟩ := totBuild_compl .upper (rhs := rhs) h2 hw hv hs
    have hb : ∀ r', cntV σ vars ≤ r' → ∀ i, r' ≤ i → i < vars.length →
        σ' ((totBuild .upper vars rhs s).1.nth i) = false := by
      intro r' hc i h1 h2
      rw [hx i (by omega), ← ha.cntV hv]; simp; omega
    refine ⟨σ', ha, ?_, ?_⟩
    · simp only [totAmk, addClauses_sat]
      refine ⟨hs', ?_⟩
      rw [hcl', hcl]; exact hb rhs hc
    · intro r' _ hc'
      simp only [totAmk]
      rw [hcl]; exact hb r' hc'

theorem totAlk_inc {vars : List Var} {rhs : Nat} {s : ER} (h2 : 2 ≤ vars.length) (hr : rhs ≤ vars.length) (hw : Wf s)
    (hv : ∀ v ∈ vars, s.Old v) :
    IncOK s (totAlk vars rhs s).2 (CLo vars) (TLo vars.length) rhs
      (fun r => (((totAlk vars rhs s).1.map Var.p).take r).map fun o => [o]) := by
  obtain ⟨E, he⟩ := totBuild_spec .lower (rhs := rhs) h2 hw hv
  have hO : ∀ v ∈ (totBuild .lower vars rhs s).1, (totBuild .lower vars rhs s).2.Old v := by
    rw [he]; intro v h; exact E.le.old (newAuxs_old (by decide) v h)
  have hlen : (totBuild .lower vars rhs s).1.length = vars.length := by rw [he]; simp
  have hcl : ∀ σ r, (∀ c ∈ ((((totBuild .lower vars rhs s).1.map Var.p).take r).map fun o => [o]), Clause.Sat σ c) ↔
      ∀ i, i < r → i < vars.length → σ ((totBuild .lower vars rhs s).1.nth i) = true := by
    intro σ r
    simp only [← List.map_take, List.map_map, List.mem_map, mem_take_nth, hlen]
    constructor
    · intro h i h1 h2
      have := h _ ⟨_, ⟨i, h1, h2, rfl⟩, rfl⟩
      simpa using this
    · rintro h c ⟨v, ⟨i, h1, h2, rfl⟩, rfl⟩
      simpa using h i h1 h2
  have hcl' : ((totBuild .lower vars rhs s).1.take rhs).map (fun o => [o.p])
      = ((((totBuild .lower vars rhs s).1.map Var.p).take rhs).map fun o => [o]) := by
    simp only [← List.map_take, List.map_map]; rfl
  have hold : ∀ r, ∀ c ∈ ((((totBuild .lower vars rhs s).1.map Var.p).take r).map fun o => [o]), ∀ l ∈ c,
      (totBuild .lower vars rhs s).2.Old l.v := by
    intro r c hc l hl
    simp only [← List.map_take, List.map_map, List.mem_map] at hc
    obtain ⟨v, hv', rfl⟩ := hc
    simp at hl; subst hl
    exact hO _ (List.mem_of_mem_take hv')
  have hsnd : ∀ σ r', Sat σ (totBuild .lower vars rhs s).2 → r' ≤ vars.length →
      (∀ i, i < r' → i < vars.length → σ ((totBuild .lower vars rhs s).1.nth i) = true) → r' ≤ cntV σ vars := by
    intro σ r' hs hr' hc
    by_contra hcon
    have := (E.sound hs).2 (by decide) r' (by omega) (by omega) (by omega)
    rw [hc _ (by omega) (by omega)] at this
    cases this
  constructor
  · exact (newAuxs_le .cc vars.length s).trans (E.le.trans (addClauses_le _ _))
  · have h := addClauses_wf E.wf (hold rhs)
    rw [← hcl'] at h; exact h
  · intro r' _ c hc l hl
    simp only [totAlk, addClauses_old]
    exact hold r' c hc l hl
  · intro σ hs
    simp only [totAlk, addClauses_sat] at hs
    rw [hcl', hcl] at hs
    exact hsnd σ rhs hs.1 hr hs.2
  · intro σ r' hs ht hc
    simp only [totAlk, addClauses_sat] at hs hc
    rw [hcl] at hc
    exact hsnd σ r' hs.1 ht.2 hc
  · intro σ hs hc
    obtain ⟨σ', ha, hs', hx⟩ := totBuild_compl .lower (rhs := rhs) h2 hw hv hs
    have hb : ∀ r', r' ≤ cntV σ vars → ∀ i, i < r' → i < vars.length →
        σ' ((totBuild .lower vars rhs s).1.nth i) = true := by
      intro r' hc i h1 h2
      rw [hx i (by omega), ← ha.cntV hv]; simp; omega
    refine ⟨σ', ha, ?_, ?_⟩
    · simp only [totAlk, addClauses_sat]
      refine ⟨hs', ?_⟩
      rw [hcl', hcl]; exact hb rhs hc
    · intro r' _ hc'
      simp only [totAlk]
      rw [hcl]; exact hb r' hc'

theorem totExk_encodes {vars : List Var} {rhs : Nat} {s : ER} (h2 : 2 ≤ vars.length) (hr : rhs < vars.length) (hw : Wf s)
    (hv : ∀ v ∈ vars, s.Old v) : Encodes s (totExk vars rhs s) (fun σ => cntV σ vars = rhs) := by
  obtain ⟨E, he⟩ := totBuild_spec .both (rhs := rhs) h2 hw hv
  have hO : ∀ v ∈ (totBuild .both vars rhs s).1, (totBuild .both vars rhs s).2.Old v := by
    rw [he]; intro v h; exact E.le.old (newAuxs_old (by decide) v h)
  have hlen : (totBuild .both vars rhs s).1.length = vars.length := by rw [he]; simp
  have hcl : ∀ σ, (∀ c ∈ ((totBuild .both vars rhs s).1.take rhs).map (fun o => [o.p]), Clause.Sat σ c) ↔
      ∀ i, i < rhs → σ ((totBuild .both vars rhs s).1.nth i) = true := by
    intro σ
    simp only [List.mem_map, mem_take_nth, hlen]
    constructor
    · intro h i h1
      have := h _ ⟨_, ⟨i, h1, by omega, rfl⟩, rfl⟩
      simpa using this
    · rintro h c ⟨v, ⟨i, h1, h2, rfl⟩, rfl⟩
      simpa using h i h1
  have hcl2 : ∀ σ, (∀ c ∈ ((totBuild .both vars rhs s).1.drop rhs).map (fun o => [o.n]), Clause.Sat σ c) ↔
      ∀ i, rhs ≤ i → i < vars.length → σ ((totBuild .both vars rhs s).1.nth i) = false := by
    intro σ
    simp only [List.mem_map, mem_drop_nth, hlen]
    constructor
    · intro h i h1 h2
      have := h _ ⟨_, ⟨i, h1, h2, rfl⟩, rfl⟩
      simpa using this
    · rintro h c ⟨v, ⟨i, h1, h2, rfl⟩, rfl⟩
      simpa using h i h1 h2
  refine Encodes.mk' ?_ hw ?_ ?_ ?_ ?_
  · exact (newAuxs_le .cc vars.length s).trans (E.le.trans ((addClauses_le _ _).trans (addClauses_le _ _)))
  · refine addClauses_wf (addClauses_wf E.wf ?_) ?_
    · intro c hc l hl
      simp only [List.mem_map] at hc
      obtain ⟨v, hv', rfl⟩ := hc
      simp at hl; subst hl
      exact hO _ (List.mem_of_mem_take hv')
    · intro c hc l hl
      simp only [List.mem_map] at hc
      obtain ⟨v, hv', rfl⟩ := hc
      simp at hl; subst hl
      rw [addClauses_old]
      exact hO _ (List.mem_of_mem_drop hv')
  · intro σ σ' ha h; rw [← ha.cntV hv]; exact h
  · intro σ hs
    simp only [totExk, addClauses_sat] at hs
    rw [hcl, hcl2] at hs
    obtain ⟨⟨h1, h3⟩, h4⟩ := hs
    have U := E.sound h1
    by_contra hcon
    rcases Nat.lt_or_gt_of_ne hcon with hcon | hcon
    · have := U.2 (by decide) rhs (by omega) (by omega) hcon
      rw [h3 _ (by omega)] at this; cases this
    · have := U.1 (by decide) (rhs + 1) (by omega) (by omega) (by omega) (by omega)
      rw [h4 _ (by omega) (by omega)] at this; cases this
  · intro σ hs hc
    obtain ⟨σ', ha, hs', hx⟩ := totBuild_compl .both (rhs := rhs) h2 hw hv hs
    refine ⟨σ', ha, ?_⟩
    simp only [totExk, addClauses_sat]
    rw [hcl, hcl2]
    refine ⟨⟨hs', ?_⟩, ?_⟩
    · intro i h1
      rw [hx i (by omega), ← ha.cntV hv]; simp; omega
    · intro i h1 h3
      rw [hx i (by omega), ← ha.cntV hv]; simp; omega

end Verif
