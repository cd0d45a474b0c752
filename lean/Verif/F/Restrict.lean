import Verif.F.Vars

/-
Evaluation and restriction by partial assignments.
-/
namespace Verif

/-- 64-bit two's complement: `i64` arithmetic of the release profile (Cargo.toml does not
enable overflow checks there; a debug build panics instead). -/
def w64 (x : Int) : Int := Int.bmod x (2 ^ 64)

theorem w64_id {x : Int} (h : I64 x) : w64 x = x := by
  obtain ⟨h1, h2⟩ := h
  unfold w64
  exact Int.bmod_eq_of_le (by omega) (by omega)

@[simp] theorem w64_zero : w64 0 = 0 := by decide

theorem w64_add (a b : Int) : w64 (w64 a + b) = w64 (a + b) := by
  unfold w64; exact Int.bmod_add_bmod ..

/-- `Assignment`, src/datastructures/assignment.rs: the sets `pos` and `neg`. -/
structure PAsg where
  pos : List Var
  neg : List Var

namespace PAsg

/-- The total assignment that agrees with the partial one where it is defined
(specification). -/
def over (A : PAsg) (σ : Asg) : Asg := fun v => if v ∈ A.pos then true else if v ∈ A.neg then false else σ v

/-- The variable is assigned (specification). -/
def Dom (A : PAsg) (v : Var) : Prop := v ∈ A.pos ∨ v ∈ A.neg

instance (A : PAsg) (v : Var) : Decidable (A.Dom v) := by unfold Dom; infer_instance

/-- `evaluate_lit`, assignment.rs:484-487. -/
def evalLit (A : PAsg) (l : Lit) : Bool :=
  if l.pos then decide (l.v ∈ A.pos) else decide (l.v ∈ A.neg) || !decide (l.v ∈ A.pos)

/-- `restrict_lit`, assignment.rs:518-528. -/
def restrictLit (A : PAsg) (l : Lit) : Formula :=
  if l.v ∈ A.pos then (if l.pos then Formula.const true else Formula.const false)
  else if l.v ∈ A.neg then (if l.pos then Formula.const false else Formula.const true)
  else .lit l

theorem over_of_not_dom {A : PAsg} {v : Var} (h : ¬ A.Dom v) (σ : Asg) : A.over σ v = σ v := by
  simp only [Dom, not_or] at h
  simp [over, h.1, h.2]

theorem eval_restrictLit (A : PAsg) (σ : Asg) (l : Lit) : (A.restrictLit l).eval σ = l.eval (A.over σ) := by
  rcases l with ⟨v, p⟩
  by_cases h1 : v ∈ A.pos
  · cases p <;> simp [restrictLit, Lit.eval, over, h1]
  · by_cases h2 : v ∈ A.neg
    · cases p <;> simp [restrictLit, Lit.eval, over, h1, h2]
    · cases p <;> simp [restrictLit, Lit.eval, over, h1, h2]

theorem restrictLit_cases (A : PAsg) (l : Lit) :
    (A.restrictLit l = .lit l ∧ ¬ A.Dom l.v) ∨ (A.restrictLit l = .tru ∧ A.Dom l.v ∧ ∀ σ, l.eval (A.over σ) = true) ∨
    (A.restrictLit l = .fls ∧ A.Dom l.v ∧ ∀ σ, l.eval (A.over σ) = false) := by
  rcases l with ⟨v, p⟩
  by_cases h1 : v ∈ A.pos
  · cases p
    · right; right; exact ⟨by simp [restrictLit, h1, Formula.const], .inl h1, fun σ => by simp [Lit.eval, over, h1]⟩
    · right; left; exact ⟨by simp [restrictLit, h1, Formula.const], .inl h1, fun σ => by simp [Lit.eval, over, h1]⟩
  · by_cases h2 : v ∈ A.neg
    · cases p
      · right; left; exact ⟨by simp [restrictLit, h1, h2, Formula.const], .inr h2, fun σ => by simp [Lit.eval, over, h1, h2]⟩
      · right; right; exact ⟨by simp [restrictLit, h1, h2, Formula.const], .inr h2, fun σ => by simp [Lit.eval, over, h1, h2]⟩
    · left; exact ⟨by simp [restrictLit, h1, h2], by simp [Dom, h1, h2]⟩

end PAsg

/-! ### Pseudo-Boolean constraints -/

/-- `status` in `evaluate_coeffs`, pbc_cc.rs:576-588. -/
def coeffStatus (mn mx rhs : Int) : Nat :=
  (if rhs ≥ mn then 1 else 0) + (if rhs > mn then 1 else 0) + (if rhs ≥ mx then 1 else 0) + (if rhs > mx then 1 else 0)

theorem coeffStatus_eq (mn mx rhs : Int) : ∃ a b c d : Nat, coeffStatus mn mx rhs = a + b + c + d ∧
    (rhs ≥ mn ∧ a = 1 ∨ ¬ rhs ≥ mn ∧ a = 0) ∧ (rhs > mn ∧ b = 1 ∨ ¬ rhs > mn ∧ b = 0) ∧
    (rhs ≥ mx ∧ c = 1 ∨ ¬ rhs ≥ mx ∧ c = 0) ∧ (rhs > mx ∧ d = 1 ∨ ¬ rhs > mx ∧ d = 0) := by
  have key : ∀ (p : Prop) [Decidable p], p ∧ (if p then 1 else 0) = 1 ∨ ¬ p ∧ (if p then 1 else 0) = 0 := by
    intro p _; by_cases h : p <;> simp [h]
  exact ⟨_, _, _, _, rfl, key _, key _, key _, key _⟩

/-- `evaluate_coeffs`, pbc_cc.rs:575-634; `none` is `Undef`. -/
def evalCoeffs (mn mx rhs : Int) (c : Cmp) : Option Bool :=
  let status := coeffStatus mn mx rhs
  match c with
  | .eq => if status = 0 ∨ status = 4 then some false else none
  | .le => if status ≥ 3 then some true else if status < 1 then some false else none
  | .lt => if status > 3 then some true else if status ≤ 1 then some false else none
  | .ge => if status ≤ 1 then some true else if status > 3 then some false else none
  | .gt => if status < 1 then some true else if status ≥ 3 then some false else none

theorem evalCoeffs_sound {mn mx rhs x : Int} {c : Cmp} {b : Bool} (h1 : mn ≤ x) (h2 : x ≤ mx)
    (h : evalCoeffs mn mx rhs c = some b) : c.test x rhs = b := by
  unfold evalCoeffs at h
  obtain ⟨n1, n2, n3, n4, hst, k1, k2, k3, k4⟩ := coeffStatus_eq mn mx rhs
  generalize coeffStatus mn mx rhs = st at h hst
  cases c <;> simp only at h
  · split at h
    · cases h
      simp only [Cmp.test, decide_eq_false_iff_not]
      omega
    · simp at h
  all_goals
    split at h
    · cases h
      simp only [Cmp.test, decide_eq_true_eq]
      omega
    · split at h
      · cases h
        simp only [Cmp.test, decide_eq_false_iff_not]
        omega
      · simp at h

theorem evalCoeffs_undef {mn mx rhs : Int} {c : Cmp} (hc : c ≠ .eq) (hm : mn ≤ mx) (h : evalCoeffs mn mx rhs c = none) : rhs ≤ mx := by
  unfold evalCoeffs at h
  obtain ⟨n1, n2, n3, n4, hst, k1, k2, k3, k4⟩ := coeffStatus_eq mn mx rhs
  generalize coeffStatus mn mx rhs = st at h hst
  cases c <;> simp only at h
  · exact absurd rfl hc
  all_goals
    split at h
    · simp at h
    · split at h
      · simp at h
      · omega

/-- The variables of the loop in `PbConstraint::restrict`. -/
structure Scan where
  terms : List (Lit × Int)
  fixed : Int
  mn : Int
  mx : Int

/-- The loop of `PbConstraint::restrict`, pbc_cc.rs:446-464. -/
def scan (A : PAsg) : List (Lit × Int) → Scan → Scan
  | [], s => s
  | t :: ts, s =>
    match A.restrictLit t.1 with
    | .lit _ =>
      scan A ts (if t.2 > 0 then { s with terms := s.terms ++ [t], mx := w64 (s.mx + t.2) }
        else { s with terms := s.terms ++ [t], mn := w64 (s.mn + t.2) })
    | .tru => scan A ts { s with fixed := w64 (s.fixed + t.2) }
    | _ => scan A ts s

/-- `PbConstraint::restrict`, pbc_cc.rs:440-479. -/
def PBC.restrict (p : PBC) (A : PAsg) : Formula :=
  let s := scan A p.terms ⟨[], 0, 0, 0⟩
  if s.terms = [] then Formula.const (p.cmp.test s.fixed p.rhs)
  else
    let rhs := w64 (p.rhs - s.fixed)
    if p.cmp ≠ .eq then
      match evalCoeffs s.mn s.mx rhs p.cmp with
      | some true => .tru
      | some false => .fls
      | none => Formula.mkPbc p.cmp rhs s.terms
    else Formula.mkPbc p.cmp rhs s.terms

/-- Terms whose variable is not assigned. -/
def PAsg.open (A : PAsg) (ts : List (Lit × Int)) : List (Lit × Int) := ts.filter fun t => decide (¬ A.Dom t.1.v)
/-- Weight of the satisfied terms. -/
def PAsg.fix (A : PAsg) (ts : List (Lit × Int)) : Int :=
  match ts with
  | [] => 0
  | t :: ts => (if A.restrictLit t.1 = .tru then t.2 else 0) + A.fix ts
def sumPos : List (Lit × Int) → Int
  | [] => 0
  | t :: ts => (if t.2 > 0 then t.2 else 0) + sumPos ts
def sumNeg : List (Lit × Int) → Int
  | [] => 0
  | t :: ts => (if t.2 > 0 then 0 else t.2) + sumNeg ts
/-- Sum of the absolute values of the coefficients (specification). -/
def absSum : List (Lit × Int) → Int
  | [] => 0
  | t :: ts => (if t.2 ≥ 0 then t.2 else -t.2) + absSum ts

theorem scan_eq (A : PAsg) (ts : List (Lit × Int)) : ∀ T a b c,
    scan A ts ⟨T, w64 a, w64 b, w64 c⟩ =
      ⟨T ++ A.open ts, w64 (a + A.fix ts), w64 (b + sumNeg (A.open ts)), w64 (c + sumPos (A.open ts))⟩ := by
  induction ts with
  | nil => intro T a b c; simp [scan, PAsg.open, PAsg.fix, sumPos, sumNeg]
  | cons t ts ih =>
    intro T a b c
    rcases A.restrictLit_cases t.1 with ⟨h, hd⟩ | ⟨h, hd, _⟩ | ⟨h, hd, _⟩
    · have ho : A.open (t :: ts) = t :: A.open ts := by simp [PAsg.open, hd]
      have hf : A.fix (t :: ts) = A.fix ts := by simp [PAsg.fix, h]
      simp only [scan, h, ho, hf, sumPos, sumNeg, w64_add]
      split
      · rw [ih]; simp [Int.add_assoc]
      · rw [ih]; simp [Int.add_assoc]
    · have ho : A.open (t :: ts) = A.open ts := by simp [PAsg.open, hd]
      have hf : A.fix (t :: ts) = t.2 + A.fix ts := by simp [PAsg.fix, h]
      simp only [scan, h, ho, hf, w64_add]
      rw [ih]; simp [Int.add_assoc]
    · have ho : A.open (t :: ts) = A.open ts := by simp [PAsg.open, hd]
      have hf : A.fix (t :: ts) = A.fix ts := by simp [PAsg.fix, h]
      simp only [scan, h, ho, hf]
      rw [ih]

theorem lhs_over (A : PAsg) (σ : Asg) (ts : List (Lit × Int)) :
    PBC.lhs (A.over σ) ts = A.fix ts + PBC.lhs σ (A.open ts) := by
  induction ts with
  | nil => rfl
  | cons t ts ih =>
    rcases A.restrictLit_cases t.1 with ⟨h, hd⟩ | ⟨h, hd, hv⟩ | ⟨h, hd, hv⟩
    · have ho : A.open (t :: ts) = t :: A.open ts := by simp [PAsg.open, hd]
      have hf : A.fix (t :: ts) = A.fix ts := by simp [PAsg.fix, h]
      have he : t.1.eval (A.over σ) = t.1.eval σ := by
        rw [← A.eval_restrictLit, h]; simp
      rw [ho, hf]
      simp only [PBC.lhs, he, ih]
      omega
    · have ho : A.open (t :: ts) = A.open ts := by simp [PAsg.open, hd]
      have hf : A.fix (t :: ts) = t.2 + A.fix ts := by simp [PAsg.fix, h]
      rw [ho, hf]
      simp only [PBC.lhs, hv, ih, if_true]
      omega
    · have ho : A.open (t :: ts) = A.open ts := by simp [PAsg.open, hd]
      have hf : A.fix (t :: ts) = A.fix ts := by simp [PAsg.fix, h]
      rw [ho, hf]
      simp [PBC.lhs, hv, ih]

theorem lhs_bounds (σ : Asg) (ts : List (Lit × Int)) : sumNeg ts ≤ PBC.lhs σ ts ∧ PBC.lhs σ ts ≤ sumPos ts := by
  induction ts with
  | nil => exact ⟨Int.le_refl _, Int.le_refl _⟩
  | cons t ts ih =>
    simp only [sumNeg, sumPos, PBC.lhs]
    split <;> split <;> omega

theorem abs_open (A : PAsg) (ts : List (Lit × Int)) : absSum (A.open ts) + (if A.fix ts ≥ 0 then A.fix ts else - A.fix ts) ≤ absSum ts := by
  induction ts with
  | nil => simp [PAsg.open, PAsg.fix, absSum]
  | cons t ts ih =>
    rcases A.restrictLit_cases t.1 with ⟨h, hd⟩ | ⟨h, hd, hv⟩ | ⟨h, hd, hv⟩
    · have ho : A.open (t :: ts) = t :: A.open ts := by simp [PAsg.open, hd]
      have hf : A.fix (t :: ts) = A.fix ts := by simp [PAsg.fix, h]
      rw [ho, hf]
      simp only [absSum]
      omega
    · have ho : A.open (t :: ts) = A.open ts := by simp [PAsg.open, hd]
      have hf : A.fix (t :: ts) = t.2 + A.fix ts := by simp [PAsg.fix, h]
      rw [ho, hf]
      simp only [absSum]
      split at ih <;> split <;> split <;> omega
    · have ho : A.open (t :: ts) = A.open ts := by simp [PAsg.open, hd]
      have hf : A.fix (t :: ts) = A.fix ts := by simp [PAsg.fix, h]
      rw [ho, hf]
      simp only [absSum]
      split <;> omega

theorem sum_abs (ts : List (Lit × Int)) : -absSum ts ≤ sumNeg ts ∧ sumNeg ts ≤ 0 ∧ 0 ≤ sumPos ts ∧ sumPos ts ≤ absSum ts := by
  induction ts with
  | nil => decide
  | cons t ts ih =>
    simp only [absSum, sumNeg, sumPos]
    split <;> split <;> omega

theorem sumPos_ones (ts : List (Lit × Int)) (h : ∀ t ∈ ts, t.2 = 1) : sumPos ts = ts.length := by
  induction ts with
  | nil => rfl
  | cons t ts ih =>
    simp only [sumPos, List.length_cons]
    rw [h t (by simp), ih fun u hu => h u (by simp [hu])]
    simp; omega

theorem absSum_nonneg (ts : List (Lit × Int)) : 0 ≤ absSum ts := by have := sum_abs ts; omega

theorem coef_le_absSum {ts : List (Lit × Int)} {t} (h : t ∈ ts) : -absSum ts ≤ t.2 ∧ t.2 ≤ absSum ts := by
  induction ts with
  | nil => simp at h
  | cons u ts ih =>
    have h0 := absSum_nonneg ts
    simp only [absSum]
    rcases List.mem_cons.1 h with rfl | h
    · split <;> omega
    · have := ih h
      split <;> omega

/-- The constraint is small enough that no `i64` operation overflows and no right-hand side
is cut to 32 bits. -/
structure PBC.Bounded (p : PBC) : Prop where
  len : p.terms.length < 2 ^ 32
  sum : absSum p.terms + (if p.rhs ≥ 0 then p.rhs else -p.rhs) < 2 ^ 63
  eq : p.cmp = .eq → absSum p.terms + (if p.rhs ≥ 0 then p.rhs else -p.rhs) < 2 ^ 32

theorem test_sub (c : Cmp) (a b x : Int) : c.test x (b - a) = c.test (a + x) b := by
  cases c <;> simp only [Cmp.test, decide_eq_decide] <;> omega

theorem PBC.restrict_spec {p : PBC} (h : p.Bounded) (A : PAsg) :
    (p.restrict A).Norm ∧ (∀ σ, (p.restrict A).eval σ = p.eval (A.over σ)) ∧
    (∀ v, Occ v (p.restrict A) → ¬ A.Dom v ∧ ∃ t ∈ p.terms, t.1.v = v) := by
  have h1 := h.len
  have h2 := h.sum
  have hs := sum_abs (A.open p.terms)
  have ha := abs_open A p.terms
  have hn := absSum_nonneg (A.open p.terms)
  have hfix : I64 (A.fix p.terms) := by
    constructor <;> (split at ha <;> split at h2 <;> omega)
  have hmn : I64 (sumNeg (A.open p.terms)) := by constructor <;> (split at ha <;> split at h2 <;> omega)
  have hmx : I64 (sumPos (A.open p.terms)) := by constructor <;> (split at ha <;> split at h2 <;> omega)
  have hrhs : I64 (p.rhs - A.fix p.terms) := by constructor <;> (split at ha <;> split at h2 <;> omega)
  have hsc : scan A p.terms ⟨[], 0, 0, 0⟩ = ⟨A.open p.terms, A.fix p.terms, sumNeg (A.open p.terms), sumPos (A.open p.terms)⟩ := by
    have := scan_eq A p.terms [] 0 0 0
    simpa [w64_id hfix, w64_id hmn, w64_id hmx] using this
  have hocc : ∀ v, (∃ t ∈ A.open p.terms, t.1.v = v) → ¬ A.Dom v ∧ ∃ t ∈ p.terms, t.1.v = v := by
    rintro v ⟨t, ht, rfl⟩
    simp only [PAsg.open, List.mem_filter, decide_eq_true_eq] at ht
    exact ⟨ht.2, t, ht.1, rfl⟩
  have hco : ∀ t ∈ A.open p.terms, I64 t.2 := by
    intro t ht
    have := coef_le_absSum ht
    constructor <;> (split at ha <;> split at h2 <;> omega)
  have hmk : Formula.RhsFits (p.rhs - A.fix p.terms) (A.open p.terms) →
      (Formula.mkPbc p.cmp (p.rhs - A.fix p.terms) (A.open p.terms)).Norm ∧
      (∀ σ, (Formula.mkPbc p.cmp (p.rhs - A.fix p.terms) (A.open p.terms)).eval σ = p.eval (A.over σ)) ∧
      (∀ v, Occ v (Formula.mkPbc p.cmp (p.rhs - A.fix p.terms) (A.open p.terms)) → ¬ A.Dom v ∧ ∃ t ∈ p.terms, t.1.v = v) := by
    intro hr
    refine ⟨Formula.norm_mkPbc hr hrhs hco, fun σ => ?_, fun v hv => hocc v (Formula.occ_mkPbc hv)⟩
    rw [Formula.eval_mkPbc _ _ _ _ hr, test_sub, PBC.eval, lhs_over]
  unfold PBC.restrict
  rw [hsc]
  simp only
  split
  · rename_i he
    refine ⟨Formula.norm_const _, fun σ => ?_, by simp⟩
    simp only [Formula.eval_const, PBC.eval, lhs_over, he, PBC.lhs, Int.add_zero]
  · rw [w64_id hrhs]
    split
    · rename_i hc
      have hsd : ∀ b, evalCoeffs (sumNeg (A.open p.terms)) (sumPos (A.open p.terms)) (p.rhs - A.fix p.terms) p.cmp = some b →
          ∀ σ, p.eval (A.over σ) = b := by
        intro b hb σ
        have hl := lhs_bounds σ (A.open p.terms)
        have := evalCoeffs_sound hl.1 hl.2 hb
        rw [test_sub] at this
        rw [PBC.eval, lhs_over, this]
      split
      · rename_i he
        exact ⟨.tru, fun σ => by rw [hsd _ he σ]; simp, by simp⟩
      · rename_i he
        exact ⟨.fls, fun σ => by rw [hsd _ he σ]; simp, by simp⟩
      · rename_i he
        apply hmk
        intro hp h1'
        have hle := evalCoeffs_undef hc (by omega) he
        rw [sumPos_ones _ h1'] at hle
        have : (A.open p.terms).length ≤ p.terms.length := List.length_filter_le ..
        omega
    · rename_i hc
      have hc' : p.cmp = .eq := by simpa using hc
      have h3 := h.eq hc'
      apply hmk
      intro _ _
      split at ha <;> split at h3 <;> omega

/-! ### Cardinality constraints -/

/-- `CardinalityConstraint::restrict`, pbc_cc.rs:294-315; `none` is the assertion in `cc`. -/
def CC.restrict (c : CC) (A : PAsg) : Option Formula :=
  let satisfied := (c.vars.countP fun v => decide (A.restrictLit v.p = .tru)) % 2 ^ 32
  let remaining := c.vars.filter fun v => decide (A.restrictLit v.p = .lit v.p)
  if satisfied > c.rhs then
    match c.cmp with
    | .eq => some .fls
    | .lt => some .fls
    | .le => some .fls
    | .gt => some .tru
    | .ge => some .tru
  else if satisfied = c.rhs ∧ c.cmp = .lt then some .fls
  else Formula.mkCc c.cmp (c.rhs - satisfied) remaining

theorem cntV_over (A : PAsg) (σ : Asg) (vs : List Var) :
    cntV (A.over σ) vs = (vs.countP fun v => decide (A.restrictLit v.p = .tru)) +
      cntV σ (vs.filter fun v => decide (A.restrictLit v.p = .lit v.p)) := by
  induction vs with
  | nil => rfl
  | cons v vs ih =>
    have e := A.eval_restrictLit σ v.p
    simp only [Lit.eval_p] at e
    simp only [cntV] at ih ⊢
    rcases A.restrictLit_cases v.p with ⟨h, hd⟩ | ⟨h, hd, hv⟩ | ⟨h, hd, hv⟩ <;> rw [h] at e <;>
      simp [List.countP_cons, List.filter_cons, h, ih, ← e] <;> omega

theorem CC.restrict_spec {c : CC} (hc : c.Ok) (hl : c.vars.length < 2 ^ 32) (A : PAsg) :
    ∃ g, c.restrict A = some g ∧ g.Norm ∧ (∀ σ, g.eval σ = c.eval (A.over σ)) ∧
    (∀ v, Occ v g → ¬ A.Dom v ∧ v ∈ c.vars) := by
  unfold CC.restrict
  have hcv := fun σ => cntV_over A σ c.vars
  have hk : (c.vars.countP fun v => decide (A.restrictLit v.p = .tru)) < 2 ^ 32 :=
    Nat.lt_of_le_of_lt List.countP_le_length hl
  simp only [Nat.mod_eq_of_lt hk]
  generalize hs : (c.vars.countP fun v => decide (A.restrictLit v.p = .tru)) = k at hcv hk ⊢
  have hr := hc.rhs
  have hi := hc.isCc
  have hcase : ∀ g b, g = Formula.const b → (∀ σ, c.eval (A.over σ) = b) →
      ∃ g', some g = some g' ∧ g'.Norm ∧ (∀ σ, g'.eval σ = c.eval (A.over σ)) ∧ (∀ v, Occ v g' → ¬ A.Dom v ∧ v ∈ c.vars) := by
    rintro g b rfl hb
    exact ⟨_, rfl, Formula.norm_const b, fun σ => by rw [hb σ]; simp, by simp⟩
  split
  · rename_i hgt
    have : ∀ σ, cntV (A.over σ) c.vars > c.rhs := fun σ => by rw [hcv]; omega
    split <;> rename_i hcmp
    · exact hcase _ false rfl fun σ => by have := this σ; simp only [CC.eval, hcmp, Cmp.test, decide_eq_false_iff_not]; omega
    · exact hcase _ false rfl fun σ => by have := this σ; simp only [CC.eval, hcmp, Cmp.test, decide_eq_false_iff_not]; omega
    · exact hcase _ false rfl fun σ => by have := this σ; simp only [CC.eval, hcmp, Cmp.test, decide_eq_false_iff_not]; omega
    · exact hcase _ true rfl fun σ => by have := this σ; simp only [CC.eval, hcmp, Cmp.test, decide_eq_true_eq]; omega
    · exact hcase _ true rfl fun σ => by have := this σ; simp only [CC.eval, hcmp, Cmp.test, decide_eq_true_eq]; omega
  · split
    · rename_i h1 h2
      exact hcase _ false rfl fun σ => by
        have := hcv σ
        simp only [CC.eval, h2.2, Cmp.test, decide_eq_false_iff_not]; omega
    · rename_i h1 h2
      have hi' : Formula.isCc c.cmp ((c.rhs - k : Nat) : Int) = true := by
        rcases hcmp : c.cmp <;> simp only [Formula.isCc, decide_eq_true_eq] <;> try omega
        have : k ≠ c.rhs := fun h => h2 ⟨h, hcmp⟩
        omega
      have hmk : Formula.mkCc c.cmp (c.rhs - k) (c.vars.filter fun v => decide (A.restrictLit v.p = .lit v.p)) =
          some (Formula.constructCc c.cmp ((c.rhs - k : Nat) : Int) (c.vars.filter fun v => decide (A.restrictLit v.p = .lit v.p))) := by
        unfold Formula.mkCc; rw [if_pos hi']
      refine ⟨_, hmk, Formula.norm_mkCc (by omega) hmk, fun σ => ?_, fun v hv => ?_⟩
      · rw [Formula.eval_mkCc σ _ _ _ (by omega) hmk, CC.eval, hcv,
          show ((c.rhs - k : Nat) : Int) = (c.rhs : Int) - (k : Int) by omega, test_sub, Int.natCast_add]
      · have := Formula.occ_mkCc hmk hv
        simp only [List.mem_filter, decide_eq_true_eq] at this
        refine ⟨fun hd => ?_, this.1⟩
        rcases A.restrictLit_cases v.p with ⟨h, hd'⟩ | ⟨h, _⟩ | ⟨h, _⟩
        · exact hd' hd
        · rw [h] at this; simp at this
        · rw [h] at this; simp at this

/-! ### Formulas -/

mutual
/-- `restrict`, src/operations/transformations/restriction.rs:34-67; `none` is a panic. -/
def Formula.restrict (C : Canon) (A : PAsg) : Formula → Option Formula
  | .lit l => some (A.restrictLit l)
  | .equiv a b =>
    match Formula.restrict C A a, Formula.restrict C A b with
    | some a', some b' => some (mkEquiv C a' b')
    | _, _ => none
  | .impl a b =>
    match Formula.restrict C A a, Formula.restrict C A b with
    | some a', some b' => some (mkImpl C a' b')
    | _, _ => none
  | .nary o fs => (Formula.restricts C A fs).map (mkNary C o)
  | .not f => (Formula.restrict C A f).map mkNot
  | .tru => some .tru
  | .fls => some .fls
  | .pbc p => some (p.restrict A)
  | .cc c => c.restrict A
def Formula.restricts (C : Canon) (A : PAsg) : List Formula → Option (List Formula)
  | [] => some []
  | f :: fs =>
    match Formula.restrict C A f, Formula.restricts C A fs with
    | some g, some gs => some (g :: gs)
    | _, _ => none
end

/-- Every cardinality constraint in the formula has fewer than `2^32` variables and every
pseudo-Boolean constraint in it satisfies `P` (specification of the bounds). -/
inductive Bounded (P : PBC → Prop) : Formula → Prop
  | tru : Bounded P .tru
  | fls : Bounded P .fls
  | lit (l) : Bounded P (.lit l)
  | not {f} : Bounded P f → Bounded P (.not f)
  | impl {a b} : Bounded P a → Bounded P b → Bounded P (.impl a b)
  | equiv {a b} : Bounded P a → Bounded P b → Bounded P (.equiv a b)
  | nary {o fs} : (∀ f ∈ fs, Bounded P f) → Bounded P (.nary o fs)
  | cc {c} : c.vars.length < 2 ^ 32 → Bounded P (.cc c)
  | pbc {p} : P p → Bounded P (.pbc p)

/-- What restriction has to do. -/
structure RestrictOk (A : PAsg) (f g : Formula) : Prop where
  norm : g.Norm
  eval : ∀ σ, g.eval σ = f.eval (A.over σ)
  occ : ∀ v, Occ v g → ¬ A.Dom v ∧ Occ v f

theorem restricts_ok {C : Canon} {A : PAsg} (fs : List Formula) (h : ∀ f ∈ fs, ∃ g, f.restrict C A = some g ∧ RestrictOk A f g) :
    ∃ gs, Formula.restricts C A fs = some gs ∧ (∀ g ∈ gs, ∃ f ∈ fs, RestrictOk A f g) ∧
      (∀ f ∈ fs, ∃ g ∈ gs, RestrictOk A f g) := by
  induction fs with
  | nil => exact ⟨[], by simp [Formula.restricts], by simp, by simp⟩
  | cons f fs ih =>
    obtain ⟨g, e, hg⟩ := h f (by simp)
    obtain ⟨gs, es, h1, h2⟩ := ih fun f hf => h f (by simp [hf])
    refine ⟨g :: gs, by simp [Formula.restricts, e, es], ?_, ?_⟩
    · intro x hx
      rcases List.mem_cons.1 hx with rfl | hx
      · exact ⟨f, by simp, hg⟩
      · obtain ⟨y, hy, h3⟩ := h1 x hx
        exact ⟨y, by simp [hy], h3⟩
    · intro x hx
      rcases List.mem_cons.1 hx with rfl | hx
      · exact ⟨g, by simp, hg⟩
      · obtain ⟨y, hy, h3⟩ := h2 x hx
        exact ⟨y, by simp [hy], h3⟩

theorem restrict_ok (C : Canon) (A : PAsg) {f : Formula} (hn : f.Norm) (hb : Bounded PBC.Bounded f) :
    ∃ g, f.restrict C A = some g ∧ RestrictOk A f g := by
  induction f using Formula.ind with
  | tru => exact ⟨.tru, by simp [Formula.restrict], .tru, by simp, by simp⟩
  | fls => exact ⟨.fls, by simp [Formula.restrict], .fls, by simp, by simp⟩
  | lit l =>
    refine ⟨A.restrictLit l, by simp [Formula.restrict], ?_, fun σ => by rw [A.eval_restrictLit]; simp, fun v hv => ?_⟩
    · rcases A.restrictLit_cases l with ⟨h, _⟩ | ⟨h, _⟩ | ⟨h, _⟩ <;> rw [h] <;> constructor
    · rcases A.restrictLit_cases l with ⟨h, hd⟩ | ⟨h, _⟩ | ⟨h, _⟩ <;> rw [h] at hv
      · rw [Formula.occ_lit] at hv; subst hv; exact ⟨hd, by simp⟩
      · simp at hv
      · simp at hv
  | not f ih =>
    cases hn with
    | not hn _ _ _ =>
    cases hb with
    | not hb =>
    obtain ⟨g, e, hg⟩ := ih hn hb
    refine ⟨_, by simp [Formula.restrict, e], Formula.norm_mkNot hg.norm, fun σ => by simp [hg.eval], fun v hv => ?_⟩
    have := hg.occ v (Formula.occ_mkNot.1 hv)
    exact ⟨this.1, by simpa using this.2⟩
  | impl a b iha ihb =>
    cases hn with
    | impl ha hb' _ _ _ =>
    cases hb with
    | impl ba bb =>
    obtain ⟨x, ex, hx⟩ := iha ha ba
    obtain ⟨y, ey, hy⟩ := ihb hb' bb
    refine ⟨_, by simp only [Formula.restrict, ex, ey], Formula.norm_mkImpl C hx.norm hy.norm,
      fun σ => by rw [Formula.eval_mkImpl _ _ _ _ hy.norm.fits1, hx.eval, hy.eval]; simp, fun v hv => ?_⟩
    rcases Formula.occ_mkImpl hv with h | h
    · have := hx.occ v h; exact ⟨this.1, by simp [this.2]⟩
    · have := hy.occ v h; exact ⟨this.1, by simp [this.2]⟩
  | equiv a b iha ihb =>
    cases hn with
    | equiv ha hb' _ _ _ =>
    cases hb with
    | equiv ba bb =>
    obtain ⟨x, ex, hx⟩ := iha ha ba
    obtain ⟨y, ey, hy⟩ := ihb hb' bb
    refine ⟨_, by simp only [Formula.restrict, ex, ey], Formula.norm_mkEquiv C hx.norm hy.norm,
      fun σ => by rw [Formula.eval_mkEquiv _ _ _ _ hy.norm.fits1, hx.eval, hy.eval]; simp, fun v hv => ?_⟩
    rcases Formula.occ_mkEquiv hv with h | h
    · have := hx.occ v h; exact ⟨this.1, by simp [this.2]⟩
    · have := hy.occ v h; exact ⟨this.1, by simp [this.2]⟩
  | nary o fs ih =>
    cases hn with
    | nary _ hn _ =>
    cases hb with
    | nary hb =>
    obtain ⟨gs, e, h1, h2⟩ := restricts_ok (C := C) (A := A) fs fun f hf => ih f hf (hn f hf) (hb f hf)
    refine ⟨Formula.mkNary C o gs, by simp only [Formula.restrict, e, Option.map_some], Formula.norm_mkNary C o fun g hg => ?_, fun σ => ?_, fun v hv => ?_⟩
    · obtain ⟨_, _, h⟩ := h1 g hg; exact h.norm
    · rw [Formula.eval_mkNary, Formula.eval_nary]
      cases o
      · simp only [Op.eval]
        rw [Bool.eq_iff_iff, List.all_eq_true, List.all_eq_true]
        constructor
        · intro h f hf; obtain ⟨g, hg, h3⟩ := h2 f hf; rw [← h3.eval]; exact h g hg
        · intro h g hg; obtain ⟨f, hf, h3⟩ := h1 g hg; rw [h3.eval]; exact h f hf
      · simp only [Op.eval]
        rw [Bool.eq_iff_iff, List.any_eq_true, List.any_eq_true]
        constructor
        · rintro ⟨g, hg, h⟩; obtain ⟨f, hf, h3⟩ := h1 g hg; exact ⟨f, hf, by rw [← h3.eval]; exact h⟩
        · rintro ⟨f, hf, h⟩; obtain ⟨g, hg, h3⟩ := h2 f hf; exact ⟨g, hg, by rw [h3.eval]; exact h⟩
    · obtain ⟨g, hg, ho⟩ := Formula.occ_mkNary hv
      obtain ⟨f, hf, h3⟩ := h1 g hg
      have := h3.occ v ho
      exact ⟨this.1, by rw [Formula.occ_nary]; exact ⟨f, hf, this.2⟩⟩
  | cc c =>
    cases hn with
    | cc hc =>
    cases hb with
    | cc hl =>
    obtain ⟨g, e, h1, h2, h3⟩ := CC.restrict_spec hc hl A
    exact ⟨g, by simp [Formula.restrict, e], h1, fun σ => by rw [h2]; simp, fun v hv => by simpa using h3 v hv⟩
  | pbc p =>
    cases hb with
    | pbc hp =>
    obtain ⟨h1, h2, h3⟩ := PBC.restrict_spec hp A
    exact ⟨_, by simp [Formula.restrict], h1, fun σ => by rw [h2]; simp, fun v hv => by rw [Formula.occ_pbc]; exact h3 v hv⟩

/-! ### Evaluation -/

/-- The loop of `PbConstraint::evaluate_lhs`, pbc_cc.rs:552-561. -/
def evalLhs (A : PAsg) : List (Lit × Int) → Int → Int
  | [], s => s
  | t :: ts, s => evalLhs A ts (if A.evalLit t.1 then w64 (s + t.2) else s)

mutual
/-- `FormulaFactory::evaluate`, formula_factory.rs:1076-1089, with
`CardinalityConstraint::evaluate`, pbc_cc.rs:282-285, and `PbConstraint::evaluate`, 429-431. -/
def Formula.evaluate (A : PAsg) : Formula → Bool
  | .pbc p => p.cmp.test (evalLhs A p.terms 0) p.rhs
  | .cc c => c.cmp.test ((c.vars.countP fun v => A.evalLit v.p : Nat) : Int) c.rhs
  | .equiv a b => Formula.evaluate A a == Formula.evaluate A b
  | .impl a b => !Formula.evaluate A a || Formula.evaluate A b
  | .nary .disj fs => Formula.evaluateAny A fs
  | .nary .conj fs => Formula.evaluateAll A fs
  | .not f => !Formula.evaluate A f
  | .lit l => A.evalLit l
  | .tru => true
  | .fls => false
def Formula.evaluateAll (A : PAsg) : List Formula → Bool
  | [] => true
  | f :: fs => Formula.evaluate A f && Formula.evaluateAll A fs
def Formula.evaluateAny (A : PAsg) : List Formula → Bool
  | [] => false
  | f :: fs => Formula.evaluate A f || Formula.evaluateAny A fs
end

theorem evalLit_eq {A : PAsg} (hd : ∀ v ∈ A.pos, v ∉ A.neg) (l : Lit) : A.evalLit l = l.eval (A.over fun _ => false) := by
  rcases l with ⟨v, p⟩
  have := hd v
  by_cases h1 : v ∈ A.pos <;> by_cases h2 : v ∈ A.neg <;> cases p <;> simp_all [PAsg.evalLit, Lit.eval, PAsg.over]

theorem evalLhs_eq {A : PAsg} (hd : ∀ v ∈ A.pos, v ∉ A.neg) (ts : List (Lit × Int)) : ∀ a,
    evalLhs A ts (w64 a) = w64 (a + PBC.lhs (A.over fun _ => false) ts) := by
  induction ts with
  | nil => intro a; simp [evalLhs, PBC.lhs]
  | cons t ts ih =>
    intro a
    simp only [evalLhs, PBC.lhs]
    rw [evalLit_eq hd]
    split
    · rw [w64_add, ih]; simp [Int.add_assoc]
    · rw [ih]; simp

/-- The left-hand side never leaves the `i64` range. -/
def PBC.SumFits (p : PBC) : Prop := absSum p.terms < 2 ^ 63

theorem evaluate_eq {A : PAsg} (hd : ∀ v ∈ A.pos, v ∉ A.neg) {f : Formula} (hb : Bounded PBC.SumFits f) :
    f.evaluate A = f.eval (A.over fun _ => false) := by
  induction f using Formula.ind with
  | tru => simp [Formula.evaluate]
  | fls => simp [Formula.evaluate]
  | lit l => simp [Formula.evaluate, evalLit_eq hd]
  | not f ih => cases hb with | not hb => simp [Formula.evaluate, ih hb]
  | impl a b iha ihb => cases hb with | impl h1 h2 => simp [Formula.evaluate, iha h1, ihb h2]
  | equiv a b iha ihb => cases hb with | equiv h1 h2 => simp [Formula.evaluate, iha h1, ihb h2]
  | nary o fs ih =>
    cases hb with
    | nary hb =>
    have key : ∀ f ∈ fs, f.evaluate A = f.eval (A.over fun _ => false) := fun f hf => ih f hf (hb f hf)
    clear ih hb
    have h1 : Formula.evaluateAll A fs = Formula.evalAll (A.over fun _ => false) fs := by
      induction fs with
      | nil => simp [Formula.evaluateAll, Formula.evalAll]
      | cons f fs ih => simp only [Formula.evaluateAll, Formula.evalAll]; rw [key f (by simp), ih fun g hg => key g (by simp [hg])]
    have h2 : Formula.evaluateAny A fs = Formula.evalAny (A.over fun _ => false) fs := by
      clear h1
      induction fs with
      | nil => simp [Formula.evaluateAny, Formula.evalAny]
      | cons f fs ih => simp only [Formula.evaluateAny, Formula.evalAny]; rw [key f (by simp), ih fun g hg => key g (by simp [hg])]
    cases o <;> simp only [Formula.evaluate, Formula.eval, h1, h2]
  | cc c =>
    simp only [Formula.evaluate, Formula.eval_cc, CC.eval, cntV]
    congr 2
    exact List.countP_congr fun v _ => by rw [evalLit_eq hd]; simp
  | pbc p =>
    cases hb with
    | pbc hp =>
    simp only [Formula.evaluate, Formula.eval_pbc, PBC.eval]
    have := evalLhs_eq hd p.terms 0
    rw [w64_zero] at this
    rw [this, Int.zero_add, w64_id]
    have h1 := lhs_bounds (A.over fun _ => false) p.terms
    have h2 := sum_abs p.terms
    unfold PBC.SumFits at hp
    constructor <;> omega

end Verif
