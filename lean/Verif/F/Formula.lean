import Verif.Enc.CcEncoder

/-
Formulas as trees.  This is what a handle of the factory denotes; `Factory.lean` relates
the two.  The meaning `Formula.eval` is the specification used by all formula theorems.
-/
namespace Verif

/-- Comparing two integers (specification; also models `evaluate_comparator`,
src/formulas/pbc_cc.rs:565-573). -/
def Cmp.test (c : Cmp) (a b : Int) : Bool :=
  match c with
  | .eq => decide (a = b)
  | .gt => decide (b < a)
  | .ge => decide (b ≤ a)
  | .lt => decide (a < b)
  | .le => decide (a ≤ b)

theorem Cmp.test_eq (a b : Int) : Cmp.eq.test a b = true ↔ a = b := decide_eq_true_iff
theorem Cmp.test_gt (a b : Int) : Cmp.gt.test a b = true ↔ b < a := decide_eq_true_iff
theorem Cmp.test_ge (a b : Int) : Cmp.ge.test a b = true ↔ b ≤ a := decide_eq_true_iff
theorem Cmp.test_lt (a b : Int) : Cmp.lt.test a b = true ↔ a < b := decide_eq_true_iff
theorem Cmp.test_le (a b : Int) : Cmp.le.test a b = true ↔ a ≤ b := decide_eq_true_iff

deriving instance DecidableEq for CC
deriving instance Repr for CC

/-- `PbConstraint`, src/formulas/pbc_cc.rs.  Simplified: the parallel arrays `literals`
and `coefficients` (equal length by the assertion in `FormulaFactory::pbc`,
formula_factory.rs:974) are one list of pairs; `i64` values are integers, and overflow is
treated where arithmetic happens. -/
structure PBC where
  terms : List (Lit × Int)
  cmp : Cmp
  rhs : Int
  deriving DecidableEq, Repr

/-- The two n-ary operators (`FormulaType::And`, `FormulaType::Or`). -/
inductive Op | conj | disj
  deriving DecidableEq, Repr

/-- `Formula`, src/formulas/formula.rs (the result of `unpack`, 174-188), unfolded to the
leaves. -/
inductive Formula
  | tru
  | fls
  | lit (l : Lit)
  | not (f : Formula)
  | impl (l r : Formula)
  | equiv (l r : Formula)
  | nary (o : Op) (fs : List Formula)
  | cc (c : CC)
  | pbc (p : PBC)
  deriving Repr

instance : Inhabited Formula := ⟨.tru⟩

@[match_pattern] abbrev Formula.and (fs : List Formula) : Formula := .nary .conj fs
@[match_pattern] abbrev Formula.or (fs : List Formula) : Formula := .nary .disj fs

/-! ### Decidable equality -/

mutual
def Formula.beq : Formula → Formula → Bool
  | .tru, .tru => true
  | .fls, .fls => true
  | .lit a, .lit b => a == b
  | .not a, .not b => a.beq b
  | .impl a b, .impl c d => a.beq c && b.beq d
  | .equiv a b, .equiv c d => a.beq c && b.beq d
  | .nary o as, .nary o' bs => o == o' && Formula.beqs as bs
  | .cc a, .cc b => a == b
  | .pbc a, .pbc b => a == b
  | _, _ => false
def Formula.beqs : List Formula → List Formula → Bool
  | [], [] => true
  | a :: as, b :: bs => a.beq b && Formula.beqs as bs
  | _, _ => false
end

/-- Structural induction with a hypothesis for every operand. -/
theorem Formula.ind {P : Formula → Prop} (tru : P .tru) (fls : P .fls) (lit : ∀ l, P (.lit l))
    (not : ∀ f, P f → P (.not f)) (impl : ∀ a b, P a → P b → P (.impl a b))
    (equiv : ∀ a b, P a → P b → P (.equiv a b))
    (nary : ∀ o fs, (∀ f ∈ fs, P f) → P (.nary o fs))
    (cc : ∀ c, P (.cc c)) (pbc : ∀ p, P (.pbc p)) : ∀ f, P f :=
  Formula.rec (motive_1 := P) (motive_2 := fun fs => ∀ f ∈ fs, P f)
    tru fls lit not impl equiv nary cc pbc (by simp)
    (fun a as ha has f hf => by
      cases hf with
      | head => exact ha
      | tail _ h => exact has f h)

theorem Formula.beq_iff (a b : Formula) : a.beq b = true ↔ a = b := by
  induction a using Formula.ind generalizing b with
  | tru => cases b <;> simp [Formula.beq]
  | fls => cases b <;> simp [Formula.beq]
  | lit l => cases b <;> simp [Formula.beq]
  | not f ih => cases b <;> simp [Formula.beq, ih]
  | impl x y hx hy => cases b <;> simp [Formula.beq, hx, hy]
  | equiv x y hx hy => cases b <;> simp [Formula.beq, hx, hy]
  | cc c => cases b <;> simp [Formula.beq]
  | pbc c => cases b <;> simp [Formula.beq]
  | nary o fs ih =>
    have h : ∀ gs, Formula.beqs fs gs = true ↔ fs = gs := by
      clear o
      induction fs with
      | nil => intro gs; cases gs <;> simp [Formula.beqs]
      | cons f fs ihs =>
        intro gs
        cases gs with
        | nil => simp [Formula.beqs]
        | cons g gs =>
          simp [Formula.beqs, ih f (by simp), ihs (fun f' h' => ih f' (by simp [h'])) gs]
    cases b <;> simp [Formula.beq, h]

instance : DecidableEq Formula := fun a b => decidable_of_iff _ (Formula.beq_iff a b)

/-! ### Meaning -/

/-- Value of the left-hand side of a pseudo-Boolean constraint (specification). -/
def PBC.lhs (σ : Asg) (ts : List (Lit × Int)) : Int :=
  match ts with
  | [] => 0
  | t :: ts => (if t.1.eval σ then t.2 else 0) + PBC.lhs σ ts

/-- Meaning of a pseudo-Boolean constraint (specification). -/
def PBC.eval (σ : Asg) (p : PBC) : Bool := p.cmp.test (PBC.lhs σ p.terms) p.rhs

/-- Meaning of a cardinality constraint (specification). -/
def CC.eval (σ : Asg) (c : CC) : Bool := c.cmp.test (cntV σ c.vars) c.rhs

mutual
/-- Meaning of a formula under a total assignment (specification). -/
def Formula.eval (σ : Asg) : Formula → Bool
  | .tru => true
  | .fls => false
  | .lit l => l.eval σ
  | .not f => !f.eval σ
  | .impl a b => !a.eval σ || b.eval σ
  | .equiv a b => a.eval σ == b.eval σ
  | .nary .conj fs => Formula.evalAll σ fs
  | .nary .disj fs => Formula.evalAny σ fs
  | .cc c => c.eval σ
  | .pbc p => p.eval σ
def Formula.evalAll (σ : Asg) : List Formula → Bool
  | [] => true
  | f :: fs => f.eval σ && Formula.evalAll σ fs
def Formula.evalAny (σ : Asg) : List Formula → Bool
  | [] => false
  | f :: fs => f.eval σ || Formula.evalAny σ fs
end

theorem Formula.evalAll_eq (σ : Asg) (fs : List Formula) : Formula.evalAll σ fs = fs.all (Formula.eval σ) := by
  induction fs with
  | nil => simp [Formula.evalAll]
  | cons f fs ih => simp [Formula.evalAll, ih]

theorem Formula.evalAny_eq (σ : Asg) (fs : List Formula) : Formula.evalAny σ fs = fs.any (Formula.eval σ) := by
  induction fs with
  | nil => simp [Formula.evalAny]
  | cons f fs ih => simp [Formula.evalAny, ih]

@[simp] theorem Formula.eval_tru (σ) : Formula.eval σ .tru = true := by simp [Formula.eval]
@[simp] theorem Formula.eval_fls (σ) : Formula.eval σ .fls = false := by simp [Formula.eval]
@[simp] theorem Formula.eval_lit (σ l) : Formula.eval σ (.lit l) = l.eval σ := by simp [Formula.eval]
@[simp] theorem Formula.eval_not (σ f) : Formula.eval σ (.not f) = !f.eval σ := by simp [Formula.eval]
@[simp] theorem Formula.eval_impl (σ a b) : Formula.eval σ (.impl a b) = (!a.eval σ || b.eval σ) := by
  simp [Formula.eval]
@[simp] theorem Formula.eval_equiv (σ a b) : Formula.eval σ (.equiv a b) = (a.eval σ == b.eval σ) := by
  simp [Formula.eval]
@[simp] theorem Formula.eval_and (σ fs) : Formula.eval σ (.nary .conj fs) = fs.all (Formula.eval σ) := by
  simp [Formula.eval, Formula.evalAll_eq]
@[simp] theorem Formula.eval_or (σ fs) : Formula.eval σ (.nary .disj fs) = fs.any (Formula.eval σ) := by
  simp [Formula.eval, Formula.evalAny_eq]
@[simp] theorem Formula.eval_cc (σ c) : Formula.eval σ (.cc c) = CC.eval σ c := by simp [Formula.eval]
@[simp] theorem Formula.eval_pbc (σ p) : Formula.eval σ (.pbc p) = PBC.eval σ p := by simp [Formula.eval]

/-- Joint value of operands under an n-ary operator (specification). -/
def Op.eval (o : Op) (σ : Asg) (fs : List Formula) : Bool :=
  match o with
  | .conj => fs.all (Formula.eval σ)
  | .disj => fs.any (Formula.eval σ)

theorem Formula.eval_nary (σ o fs) : Formula.eval σ (.nary o fs) = o.eval σ fs := by
  cases o <;> simp [Op.eval]

theorem Op.eval_congr_mem (o : Op) (σ : Asg) {fs gs : List Formula} (h : ∀ f, f ∈ fs ↔ f ∈ gs) :
    o.eval σ fs = o.eval σ gs := by
  cases o <;> rw [Bool.eq_iff_iff] <;> simp [Op.eval, h]

theorem Op.eval_perm (o : Op) (σ : Asg) {fs gs : List Formula} (h : fs.Perm gs) :
    o.eval σ fs = o.eval σ gs := o.eval_congr_mem σ fun _ => h.mem_iff

end Verif
