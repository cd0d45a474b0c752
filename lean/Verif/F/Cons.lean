import Verif.F.Formula

/-
The constructors of the formula factory, on trees.  `Factory.lean` shows that the real
constructors (handles, caches) compute exactly these functions.
-/
namespace Verif

/-- The n-ary caches are keyed by the *set* of operands and store the order of the first
insertion; the equivalence cache is keyed by the unordered pair and stores the pair
inserted first (src/formulas/formula_cache/nary_formula_cache.rs:56-79,
equivalence_cache.rs:46-63).  So within one factory every operand set has one fixed order.
`Canon` is that choice of orders; all theorems hold for every choice. -/
structure Canon where
  ord : Op → List Formula → List Formula
  ord_perm : ∀ o l, (ord o l).Perm l
  swap : Formula → Formula → Bool

namespace Formula

/-- `is_verum`/`is_falsum`, formula.rs:268-306. -/
def isConst : Formula → Bool
  | .tru => true
  | .fls => true
  | _ => false

/-- `is_literal`, formula.rs:372. -/
def isLit : Formula → Bool
  | .lit _ => true
  | _ => false

/-- `is_not`, formula.rs:592. -/
def isNot : Formula → Bool
  | .not _ => true
  | _ => false

/-- `is_type(op_type)`, formula.rs:245, for the n-ary types. -/
def isNary (o : Op) : Formula → Bool
  | .nary o' _ => o' = o
  | _ => false

/-- `FormulaFactory::constant`, formula_factory.rs:415. -/
def const (b : Bool) : Formula := if b then .tru else .fls

/-- `FormulaFactory::not`, formula_factory.rs:813-818 (with `negate`, 847-857, for
constants, literals and negations). -/
def mkNot : Formula → Formula
  | .tru => .fls
  | .fls => .tru
  | .lit l => .lit l.neg
  | .not f => f
  | f => .not f

/-- `evaluate_trivial_pb_constraint`, formula_factory.rs:1424-1432. -/
def trivialPb (c : Cmp) (rhs : Int) : Bool :=
  match c with
  | .eq => decide (rhs = 0)
  | .gt => decide (rhs < 0)
  | .ge => decide (rhs ≤ 0)
  | .lt => decide (rhs > 0)
  | .le => decide (rhs ≥ 0)

/-- `is_cc`, formula_factory.rs:1438-1444. -/
def isCc (c : Cmp) (rhs : Int) : Bool :=
  match c with
  | .le => decide (rhs ≥ 0)
  | .lt => decide (rhs ≥ 1)
  | .ge => decide (rhs ≥ 0)
  | .gt => decide (rhs ≥ -1)
  | .eq => decide (rhs ≥ 0)

/-- `is_lit_cc`, formula_factory.rs:1434-1436. -/
def isLitCc (c : Cmp) (rhs : Int) (ts : List (Lit × Int)) : Bool :=
  ts.all (fun t => t.1.pos) && ts.all (fun t => t.2 == 1) && isCc c rhs

/-- `construct_cc_unsafe`, formula_factory.rs:1318-1332.  `rhs as u32` keeps the low 32
bits.  The assertion `comparator == GT` for negative `rhs` is not modelled: both callers
check `is_cc` first. -/
def constructCc (c : Cmp) (rhs : Int) (vs : List Var) : Formula :=
  if vs = [] then const (trivialPb c rhs)
  else if 0 ≤ rhs then .cc ⟨vs, c, rhs.toNat % 2 ^ 32⟩
  else .cc ⟨vs, .ge, 0⟩

/-- `FormulaFactory::cc`, formula_factory.rs:880-883; `none` is the failed assertion. -/
def mkCc (c : Cmp) (rhs : Nat) (vs : List Var) : Option Formula :=
  if isCc c rhs then some (constructCc c rhs vs) else none

/-- `FormulaFactory::pbc`, formula_factory.rs:968-982. -/
def mkPbc (c : Cmp) (rhs : Int) (ts : List (Lit × Int)) : Formula :=
  if ts = [] then const (trivialPb c rhs)
  else if isLitCc c rhs ts then constructCc c rhs (ts.map fun t => t.1.v)
  else .pbc ⟨ts, c, rhs⟩

/-- Result of `and` on complementary or absorbing operands, formula_factory.rs:619, 662. -/
def absorbing : Op → Formula
  | .conj => .fls
  | .disj => .tru

/-- Result of `and` without operands, formula_factory.rs:622, 665. -/
def neutral : Op → Formula
  | .conj => .tru
  | .disj => .fls

/-- `contains_complement`, formula_factory.rs:1397-1421.  The lookup of the negation in
the negation cache finds a handle exactly if the negation was built; only then can it be in
the set. -/
def containsComplement (acc : List Formula) (f : Formula) : Bool :=
  match f with
  | .tru => decide (Formula.fls ∈ acc)
  | .fls => decide (Formula.tru ∈ acc)
  | .lit l => decide (Formula.lit l.neg ∈ acc)
  | .not g => decide (g ∈ acc)
  | f => decide (Formula.not f ∈ acc)

/-- The body of the loop in `filter_flatten` for an operand that is not flattened,
formula_factory.rs:1368-1391; `none` is `return false`.  Simplified: the 32-bit and the
64-bit operand vectors are one list; the `is_cnf` flag is treated in `Factory.lean`. -/
def addOp (o : Op) (f : Formula) (acc : List Formula) : Option (List Formula) :=
  if f = .tru then (if o = .disj then none else some acc)
  else if f = .fls then (if o = .conj then none else some acc)
  else if containsComplement acc f then none
  else if f ∈ acc then some acc
  else some (acc ++ [f])

mutual
/-- One operand in `filter_flatten`, formula_factory.rs:1354-1391. -/
def flat1 (o : Op) : Formula → List Formula → Option (List Formula)
  | .nary o' fs, acc => if o' = o then flats o fs acc else addOp o (.nary o' fs) acc
  | .tru, acc => addOp o .tru acc
  | .fls, acc => addOp o .fls acc
  | .lit l, acc => addOp o (.lit l) acc
  | .not f, acc => addOp o (.not f) acc
  | .impl a b, acc => addOp o (.impl a b) acc
  | .equiv a b, acc => addOp o (.equiv a b) acc
  | .cc c, acc => addOp o (.cc c) acc
  | .pbc p, acc => addOp o (.pbc p) acc
/-- `filter_flatten`, formula_factory.rs:1348-1395. -/
def flats (o : Op) : List Formula → List Formula → Option (List Formula)
  | [], acc => some acc
  | f :: fs, acc =>
    match flat1 o f acc with
    | none => none
    | some acc' => flats o fs acc'
end

/-- `and` and `or` after `prepare_nary`, formula_factory.rs:618-631 and 661-674. -/
def finish (C : Canon) (o : Op) : Option (List Formula) → Formula
  | none => absorbing o
  | some [] => neutral o
  | some [f] => f
  | some l => .nary o (C.ord o l)

/-- `FormulaFactory::and` and `or`, formula_factory.rs:614-636 and 657-679. -/
def mkNary (C : Canon) (o : Op) (fs : List Formula) : Formula := finish C o (flats o fs [])

abbrev mkAnd (C : Canon) (fs : List Formula) : Formula := mkNary C .conj fs
abbrev mkOr (C : Canon) (fs : List Formula) : Formula := mkNary C .disj fs

/-- `FormulaFactory::clause`, formula_factory.rs:705-711. -/
def mkClause (C : Canon) (c : Clause) : Formula := mkOr C (c.map .lit)

/-- `PbConstraint::negate`, pbc_cc.rs:482-494. -/
def negPbc (C : Canon) (p : PBC) : Formula :=
  match p.cmp with
  | .eq => mkOr C [mkPbc .lt p.rhs p.terms, mkPbc .gt p.rhs p.terms]
  | .gt => mkPbc .le p.rhs p.terms
  | .ge => mkPbc .lt p.rhs p.terms
  | .lt => mkPbc .ge p.rhs p.terms
  | .le => mkPbc .gt p.rhs p.terms

/-- `CardinalityConstraint::negate`, pbc_cc.rs:318-360. -/
def negCc (C : Canon) (c : CC) : Formula :=
  let ts := c.vars.map fun v => (v.p, (1 : Int))
  match c.cmp with
  | .eq => mkOr C [mkPbc .lt c.rhs ts, mkPbc .gt c.rhs ts]
  | .gt => mkPbc .le c.rhs ts
  | .ge => mkPbc .lt c.rhs ts
  | .lt => mkPbc .ge c.rhs ts
  | .le => mkPbc .gt c.rhs ts

/-- `FormulaFactory::negate`, formula_factory.rs:847-857. -/
def mkNeg (C : Canon) : Formula → Formula
  | .pbc p => negPbc C p
  | .cc c => negCc C c
  | .equiv a b => mkNot (.equiv a b)
  | .impl a b => mkNot (.impl a b)
  | .nary o fs => mkNot (.nary o fs)
  | .not f => f
  | .lit l => .lit l.neg
  | .tru => .fls
  | .fls => .tru

/-- `FormulaFactory::implication`, formula_factory.rs:730-744. -/
def mkImpl (C : Canon) (l r : Formula) : Formula :=
  if l = .tru then r
  else if l = .fls ∨ r = .tru then .tru
  else if r = .fls then mkNot l
  else if l = r then .tru
  else if l = mkNeg C r then r
  else .impl l r

/-- `FormulaFactory::equivalence`, formula_factory.rs:764-780. -/
def mkEquiv (C : Canon) (l r : Formula) : Formula :=
  if l = .tru then r
  else if l = .fls then mkNot r
  else if r = .tru then l
  else if r = .fls then mkNot l
  else if l = r then .tru
  else if l = mkNeg C r then .fls
  else if C.swap l r then .equiv r l else .equiv l r

/-! ### Semantics of the constructors -/

@[simp] theorem eval_const (σ b) : (const b).eval σ = b := by cases b <;> simp [const]

@[simp] theorem eval_mkNot (σ f) : (mkNot f).eval σ = !f.eval σ := by
  cases f <;> simp [mkNot]

/-- Combination of two partial results. -/
def _root_.Verif.Op.comb (o : Op) (a b : Bool) : Bool :=
  match o with
  | .conj => a && b
  | .disj => a || b

/-- The absorbing truth value. -/
def _root_.Verif.Op.abs : Op → Bool
  | .conj => false
  | .disj => true

theorem _root_.Verif.Op.eval_nil (o : Op) (σ) : o.eval σ [] = !o.abs := by cases o <;> rfl
theorem _root_.Verif.Op.eval_cons (o : Op) (σ f fs) : o.eval σ (f :: fs) = o.comb (f.eval σ) (o.eval σ fs) := by
  cases o <;> simp [Op.eval, Op.comb]
theorem _root_.Verif.Op.eval_append (o : Op) (σ fs gs) :
    o.eval σ (fs ++ gs) = o.comb (o.eval σ fs) (o.eval σ gs) := by
  cases o <;> simp [Op.eval, Op.comb]
theorem _root_.Verif.Op.eval_singleton (o : Op) (σ f) : o.eval σ [f] = f.eval σ := by
  cases o <;> simp [Op.eval]
theorem _root_.Verif.Op.comb_assoc (o : Op) (a b c) : o.comb (o.comb a b) c = o.comb a (o.comb b c) := by
  cases o <;> simp [Op.comb, Bool.and_assoc, Bool.or_assoc]
theorem _root_.Verif.Op.comb_comm (o : Op) (a b) : o.comb a b = o.comb b a := by
  cases o <;> simp [Op.comb, Bool.and_comm, Bool.or_comm]
theorem _root_.Verif.Op.eval_mem_abs (o : Op) (σ) {fs : List Formula} {f} (h : f ∈ fs) (h' : f.eval σ = o.abs) :
    o.eval σ fs = o.abs := by
  cases o
  · simp only [Op.eval, Op.abs] at *
    rw [List.all_eq_false]; exact ⟨f, h, by simp [h']⟩
  · simp only [Op.eval, Op.abs] at *
    rw [List.any_eq_true]; exact ⟨f, h, h'⟩

theorem containsComplement_eq (acc f) : containsComplement acc f = decide (mkNot f ∈ acc) := by
  rw [Bool.eq_iff_iff, decide_eq_true_iff]; cases f <;> simp [containsComplement, mkNot]

/-- Outcome of adding operands, semantically. -/
def AddSpec (o : Op) (σ : Asg) (acc : List Formula) (b : Bool) : Option (List Formula) → Prop
  | none => o.comb (o.eval σ acc) b = o.abs
  | some acc' => o.eval σ acc' = o.comb (o.eval σ acc) b

theorem addOp_spec (o σ f acc) : AddSpec o σ acc (f.eval σ) (addOp o f acc) := by
  unfold addOp
  split
  · subst f; cases o <;> simp [AddSpec, Op.comb, Op.abs]
  split
  · subst f; cases o <;> simp [AddSpec, Op.comb, Op.abs]
  split
  · rename_i h
    rw [containsComplement_eq] at h
    have hm : mkNot f ∈ acc := by simpa using h
    simp only [AddSpec]
    cases hf : f.eval σ with
    | true =>
      cases o
      · have := Op.eval_mem_abs .conj σ hm (by simp [hf, Op.abs]); simp [this, Op.comb, Op.abs]
      · simp [Op.comb, Op.abs]
    | false =>
      cases o
      · simp [Op.comb, Op.abs]
      · have := Op.eval_mem_abs .disj σ hm (by simp [hf, Op.abs]); simp [this, Op.comb, Op.abs]
  split
  · rename_i hm
    simp only [AddSpec]
    cases hf : f.eval σ with
    | true =>
      cases o
      · simp [Op.comb]
      · have := Op.eval_mem_abs .disj σ hm (by simp [hf, Op.abs]); simp [this, Op.comb, Op.abs]
    | false =>
      cases o
      · have := Op.eval_mem_abs .conj σ hm (by simp [hf, Op.abs]); simp [this, Op.comb, Op.abs]
      · simp [Op.comb]
  · simp [AddSpec, Op.eval_append, Op.eval_singleton]

theorem flats_spec_of (o σ) (fs : List Formula) (h : ∀ f ∈ fs, ∀ acc, AddSpec o σ acc (f.eval σ) (flat1 o f acc)) :
    ∀ acc, AddSpec o σ acc (o.eval σ fs) (flats o fs acc) := by
  induction fs with
  | nil =>
    intro acc; simp only [flats, AddSpec, Op.eval_nil]
    cases o <;> simp [Op.comb, Op.abs]
  | cons f fs ih =>
    intro acc
    have h1 := h f (by simp) acc
    have h2 := ih (fun f hf => h f (by simp [hf]))
    simp only [flats]
    cases e : flat1 o f acc with
    | none =>
      rw [e] at h1
      simp only [AddSpec, Op.eval_cons] at h1 ⊢
      rw [← Op.comb_assoc, h1]; cases o <;> simp [Op.comb, Op.abs]
    | some acc' =>
      rw [e] at h1
      have h2 := h2 acc'
      simp only [AddSpec] at h1
      simp only
      cases e2 : flats o fs acc' with
      | none =>
        rw [e2] at h2; simp only [AddSpec] at h2 ⊢; rw [← h2, h1, Op.eval_cons, Op.comb_assoc]
      | some r =>
        rw [e2] at h2; simp only [AddSpec] at h2 ⊢; rw [h2, h1, Op.eval_cons, Op.comb_assoc]

theorem flat1_spec (o σ f) : ∀ acc, AddSpec o σ acc (f.eval σ) (flat1 o f acc) := by
  induction f using Formula.ind with
  | nary o' fs ih =>
    intro acc
    simp only [flat1]
    split
    · subst o'; rw [eval_nary]; exact flats_spec_of o σ fs ih acc
    · exact addOp_spec ..
  | _ => intro acc; simp only [flat1]; exact addOp_spec ..

theorem flats_spec (o σ fs acc) : AddSpec o σ acc (o.eval σ fs) (flats o fs acc) :=
  flats_spec_of o σ fs (fun f _ => flat1_spec o σ f) acc

theorem eval_finish (C : Canon) (o : Op) (σ : Asg) {b : Bool} {r} (h : AddSpec o σ [] b r) :
    (finish C o r).eval σ = b := by
  have hc : ∀ b, o.comb (o.eval σ []) b = b := by intro b; cases o <;> simp [Op.comb, Op.eval]
  match r with
  | none =>
    simp only [AddSpec, hc] at h; subst b; cases o <;> simp [finish, absorbing, Op.abs]
  | some [] =>
    simp only [AddSpec, hc] at h; subst b; cases o <;> simp [finish, neutral, Op.eval]
  | some [f] =>
    simp only [AddSpec, hc, Op.eval_singleton] at h; simpa [finish] using h
  | some (f :: g :: l) =>
    simp only [AddSpec, hc] at h
    rw [finish, eval_nary, Op.eval_perm o σ (C.ord_perm o _), h]
    all_goals simp

/-- The n-ary constructors compute their connective. -/
theorem eval_mkNary (C : Canon) (o : Op) (σ fs) : (mkNary C o fs).eval σ = o.eval σ fs :=
  eval_finish C o σ (flats_spec o σ fs [])

@[simp] theorem eval_mkAnd (C : Canon) (σ fs) : (mkAnd C fs).eval σ = fs.all (Formula.eval σ) :=
  eval_mkNary C .conj σ fs
@[simp] theorem eval_mkOr (C : Canon) (σ fs) : (mkOr C fs).eval σ = fs.any (Formula.eval σ) :=
  eval_mkNary C .disj σ fs

@[simp] theorem eval_mkClause (C : Canon) (σ c) : ((mkClause C c).eval σ = true) ↔ Clause.Sat σ c := by
  simp [mkClause, Clause.Sat]

/-! ### Constraints -/

theorem trivialPb_eq (c : Cmp) (rhs : Int) : trivialPb c rhs = c.test 0 rhs := by
  cases c
  · rw [Bool.eq_iff_iff, Cmp.test_eq]; unfold trivialPb; simp only; rw [decide_eq_true_iff]; omega
  all_goals rfl

theorem lhs_ones (σ : Asg) (ts : List (Lit × Int)) (hp : ∀ t ∈ ts, t.1.pos = true) (h1 : ∀ t ∈ ts, t.2 = 1) :
    PBC.lhs σ ts = cntV σ (ts.map fun t => t.1.v) := by
  induction ts with
  | nil => simp [PBC.lhs, cntV]
  | cons t ts ih =>
    have := ih (fun t ht => hp t (by simp [ht])) (fun t ht => h1 t (by simp [ht]))
    have a := hp t (by simp)
    have b := h1 t (by simp)
    simp only [PBC.lhs, this, List.map_cons, cntV, List.countP_cons]
    simp only [Lit.eval, a, b, if_true]
    split <;> simp_all <;> omega

theorem lhs_vars (σ : Asg) (vs : List Var) : PBC.lhs σ (vs.map fun v => (v.p, (1 : Int))) = cntV σ vs := by
  rw [lhs_ones]
  · simp [Function.comp_def]
  · simp
  · simp

/-- The constraint fits the 32-bit right-hand side of a cardinality constraint if it is
going to be turned into one (formula_factory.rs:1324 truncates). -/
def RhsFits (rhs : Int) (ts : List (Lit × Int)) : Prop :=
  (∀ t ∈ ts, t.1.pos = true) → (∀ t ∈ ts, t.2 = 1) → rhs < 2 ^ 32

theorem eval_mkPbc (σ : Asg) (c : Cmp) (rhs : Int) (ts) (h : RhsFits rhs ts) :
    (mkPbc c rhs ts).eval σ = c.test (PBC.lhs σ ts) rhs := by
  unfold mkPbc
  split
  · subst ts; rw [eval_const, trivialPb_eq]; rfl
  split
  · rename_i h0 h1
    simp only [isLitCc, Bool.and_eq_true, List.all_eq_true, beq_iff_eq] at h1
    obtain ⟨⟨hp, ho⟩, hcc⟩ := h1
    have hfit := h hp ho
    rw [constructCc, if_neg (by simpa using h0), lhs_ones σ ts hp ho]
    split
    · rename_i hr
      have : rhs.toNat % 2 ^ 32 = rhs.toNat := Nat.mod_eq_of_lt (by omega)
      rw [this]
      simp only [eval_cc, CC.eval]
      rw [Int.toNat_of_nonneg hr]
    · rename_i hr
      cases c <;> simp only [isCc, decide_eq_true_eq] at hcc <;> simp [CC.eval, Cmp.test] <;> omega
  · simp [PBC.eval]

theorem eval_mkCc (σ : Asg) (c : Cmp) (rhs : Nat) (vs : List Var) (h : rhs < 2 ^ 32) {f} (hf : mkCc c rhs vs = some f) :
    f.eval σ = c.test (cntV σ vs) rhs := by
  unfold mkCc at hf
  split at hf
  · obtain rfl := Option.some.inj hf
    unfold constructCc
    split
    · subst vs; rw [eval_const, trivialPb_eq]; rfl
    · rw [if_pos (by omega)]
      simp [CC.eval, Nat.mod_eq_of_lt h]
  · simp at hf

theorem rhsFits_cc (rhs : Nat) (ts) (h : rhs < 2 ^ 32) : RhsFits (rhs : Int) ts := fun _ _ => by omega

/-- Complementary comparators. -/
theorem test_neg (a b : Int) :
    (Cmp.le.test a b = !Cmp.gt.test a b) ∧ (Cmp.lt.test a b = !Cmp.ge.test a b) ∧
    (Cmp.ge.test a b = !Cmp.lt.test a b) ∧ (Cmp.gt.test a b = !Cmp.le.test a b) ∧
    ((Cmp.lt.test a b || Cmp.gt.test a b) = !Cmp.eq.test a b) := by
  refine ⟨?_, ?_, ?_, ?_, ?_⟩ <;> rw [Bool.eq_iff_iff] <;> simp [Cmp.test] <;> omega

theorem eval_negPbc (C : Canon) (σ : Asg) (p : PBC) (h : RhsFits p.rhs p.terms) :
    (negPbc C p).eval σ = !PBC.eval σ p := by
  obtain ⟨a, b, c, d, e⟩ := test_neg (PBC.lhs σ p.terms) p.rhs
  unfold negPbc PBC.eval
  cases hc : p.cmp <;> simp only [eval_mkOr, List.any_cons, List.any_nil, Bool.or_false, eval_mkPbc σ _ _ _ h]
  exacts [e, d, c, b, a]

theorem eval_negCc (C : Canon) (σ : Asg) (c : CC) (h : c.rhs < 2 ^ 32) :
    (negCc C c).eval σ = !CC.eval σ c := by
  obtain ⟨a, b, c', d, e⟩ := test_neg (cntV σ c.vars) c.rhs
  unfold negCc CC.eval
  cases hc : c.cmp <;> simp only [eval_mkOr, List.any_cons, List.any_nil, Bool.or_false,
    eval_mkPbc σ _ _ _ (rhsFits_cc c.rhs _ h), lhs_vars]
  exacts [e, d, c', b, a]

/-- Right-hand sides of the constraints directly below (no truncation to 32 bits). -/
def Fits1 : Formula → Prop
  | .cc c => c.rhs < 2 ^ 32
  | .pbc p => RhsFits p.rhs p.terms
  | _ => True

theorem eval_mkNeg (C : Canon) (σ f) (h : Fits1 f) : (mkNeg C f).eval σ = !f.eval σ := by
  cases f with
  | cc c => simpa [mkNeg] using eval_negCc C σ c h
  | pbc p => simpa [mkNeg] using eval_negPbc C σ p h
  | _ => simp [mkNeg]

theorem eval_mkImpl (C : Canon) (σ l r) (h : Fits1 r) : (mkImpl C l r).eval σ = (!l.eval σ || r.eval σ) := by
  unfold mkImpl
  split
  · subst l; simp
  split
  · rename_i h; rcases h with h | h <;> subst h <;> simp
  split
  · subst r; simp
  split
  · subst l; simp
  split
  · rename_i e; rw [e, eval_mkNeg C σ r h]; simp
  · simp

theorem eval_mkEquiv (C : Canon) (σ l r) (h : Fits1 r) : (mkEquiv C l r).eval σ = (l.eval σ == r.eval σ) := by
  unfold mkEquiv
  split
  · subst l; simp
  split
  · subst l; simp
  split
  · subst r; simp
  split
  · subst r; simp
  split
  · subst l; simp
  split
  · rename_i e; rw [e, eval_mkNeg C σ r h]; cases r.eval σ <;> simp
  split
  · simp [Bool.beq_comm]
  · simp

end Formula
end Verif
