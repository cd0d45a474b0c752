import Verif.Util.Assign
import Mathlib.Data.Finset.Card
import Mathlib.Data.Finset.Dedup
/-
Property C66: assignments and models hold the literals they were made of, blocking clauses exclude exactly the assignment, and hashing agrees with equality.
-/
namespace Verif

variable {C : Canon}

/-- `σ` gives the variables of the assignment the values they have there (specification). -/
def Extends (σ : Asg) (A : PAsg) : Prop := (∀ v ∈ A.pos, σ v = true) ∧ ∀ v ∈ A.neg, σ v = false

/-- C66: the blocking clause is falsified exactly by the extensions of the assignment. -/
theorem C66_blocking (A : PAsg) (σ : Asg) : (A.blocking C none).eval σ = false ↔ Extends σ A := by
  unfold PAsg.blocking Extends
  simp only [Formula.eval_mkOr, List.any_append, Bool.or_eq_false_iff, List.any_map, List.any_eq_false, Function.comp_apply, Formula.eval, Lit.eval]
  simp

/-- C66: the blocking clause for some variables is falsified exactly by the assignments that agree with the assignment on those of the variables that it assigns; here no variable has both
values. -/
theorem C66_blocking_variables {A : PAsg} (hd : ∀ v ∈ A.pos, v ∉ A.neg) (vs : List Var) (σ : Asg) :
    (A.blocking C (some vs)).eval σ = false ↔ ∀ v ∈ vs, (v ∈ A.pos → σ v = true) ∧ (v ∈ A.neg → σ v = false) := by
  unfold PAsg.blocking
  simp only [Formula.eval_mkOr, List.any_eq_false, List.mem_filterMap]
  constructor
  · intro h v hv
    constructor
    · intro h1
      have := h (.lit ⟨v, false⟩) ⟨v, hv, by simp [h1]⟩
      simpa [Formula.eval, Lit.eval] using this
    · intro h1
      have h2 : v ∉ A.pos := fun h2 => hd v h2 h1
      have := h (.lit ⟨v, true⟩) ⟨v, hv, by simp [h1, h2]⟩
      simpa [Formula.eval, Lit.eval] using this
  · rintro h g ⟨v, hv, e⟩
    split at e
    · rename_i h1
      injection e with e
      subst e
      simp [Formula.eval, Lit.eval, (h v hv).1 h1]
    · split at e
      · rename_i h1
        injection e with e
        subst e
        simp [Formula.eval, Lit.eval, (h v hv).2 h1]
      · cases e

/-- C66: adding a blocking clause takes away the extensions of the assignment and nothing else. -/
theorem C66_block_one (A : PAsg) (f : Formula) (σ : Asg) : (Formula.mkAnd C [f, A.blocking C none]).eval σ = true ↔ f.eval σ = true ∧ ¬ Extends σ A := by
  rw [← C66_blocking (C := C)]
  simp

/-- C66: an assignment that gives no variable both values falsifies its own blocking clause. -/
theorem C66_blocks_itself {A : PAsg} (hd : ∀ v ∈ A.pos, v ∉ A.neg) : (A.blocking C none).eval (A.over fun _ => false) = false := by
  rw [C66_blocking]
  refine ⟨fun v hv => by simp [PAsg.over, hv], fun v hv => ?_⟩
  have : v ∉ A.pos := fun h => hd v h hv
  simp [PAsg.over, hv, this]

/-- C66: an assignment made of literals holds exactly these, each once, and its length is their number. -/
theorem C66_from_literals (ls : List Lit) : (∀ l, (PAsg.ofLits ls).contains l = true ↔ l ∈ ls) ∧ (∀ l, l ∈ (PAsg.ofLits ls).literals ↔ l ∈ ls) ∧
    (PAsg.ofLits ls).literals.Nodup ∧ (PAsg.ofLits ls).len = ls.toFinset.card ∧ ((PAsg.ofLits ls).isEmpty = true ↔ ls = []) := by
  have h1 : ∀ l, l ∈ (PAsg.ofLits ls).literals ↔ l ∈ ls := fun l => by rw [PAsg.mem_literals, PAsg.contains_ofLits]
  have h2 := PAsg.nodup_literals (PAsg.sets_ofLits ls)
  refine ⟨fun l => PAsg.contains_ofLits, h1, h2, ?_, ?_⟩
  · rw [PAsg.len_eq, ← List.toFinset_card_of_nodup h2]
    congr 1
    ext l
    simp [h1]
  · have h3 : (PAsg.ofLits ls).isEmpty = true ↔ (PAsg.ofLits ls).literals = [] := by simp [PAsg.isEmpty, PAsg.literals]
    rw [h3, List.eq_nil_iff_forall_not_mem, List.eq_nil_iff_forall_not_mem]
    exact forall_congr' fun l => not_congr (h1 l)

/-- C66: `add_literal` adds the literal, keeps the others, and reports whether it is new. -/
theorem C66_add (A : PAsg) (k : Lit) : ((A.add k).1 = true ↔ A.contains k = false) ∧ ∀ l, (A.add k).2.contains l = true ↔ l = k ∨ A.contains l = true :=
  ⟨by rw [PAsg.add_new]; simp, fun _ => PAsg.contains_add⟩

/-- C66: equality of assignments is equality of their literals, and equal assignments have equal hashes, whatever the order of the elements of the sets. -/
theorem C66_equality {A B : PAsg} (hA : A.Sets) (hB : B.Sets) : (A.eq B = true ↔ ∀ l, A.contains l = B.contains l) ∧ ∀ h, A.eq B = true → A.hash h = B.hash h := by
  refine ⟨PAsg.eq_iff hA hB, fun h e => ?_⟩
  unfold PAsg.eq at e
  rw [Bool.and_eq_true, PAsg.setEq_iff hA.1 hB.1, PAsg.setEq_iff hA.2 hB.2] at e
  unfold PAsg.hash
  have p1 := (List.perm_ext_iff_of_nodup hA.1 hB.1).2 e.1
  have p2 := (List.perm_ext_iff_of_nodup hA.2 hB.2).2 e.2
  rw [(p1.map h).sum_nat, (p2.map h).sum_nat]

theorem ofLits_mdl (ls : List Lit) : ∀ m : MdlV, ls.foldl (fun m l => if l.pos then { m with pos := m.pos ++ [l.v] } else { m with neg := m.neg ++ [l.v] }) m =
    ⟨m.pos ++ (ls.filter Lit.pos).map Lit.v, m.neg ++ (ls.filter fun l => !l.pos).map Lit.v⟩ := by
  induction ls with
  | nil => intro m; simp
  | cons l ls ih =>
    intro m
    rw [List.foldl_cons, ih]
    cases h : l.pos <;> simp [h]

/-- C66: a model made of literals has the same literals as often, and turned into an assignment the same as the assignment made of them. -/
theorem C66_model (ls : List Lit) : List.Perm (MdlV.ofLits ls).literals ls ∧ (MdlV.ofLits ls).toAsg.eq (PAsg.ofLits ls) = true ∧ (MdlV.ofLits ls).len = ls.length := by
  have e : (MdlV.ofLits ls).literals = ls.filter Lit.pos ++ ls.filter fun l => !l.pos := by
    unfold MdlV.literals MdlV.ofLits
    rw [ofLits_mdl]
    simp only [List.nil_append, List.map_map]
    congr 1
    · conv_rhs => rw [← List.map_id (ls.filter Lit.pos)]
      refine List.map_congr_left fun l hl => ?_
      have := (List.mem_filter.1 hl).2
      rcases l with ⟨v, p⟩
      simp_all
    · conv_rhs => rw [← List.map_id (ls.filter fun l => !l.pos)]
      refine List.map_congr_left fun l hl => ?_
      have := (List.mem_filter.1 hl).2
      rcases l with ⟨v, p⟩
      simp_all
  have hp : List.Perm (MdlV.ofLits ls).literals ls := by
    rw [e]
    exact List.filter_append_perm _ _
  refine ⟨hp, ?_, ?_⟩
  · rw [MdlV.toAsg, PAsg.eq_iff (PAsg.sets_ofVars _ _) (PAsg.sets_ofLits _)]
    intro l
    rw [Bool.eq_iff_iff, PAsg.contains_ofLits, ← hp.mem_iff]
    rcases l with ⟨v, p⟩
    unfold PAsg.contains PAsg.ofVars MdlV.literals
    cases p <;> simp [PAsg.mem_toSet]
  · rw [← hp.length_eq]
    simp [MdlV.len, MdlV.literals]

/-- C66: an assignment survives being turned into a model and back. -/
theorem C66_to_model {A : PAsg} (hA : A.Sets) : (MdlV.ofAsg A).toAsg.eq A = true ∧ (MdlV.ofAsg A).literals = A.literals := by
  refine ⟨?_, rfl⟩
  rw [MdlV.toAsg, PAsg.eq_iff (PAsg.sets_ofVars _ _) hA]
  rintro ⟨v, p⟩
  unfold PAsg.contains PAsg.ofVars MdlV.ofAsg
  cases p <;> simp [PAsg.mem_toSet]

/-- C66: `compare` compares the sets of literals. -/
theorem C66_compare (m n : MdlV) : m.compare n = true ↔ ∀ l, l ∈ m.literals ↔ l ∈ n.literals := by
  unfold MdlV.compare MdlV.toAsg
  rw [PAsg.eq_iff (PAsg.sets_ofVars _ _) (PAsg.sets_ofVars _ _)]
  have h : ∀ (k : MdlV) (l : Lit), (PAsg.ofVars k.pos k.neg).contains l = true ↔ l ∈ k.literals := by
    rintro k ⟨v, p⟩
    unfold PAsg.contains PAsg.ofVars MdlV.literals
    cases p <;> simp [PAsg.mem_toSet]
  exact forall_congr' fun l => by rw [Bool.eq_iff_iff, h, h]

/-- Nothing prevents an assignment in which a variable has both values; it can evaluate an unsatisfiable formula to true. -/
theorem C66_both_values (v w : Var) (h : v ≠ w) : ∃ f : Formula, (∀ σ, f.eval σ = false) ∧ f.evaluate (PAsg.ofLits [⟨v, true⟩, ⟨v, false⟩]) = true := by
  refine ⟨.nary .conj [.nary .disj [.lit ⟨v, true⟩, .lit ⟨w, true⟩], .nary .disj [.lit ⟨v, true⟩, .lit ⟨w, false⟩], .nary .disj [.lit ⟨v, false⟩, .lit ⟨w, true⟩],
    .nary .disj [.lit ⟨v, false⟩, .lit ⟨w, false⟩]], fun σ => ?_, ?_⟩
  · simp only [Formula.eval, Formula.evalAll, Formula.evalAny, Lit.eval]
    cases σ v <;> cases σ w <;> rfl
  · simp [Formula.evaluate, Formula.evaluateAll, Formula.evaluateAny, PAsg.evalLit, PAsg.ofLits, PAsg.ins]

/-! ### Examples -/

example : (PAsg.ofLits [⟨.named 0, true⟩, ⟨.named 1, false⟩, ⟨.named 0, true⟩]).len = 2 := by decide

example : (PAsg.ofLits [⟨.named 0, true⟩, ⟨.named 1, false⟩]).Sets := PAsg.sets_ofLits _

example : Extends (fun v => v == .named 0) (PAsg.ofLits [⟨.named 0, true⟩, ⟨.named 1, false⟩]) := by
  constructor <;> decide

example : (MdlV.ofLits [⟨.named 1, false⟩, ⟨.named 0, true⟩]).compare ⟨[.named 0, .named 0], [.named 1]⟩ = true := by decide

end Verif
