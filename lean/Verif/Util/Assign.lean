import Verif.Props.Ops
import Mathlib.Data.List.Nodup
import Mathlib.Data.List.Perm.Subperm
/-
Assignments and models: src/datastructures/assignment.rs and model.rs.
-/
namespace Verif

namespace PAsg

/-- `HashSet::insert`; the order is that of the iterator, which may be any. -/
def ins (v : Var) (s : List Var) : List Var := if v ∈ s then s else v :: s

/-- `collect::<HashSet>`. -/
def toSet (l : List Var) : List Var := l.foldl (fun s v => ins v s) []

/-- `Assignment::from_variables`, assignment.rs:98-100. -/
def ofVars (pos neg : List Var) : PAsg := ⟨toSet pos, toSet neg⟩

/-- `Assignment::from_literals`, assignment.rs:155-166, and `from_set`, 192-203. -/
def ofLits (ls : List Lit) : PAsg := ls.foldl (fun A l => if l.pos then { A with pos := ins l.v A.pos } else { A with neg := ins l.v A.neg }) ⟨[], []⟩

/-- `Assignment::add_literal`, assignment.rs:266-271: the result says whether the literal is new. -/
def add (A : PAsg) (l : Lit) : Bool × PAsg :=
  if l.pos then (!decide (l.v ∈ A.pos), { A with pos := ins l.v A.pos }) else (!decide (l.v ∈ A.neg), { A with neg := ins l.v A.neg })

/-- `Assignment::len`, assignment.rs:345-347. -/
def len (A : PAsg) : Nat := A.pos.length + A.neg.length

/-- `Assignment::is_empty`, assignment.rs:369-371. -/
def isEmpty (A : PAsg) : Bool := A.pos.isEmpty && A.neg.isEmpty

/-- `Assignment::contains`, assignment.rs:451-453. -/
def contains (A : PAsg) (l : Lit) : Bool := if l.pos then decide (l.v ∈ A.pos) else decide (l.v ∈ A.neg)

/-- `Assignment::blocking_clause`, assignment.rs:532-552. -/
def blocking (C : Canon) (A : PAsg) (vs : Option (List Var)) : Formula :=
  Formula.mkOr C (match vs with
    | some vs => vs.filterMap fun v => if v ∈ A.pos then some (.lit ⟨v, false⟩) else if v ∈ A.neg then some (.lit ⟨v, true⟩) else none
    | none => (A.pos.map fun v => .lit ⟨v, false⟩) ++ A.neg.map fun v => .lit ⟨v, true⟩)

/-- `Assignment::literals`, assignment.rs:579-584. -/
def literals (A : PAsg) : List Lit := (A.pos.map fun v => ⟨v, true⟩) ++ A.neg.map fun v => ⟨v, false⟩

/-- Equality of hash sets. -/
def setEq (s t : List Var) : Bool := s.length == t.length && s.all fun v => decide (v ∈ t)

/-- `Assignment::eq`, assignment.rs:650-654. -/
def eq (A B : PAsg) : Bool := setEq A.pos B.pos && setEq A.neg B.neg

/-- `Assignment::hash`, assignment.rs:643-648: the two numbers that are written; `h` is `var_hash`. -/
def hash (h : Var → Nat) (A : PAsg) : Nat × Nat := ((A.pos.map h).sum % 2 ^ 64, (A.neg.map h).sum % 2 ^ 64)

end PAsg

/-- `Model`, model.rs. -/
structure MdlV where
  pos : List Var
  neg : List Var

namespace MdlV

/-- `Model::from_literals`, model.rs:141-152. -/
def ofLits (ls : List Lit) : MdlV := ls.foldl (fun m l => if l.pos then { m with pos := m.pos ++ [l.v] } else { m with neg := m.neg ++ [l.v] }) ⟨[], []⟩

/-- `Model::literals`, model.rs:314-319. -/
def literals (m : MdlV) : List Lit := (m.pos.map fun v => ⟨v, true⟩) ++ m.neg.map fun v => ⟨v, false⟩

/-- `Model::len`, model.rs:264-266. -/
def len (m : MdlV) : Nat := m.pos.length + m.neg.length

/-- `From<Model> for Assignment`, model.rs:412-417. -/
def toAsg (m : MdlV) : PAsg := PAsg.ofVars m.pos m.neg

/-- `From<Assignment> for Model`, assignment.rs:658-668. -/
def ofAsg (A : PAsg) : MdlV := ⟨A.pos, A.neg⟩

/-- `Model::compare`, model.rs:375-377. -/
def compare (m n : MdlV) : Bool := m.toAsg.eq n.toAsg

end MdlV

namespace PAsg

theorem mem_ins {v w : Var} {s : List Var} : w ∈ ins v s ↔ w = v ∨ w ∈ s := by
  unfold ins
  split
  · constructor
    · exact .inr
    · rintro (rfl | h) <;> assumption
  · simp

theorem nodup_ins {v : Var} {s : List Var} (h : s.Nodup) : (ins v s).Nodup := by
  unfold ins
  split
  · exact h
  · rename_i hv
    exact List.nodup_cons.2 ⟨hv, h⟩

theorem foldl_ins (l : List Var) : ∀ s : List Var, s.Nodup → (l.foldl (fun s v => ins v s) s).Nodup ∧ ∀ w, w ∈ l.foldl (fun s v => ins v s) s ↔ w ∈ l ∨ w ∈ s := by
  induction l with
  | nil => intro s h; exact ⟨h, by simp⟩
  | cons v l ih =>
    intro s h
    obtain ⟨h1, h2⟩ := ih (ins v s) (nodup_ins h)
    refine ⟨h1, fun w => ?_⟩
    rw [List.foldl_cons, h2, mem_ins, List.mem_cons]
    constructor
    · rintro (h | h | h) <;> simp [h]
    · rintro ((h | h) | h) <;> simp [h]

theorem nodup_toSet (l : List Var) : (toSet l).Nodup := (foldl_ins l [] List.nodup_nil).1

theorem mem_toSet {l : List Var} {v : Var} : v ∈ toSet l ↔ v ∈ l := by
  have := (foldl_ins l [] List.nodup_nil).2 v
  unfold toSet
  simpa using this

/-- Assignments as the code holds them: sets. -/
def Sets (A : PAsg) : Prop := A.pos.Nodup ∧ A.neg.Nodup

theorem sets_ofVars (p n : List Var) : (ofVars p n).Sets := ⟨nodup_toSet p, nodup_toSet n⟩

theorem sets_add {A : PAsg} (h : A.Sets) (l : Lit) : (A.add l).2.Sets := by
  unfold add
  split
  · exact ⟨nodup_ins h.1, h.2⟩
  · exact ⟨h.1, nodup_ins h.2⟩

theorem ofLits_add (ls : List Lit) : ofLits ls = ls.foldl (fun A l => (A.add l).2) ⟨[], []⟩ := by
  unfold ofLits add
  congr
  funext A l
  split <;> rfl

theorem mem_literals {A : PAsg} {l : Lit} : l ∈ A.literals ↔ A.contains l = true := by
  rcases l with ⟨v, p⟩
  unfold literals contains
  cases p <;> simp

theorem contains_add {A : PAsg} {k l : Lit} : (A.add k).2.contains l = true ↔ l = k ∨ A.contains l = true := by
  rcases k with ⟨v, p⟩
  rcases l with ⟨w, q⟩
  unfold add contains
  cases p <;> cases q <;> simp [mem_ins]

theorem add_new {A : PAsg} {k : Lit} : (A.add k).1 = !A.contains k := by
  unfold add contains
  split <;> rfl

theorem foldl_add (ls : List Lit) : ∀ A : PAsg, A.Sets → (ls.foldl (fun A l => (A.add l).2) A).Sets ∧
    ∀ l, (ls.foldl (fun A l => (A.add l).2) A).contains l = true ↔ l ∈ ls ∨ A.contains l = true := by
  induction ls with
  | nil => intro A h; exact ⟨h, by simp⟩
  | cons k ls ih =>
    intro A h
    obtain ⟨h1, h2⟩ := ih (A.add k).2 (sets_add h k)
    refine ⟨h1, fun l => ?_⟩
    rw [List.foldl_cons, h2, contains_add, List.mem_cons]
    constructor
    · rintro (h | h | h) <;> simp [h]
    · rintro ((h | h) | h) <;> simp [h]

theorem sets_ofLits (ls : List Lit) : (ofLits ls).Sets := by
  rw [ofLits_add]
  exact (foldl_add ls _ ⟨List.nodup_nil, List.nodup_nil⟩).1

theorem contains_ofLits {ls : List Lit} {l : Lit} : (ofLits ls).contains l = true ↔ l ∈ ls := by
  rw [ofLits_add, (foldl_add ls _ ⟨List.nodup_nil, List.nodup_nil⟩).2]
  simp [contains]

theorem setEq_iff {s t : List Var} (hs : s.Nodup) (ht : t.Nodup) : setEq s t = true ↔ ∀ v, v ∈ s ↔ v ∈ t := by
  unfold setEq
  rw [Bool.and_eq_true, beq_iff_eq, List.all_eq_true]
  simp only [decide_eq_true_eq]
  constructor
  · rintro ⟨h1, h2⟩
    have : List.Subperm s t := List.Nodup.subperm hs h2
    exact fun v => (this.perm_of_length_le (by omega)).mem_iff
  · intro h
    exact ⟨((List.perm_ext_iff_of_nodup hs ht).2 h).length_eq, fun v hv => (h v).1 hv⟩

theorem eq_iff {A B : PAsg} (hA : A.Sets) (hB : B.Sets) : A.eq B = true ↔ ∀ l, A.contains l = B.contains l := by
  unfold eq
  rw [Bool.and_eq_true, setEq_iff hA.1 hB.1, setEq_iff hA.2 hB.2]
  constructor
  · rintro ⟨h1, h2⟩ ⟨v, p⟩
    unfold contains
    cases p <;> simp [h1, h2]
  · intro h
    refine ⟨fun v => ?_, fun v => ?_⟩
    · have := h ⟨v, true⟩
      simpa [contains] using this
    · have := h ⟨v, false⟩
      simpa [contains] using this

theorem nodup_literals {A : PAsg} (h : A.Sets) : A.literals.Nodup := by
  unfold literals
  rw [List.nodup_append]
  refine ⟨List.Nodup.map (fun a b e => by injection e) h.1, List.Nodup.map (fun a b e => by injection e) h.2, ?_⟩
  rintro _ h1 _ h2 rfl
  obtain ⟨v, _, rfl⟩ := List.mem_map.1 h1
  obtain ⟨w, _, e⟩ := List.mem_map.1 h2
  injection e with _ e
  cases e

theorem len_eq (A : PAsg) : A.len = A.literals.length := by simp [len, literals]

end PAsg

end Verif
