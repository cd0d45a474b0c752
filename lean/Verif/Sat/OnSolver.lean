import Verif.Sat.Zero
import Verif.Sat.MLog
import Verif.Sat.AddFOk
/-
What can be asked about the formulas on a solver (solver/minisat_solver.rs): `known_variables`, `up_zero_literals`, `formula_on_solver`.
-/
namespace Verif.Sat
open St

namespace Mini
variable {F : Type} [LinearOrder F] [Flt F]

/-- `Literal::new(variable_for_idx(var(lit)).unwrap(), !sign(lit))`, minisat_solver.rs:296, 325; `none` is the panic. -/
def nameLit (m : Mini F) (l : Nat) : Option Lit := (m.names[vr l]?).map fun v => ⟨v, !sgn l⟩

/-- The clauses in `formula_on_solver`, minisat_solver.rs:319-328 -/
def clausesOn (K : Canon) (m : Mini F) : Option (List Formula) :=
  m.y.s.clauses.mapM fun id => ((m.y.s.data id).mapM m.nameLit).map (Formula.mkClause K)

/-- The literals in `formula_on_solver`, minisat_solver.rs:329-335: the variables of level 0, negative unless assigned to true. -/
def zeroOn (m : Mini F) : Option (List Formula) :=
  ((List.range m.y.s.nvars).filter fun i => decide (m.y.s.level i = some 0)).mapM fun i => (m.names[i]?).map fun v => .lit ⟨v, m.y.s.asg i == some true⟩

/-- `formula_on_solver`, minisat_solver.rs:317-340; `none` is a panic. -/
def formulaOnSolver (K : Canon) (m : Mini F) : Option (List Formula) :=
  match m.clausesOn K, m.zeroOn with
  | some cs, some ls => some (cs ++ ls ++ if m.y.s.ok then [] else [.fls])
  | _, _ => none

/-- `up_zero_literals`, minisat_solver.rs:288-300, if the last answer was `True` (after `False` it returns `None`, after a change of the solver it panics).  The result is
a set; here a list. -/
def upZeroLiterals (m : Mini F) : Option (List Lit) := m.y.s.upZero.mapM m.nameLit

/-- `known_variables`, minisat_solver.rs:261-264 -/
def knownVariables (m : Mini F) : List Var := m.names.filter fun v => decide (m.names.idxOf v < m.y.s.nvars)

end Mini

section
variable {F : Type} [LinearOrder F] [Flt F] {C : MCfg F}

/-! ### Levels -/

theorem know_zg {phase : Bool} {v : Var} {m m' : Mini F} (h : m.know C phase v = .ok m') : Zg m.y.s m'.y.s := by
  unfold Mini.know at h
  split at h
  · cases h; exact .refl _
  · split at h
    · rename_i h1
      cases h
      unfold Sess.step at h1
      simp only at h1
      split at h1
      · cases h1
      · rename_i h2; cases h1; exact newVar_zg h2
    · cases h
    · cases h

theorem genLits_zg {ls : List Lit} : ∀ {m : Mini F} {x : Mini F × List Nat}, m.genLits C ls = .ok x → Zg m.y.s x.1.y.s := by
  induction ls with
  | nil => intro m x h; cases h; exact .refl _
  | cons l ls ih =>
    intro m x h
    unfold Mini.genLits at h
    split at h
    · rename_i h1
      unfold Mini.genLit at h1
      split at h1
      · rename_i h2
        cases h1
        split at h
        · rename_i h3; cases h; have := ih h3; exact (know_zg h2).trans this
        · cases h
        · cases h
      · cases h1
      · cases h1
    · cases h
    · cases h

theorem addClause_mzg {c : Clause} {m m' : Mini F} (h : m.addClause C c = .ok m') : Zg m.y.s m'.y.s := by
  unfold Mini.addClause at h
  split at h
  · rename_i h1
    split at h
    · rename_i h2
      cases h
      refine (genLits_zg h1).trans ?_
      unfold Sess.step at h2
      simp only at h2
      split at h2
      · cases h2
      · rename_i h3; cases h2; exact addClause_zg h3
    · cases h
    · cases h
  · cases h
  · cases h

theorem solve_mzg {fuel : Nat} {sel as : List Lit} {m : Mini F} {x : Mini F × Bool} (h : m.solve C fuel sel as = .ok x) : Zg m.y.s x.1.y.s := by
  unfold Mini.solve at h
  split at h
  · rename_i h1
    split at h
    · rename_i h2
      cases h
      refine (genLits_zg h1).trans ?_
      unfold Sess.step at h2
      simp only at h2
      split at h2
      · cases h2
      · cases h2
      · rename_i h3; cases h2; exact solveSel_zg h3
    · cases h
    · cases h
  · cases h
  · cases h

theorem knowAll_zg {phase : Bool} {vs : List Var} : ∀ {m m' : Mini F}, m.knowAll C phase vs = .ok m' → Zg m.y.s m'.y.s := by
  induction vs with
  | nil => intro m m' h; cases h; exact .refl _
  | cons v vs ih =>
    intro m m' h
    unfold Mini.knowAll at h
    split at h
    · rename_i h1; exact (know_zg h1).trans (ih h)
    · cases h
    · cases h

theorem addAll_zg {cs : List Clause} : ∀ {m m' : Mini F}, m.addAll C cs = .ok m' → Zg m.y.s m'.y.s := by
  induction cs with
  | nil => intro m m' h; cases h; exact .refl _
  | cons c cs ih =>
    intro m m' h
    unfold Mini.addAll at h
    split at h
    · rename_i h1; exact (addClause_mzg h1).trans (ih h)
    · cases h
    · cases h

theorem write_zg {s s' : ER} {m m' : Mini F} (h : m.write C s s' = .ok m') : Zg m.y.s m'.y.s := by
  unfold Mini.write at h
  split at h
  · rename_i h1; exact (knowAll_zg h1).trans (addAll_zg h)
  · cases h
  · cases h

theorem save_zg {m m' : Mini F} {k : Nat} (h : m.save C = .ok (m', k)) : Zg m.y.s m'.y.s := by
  unfold Mini.save at h
  split at h
  · rename_i h1
    cases h
    unfold Sess.step at h1
    simp only at h1
    split at h1
    · cases h1
    · cases h1; exact .refl _
  · cases h
  · cases h

variable {E : Env F} {x x' : FMini F}

theorem known_zg {f : Formula} {m : Mini F} (h : FMini.known E f x (.ok m) = .ok x') : Zg m.y.s x'.m.y.s := by
  unfold FMini.known at h
  simp only at h
  split at h
  · cases h
  · cases h
  · rename_i h1; cases h; exact knowAll_zg h1

theorem known_ok {f : Formula} {r : Res (Mini F)} (h : FMini.known E f x r = .ok x') : ∃ m, r = .ok m := by
  unfold FMini.known at h
  split at h
  · cases h
  · cases h
  · exact ⟨_, rfl⟩

theorem add_zg {f : Formula} (h : x.add E f = .ok x') : Zg x.m.y.s x'.m.y.s := by
  have factory : x.addFactory E f = .ok x' → Zg x.m.y.s x'.m.y.s := by
    intro h
    unfold FMini.addFactory at h
    split at h
    · cases h
    · split at h
      · cases h
      · obtain ⟨m, e⟩ := known_ok h
        rw [e] at h
        exact (addAll_zg e).trans (known_zg h)
  have pg : ∀ full, x.addPg E full f = .ok x' → Zg x.m.y.s x'.m.y.s := by
    intro full h
    unfold FMini.addPg at h
    split at h
    · cases h
    · obtain ⟨m, e⟩ := known_ok h
      rw [e] at h
      exact (addAll_zg e).trans (known_zg h)
  have cc : ∀ k, x.addCc E k = .ok x' → Zg x.m.y.s x'.m.y.s := by
    intro k h
    unfold FMini.addCc at h
    split at h
    · obtain ⟨m, e⟩ := known_ok h
      rw [e] at h
      exact (write_zg e).trans (known_zg h)
    · cases h
  unfold FMini.add at h
  cases f with
  | cc k => exact cc k h
  | _ =>
    cases hme : E.me with
    | factory => simp only [hme] at h; exact factory h
    | pg => simp only [hme] at h; exact pg false h
    | fullPg => simp only [hme] at h; exact pg true h

theorem addProp_zg {f : Formula} (h : x.addProp E f = .ok x') : Zg x.m.y.s x'.m.y.s := by
  unfold FMini.addProp at h
  split at h
  · split at h
    · cases h
    · split at h
      · cases h
      · split at h
        · rename_i h1; cases h; exact addAll_zg h1
        · cases h
        · cases h
  · split at h
    · cases h
    · split at h
      · rename_i h1; cases h; exact addAll_zg h1
      · cases h
      · cases h

end

section
variable {F : Type} [LinearOrder F] [Flt F] {C : MCfg F}

/-! ### Names -/

theorem know_names {phase : Bool} {v : Var} {m m' : Mini F} (h : m.know C phase v = .ok m') : v ∈ m'.names ∧ ∀ u ∈ m.names, u ∈ m'.names := by
  unfold Mini.know at h
  split at h
  · rename_i hv; cases h; exact ⟨hv, fun _ hu => hu⟩
  · split at h
    · cases h; exact ⟨List.mem_append_right _ (List.mem_singleton_self _), fun _ hu => List.mem_append_left _ hu⟩
    · cases h
    · cases h

theorem genLits_names {ls : List Lit} : ∀ {m : Mini F} {x : Mini F × List Nat}, m.genLits C ls = .ok x → ∀ u ∈ m.names, u ∈ x.1.names := by
  induction ls with
  | nil => intro m x h; cases h; exact fun _ hu => hu
  | cons l ls ih =>
    intro m x h
    unfold Mini.genLits at h
    split at h
    · rename_i h1
      unfold Mini.genLit at h1
      split at h1
      · rename_i h2
        cases h1
        split at h
        · rename_i h3; cases h; exact fun u hu => ih h3 u ((know_names h2).2 u hu)
        · cases h
        · cases h
      · cases h1
      · cases h1
    · cases h
    · cases h

theorem addClause_names {c : Clause} {m m' : Mini F} (h : m.addClause C c = .ok m') : ∀ u ∈ m.names, u ∈ m'.names := by
  unfold Mini.addClause at h
  split at h
  · rename_i h1
    split at h
    · cases h; exact genLits_names h1
    · cases h
    · cases h
  · cases h
  · cases h

theorem knowAll_names {phase : Bool} {vs : List Var} : ∀ {m m' : Mini F}, m.knowAll C phase vs = .ok m' → (∀ v ∈ vs, v ∈ m'.names) ∧ ∀ u ∈ m.names, u ∈ m'.names := by
  induction vs with
  | nil => intro m m' h; cases h; exact ⟨fun _ hv => (by cases hv), fun _ hu => hu⟩
  | cons v vs ih =>
    intro m m' h
    unfold Mini.knowAll at h
    split at h
    · rename_i h1
      obtain ⟨k1, k2⟩ := ih h
      obtain ⟨k3, k4⟩ := know_names h1
      refine ⟨fun u hu => ?_, fun u hu => k2 u (k4 u hu)⟩
      rcases List.mem_cons.1 hu with rfl | hu
      · exact k2 _ k3
      · exact k1 u hu
    · cases h
    · cases h

theorem addAll_names {cs : List Clause} : ∀ {m m' : Mini F}, m.addAll C cs = .ok m' → ∀ u ∈ m.names, u ∈ m'.names := by
  induction cs with
  | nil => intro m m' h; cases h; exact fun _ hu => hu
  | cons c cs ih =>
    intro m m' h
    unfold Mini.addAll at h
    split at h
    · rename_i h1; exact fun u hu => ih h u (addClause_names h1 u hu)
    · cases h
    · cases h

theorem write_names {s s' : ER} {m m' : Mini F} (h : m.write C s s' = .ok m') : ∀ u ∈ m.names, u ∈ m'.names := by
  unfold Mini.write at h
  split at h
  · rename_i h1; exact fun u hu => addAll_names h u ((knowAll_names h1).2 u hu)
  · cases h
  · cases h

variable {E : Env F} {x x' : FMini F}

theorem known_names {f : Formula} {m : Mini F} (h : FMini.known E f x (.ok m) = .ok x') : (∀ v ∈ fnVars.val f, v ∈ x'.m.names) ∧ ∀ u ∈ m.names, u ∈ x'.m.names := by
  unfold FMini.known at h
  simp only at h
  split at h
  · cases h
  · cases h
  · rename_i h1; cases h; exact knowAll_names h1

theorem add_names {f : Formula} (h : x.add E f = .ok x') : (∀ v ∈ fnVars.val f, v ∈ x'.m.names) ∧ ∀ u ∈ x.m.names, u ∈ x'.m.names := by
  have factory : x.addFactory E f = .ok x' → (∀ v ∈ fnVars.val f, v ∈ x'.m.names) ∧ ∀ u ∈ x.m.names, u ∈ x'.m.names := by
    intro h
    unfold FMini.addFactory at h
    split at h
    · cases h
    · split at h
      · cases h
      · obtain ⟨m, e⟩ := known_ok h
        rw [e] at h
        exact ⟨(known_names h).1, fun u hu => (known_names h).2 u (addAll_names e u hu)⟩
  have pg : ∀ full, x.addPg E full f = .ok x' → (∀ v ∈ fnVars.val f, v ∈ x'.m.names) ∧ ∀ u ∈ x.m.names, u ∈ x'.m.names := by
    intro full h
    unfold FMini.addPg at h
    split at h
    · cases h
    · obtain ⟨m, e⟩ := known_ok h
      rw [e] at h
      exact ⟨(known_names h).1, fun u hu => (known_names h).2 u (addAll_names e u hu)⟩
  unfold FMini.add at h
  cases f with
  | cc k =>
    change x.addCc E k = .ok x' at h
    unfold FMini.addCc at h
    split at h
    · obtain ⟨m, e⟩ := known_ok h
      rw [e] at h
      exact ⟨(known_names h).1, fun u hu => (known_names h).2 u (write_names e u hu)⟩
    · cases h
  | _ =>
    cases hme : E.me with
    | factory => simp only [hme] at h; exact factory h
    | pg => simp only [hme] at h; exact pg false h
    | fullPg => simp only [hme] at h; exact pg true h

end
end Verif.Sat
