import Verif.Sat.Load
/-
Sequences of calls of the solver: new variables, clauses, solving with assumptions and selection orders, saving and loading.
-/
namespace Verif.Sat
open St

/-- A call of the solver, with literals instead of names. -/
inductive Op
  /-- `new_var`, minisat2.rs:226 -/
  | newVar (phase : Bool)
  /-- `add_clause`, minisat2.rs:240 -/
  | add (c : List Nat)
  /-- `sat_with`, minisat_solver.rs:173-194 (`sat` is the case without assumptions and selection order) -/
  | solve (fuel : Nat) (sel as : List Nat)
  /-- `save_state`, minisat_solver.rs:236-241 -/
  | save
  /-- `load_state`, minisat_solver.rs:244-258, of the state with this id -/
  | load (id : Nat)

/-- The solver with the bookkeeping of states of `MiniSat`, minisat_solver.rs:24-34: `valid` is `valid_states` (newest first), `handles` are all
the states handed out so far (`next_state_id` is its length). -/
structure Sess (F : Type) where
  s : St F
  valid : List Nat
  handles : List Saved

namespace Sess
variable {F : Type} [LinearOrder F] [Flt F]

/-- A new solver, minisat_solver.rs:72-83. -/
def new (C : Cfg F) : Sess F := ⟨.new C, [], []⟩

/-- The states that stay valid when state `k` is loaded, minisat_solver.rs:245-253: `none` if it is not valid any more. -/
def cut (k : Nat) : List Nat → Option (List Nat)
  | [] => none
  | x :: xs => if x = k then some (x :: xs) else cut k xs

/-- `solve` or `solve_with_assumptions` with the selection order set before and reset afterwards, minisat_solver.rs:173-194. -/
def solveSel (C : Cfg F) (fuel : Nat) (sel as : List Nat) (s : St F) : Res (St F × Bool) :=
  match solveWith C fuel as { s with sel := sel } with
  | .ok (s, b) => .ok ({ s with sel := [] }, b)
  | .panic => .panic
  | .diverge => .diverge

/-- One call; the second component is the answer of the solver. -/
def step (C : Cfg F) (op : Op) (x : Sess F) : Res (Sess F × Option Bool) :=
  match op with
  | .newVar phase =>
    match newVar phase true x.s with
    | none => .panic
    | some s => .ok ({ x with s := s }, none)
  | .add c =>
    match addClause C c x.s with
    | none => .panic
    | some (s, _) => .ok ({ x with s := s }, none)
  | .solve fuel sel as =>
    match solveSel C fuel sel as x.s with
    | .panic => .panic
    | .diverge => .diverge
    | .ok (s, b) => .ok ({ x with s := s }, some b)
  | .save =>
    match save C x.s with
    | none => .panic
    | some st => .ok ({ x with valid := x.handles.length :: x.valid, handles := x.handles ++ [st] }, none)
  | .load k =>
    match cut k x.valid, x.handles[k]? with
    | some v, some st =>
      match load C st x.s with
      | none => .panic
      | some s => .ok ({ x with s := s, valid := v }, none)
    | _, _ => .panic

end Sess

/-! ### Specification -/

/-- What a user expects a solver to hold: a number of variables, the clauses added, and the saved states (newest first, with their ids). -/
structure Spec where
  n : Nat
  cls : List (List Nat)
  saved : List (Nat × Nat × List (List Nat))
  count : Nat

namespace Spec

/-- Nothing. -/
def empty : Spec := ⟨0, [], [], 0⟩

/-- The saved states from the one with id `k` on. -/
def cut (k : Nat) : List (Nat × Nat × List (List Nat)) → Option ((Nat × Nat × List (List Nat)) × List (Nat × Nat × List (List Nat)))
  | [] => none
  | x :: xs => if x.1 = k then some (x, x :: xs) else cut k xs

/-- What a call does; `none` if the state to be loaded is not valid. -/
def step (op : Op) (x : Spec) : Option Spec :=
  match op with
  | .newVar _ => some { x with n := x.n + 1 }
  | .add c => some { x with cls := x.cls ++ [c] }
  | .solve _ _ _ => some x
  | .save => some { x with saved := (x.count, x.n, x.cls) :: x.saved, count := x.count + 1 }
  | .load k => (cut k x.saved).map fun r => { x with n := r.1.2.1, cls := r.1.2.2, saved := r.2 }

/-- Literals are those of known variables. -/
def Legal (x : Spec) : Op → Prop
  | .newVar _ => True
  | .add c => ∀ l ∈ c, l < 2 * x.n
  | .solve _ sel as => (∀ l ∈ sel, l < 2 * x.n) ∧ ∀ l ∈ as, l < 2 * x.n
  | .save => True
  | .load k => (cut k x.saved).isSome = true

end Spec

/-- None of the problem clauses stored in the solver when state `k` was saved has the same literals as a problem clause stored since. -/
def Sess.Separate {F : Type} (y : Sess F) (k : Nat) : Prop := ∀ st, y.handles[k]? = some st → Sep st.clauses y.s

section
variable {F : Type} [LinearOrder F] [Flt F]

/-- The states of the specification and of the solver after a sequence of legal calls.  States are saved and loaded in incremental mode only
(otherwise the code panics), and loaded only if no clause to be removed has the same literals as one to be kept. -/
inductive Runs (C : Cfg F) : Spec → Sess F → Prop
  | new : Runs C .empty (.new C)
  | step {x x' : Spec} {y y' : Sess F} {op : Op} {r : Option Bool} : Runs C x y → x.Legal op →
      ((op = .save ∨ ∃ k, op = .load k) → C.incremental = true) → (∀ k, op = .load k → y.Separate k) →
      x.step op = some x' → y.step C op = .ok (y', r) → Runs C x' y'

/-- The first saved state has at least as much as the second. -/
structure Above (a b : Saved) : Prop where
  nvars : b.nvars ≤ a.nvars
  clauses : b.clauses ≤ a.clauses
  learnts : b.learnts ≤ a.learnts
  units : b.units ≤ a.units

/-- The solver holds what the specification says. -/
structure Holds (C : Cfg F) (x : Spec) (y : Sess F) : Prop where
  ready : Ready x.cls C.incremental y.s
  nvars : y.s.nvars = x.n
  sel : y.s.sel = []
  ass : y.s.assumptions = []
  valid : y.valid = x.saved.map Prod.fst
  count : y.handles.length = x.count
  inc : x.saved ≠ [] → C.incremental = true
  ids : ∀ e ∈ x.saved, e.1 < x.count
  sorted : x.saved.Pairwise fun a b => b.1 < a.1
  snap : ∀ e ∈ x.saved, ∃ st, y.handles[e.1]? = some st ∧ st.nvars = e.2.1 ∧ Snap e.2.2 st y.s
  above : x.saved.Pairwise fun a b => ∀ sa sb, y.handles[a.1]? = some sa → y.handles[b.1]? = some sb → Above sa sb

theorem solve_assumptions_eq (C : Cfg F) (fuel : Nat) (as : List Nat) (s : St F) :
    ∀ s' b, solveWith C fuel as s = .ok (s', b) → s'.assumptions = [] := by
  intro s' b h
  unfold solveWith at h
  generalize solve C fuel { s with assumptions := as } = r at h
  match r, h with
  | .ok (s1, b1), h =>
    simp only [Res.ok.injEq, Prod.mk.injEq] at h
    rw [← h.1]

theorem ready_new (C : Cfg F) (inc : Bool) : Ready [] inc (St.new C) := by
  have hi : SInv [] inc 0 (St.new C) :=
    { inv :=
      { twf := .nil
        val := fun l => by simp [Core.value, St.new]
        nodup := List.nodup_nil
        rng := fun l hl => by cases hl
        rsn := fun t1 x t2 id e => by simp [St.new] at e
        dec := fun t1 x t2 e => by simp [St.new] at e
        limq := fun n hn => by cases hn
        qle := Nat.le_refl _
        good := fun id hid => by
          rcases hid with h' | h' | ⟨l, w, hw, _⟩ | ⟨x, hx, _⟩
          · cases h'
          · cases h'
          · cases hw
          · cases hx
        w1 := fun l w hw => by cases hw
        w2 := fun l => List.nodup_nil
        blk := fun l w hw => by cases hw
        mutual_ := fun id c0 c1 r b0 b1 e m0 m1 => by cases m0
        valid := fun l hl => by cases hl
        cov := fun id hid => by
          unfold Core.db at hid
          have : id ∈ ([] : List Nat) := by cases inc <;> simpa [St.new] using hid
          cases this
        zero := fun x hx => by cases hx
        incw := fun _ l w hw => by cases hw
        incr := fun _ x hx => by cases hx
        incu := fun _ x hx => by cases hx }
      heap :=
      { cons := fun n i => by simp [St.new, Heap.new]
        rng := fun v hv => by cases hv
        dec := fun v hv => by cases hv
        mem := fun v hv => by cases hv
        len := Nat.le_refl _ }
      seen := fun _ => rfl
      eqv := fun _ ρ _ _ c hc => by cases hc
      uent := fun u hu => by cases hu
      cnod := List.nodup_nil
      flag := ⟨(fun id hm => by cases hm), (fun id hm => by cases hm)⟩
      sel := fun l hl => by cases hl
      arng := fun l hl => by cases hl
      apos := fun i p hlt => by cases hlt
      adec := fun x hx => by cases hx }
  exact
  { inv := ⟨0, hi⟩
    lim := rfl
    full := fun _ => ⟨hi, rfl⟩
    bad := fun h => by cases h
    rep := fun _ =>
      { ind := fun k u e => by simp [St.new] at e
        pres := fun _ u hu => by cases hu
        tw := fun i hi => by cases hi }
    base := fun _ _ ρ _ _ c hc => by cases hc }

theorem holds_new (C : Cfg F) : Holds C .empty (.new C) where
  ready := ready_new C _
  nvars := rfl
  sel := rfl
  ass := rfl
  valid := rfl
  count := rfl
  inc h := absurd rfl h
  ids e he := by cases he
  sorted := .nil
  snap e he := by cases he
  above := .nil

theorem Ready.setInc {Φ : List (List Nat)} {inc : Bool} {s : St F} (h : Ready Φ inc s) (i : F) : Ready Φ inc { s with varInc := i } where
  inv := by
    obtain ⟨q, hi⟩ := h.inv
    exact ⟨q, { hi with heap := { hi.heap with } }⟩
  lim := h.lim
  full ho := by
    obtain ⟨a, b⟩ := h.full ho
    exact ⟨{ a with heap := { a.heap with } }, b⟩
  bad := h.bad
  rep := h.rep
  base := h.base

variable {C : Cfg F} {x : Spec} {y : Sess F}

theorem holds_reset (i : F) (hv : y.valid = []) : Holds C ⟨0, [], [], y.handles.length⟩ { y with s := { St.new C with varInc := i } } where
  ready := (ready_new C _).setInc i
  nvars := rfl
  sel := rfl
  ass := rfl
  valid := hv
  count := rfl
  inc h := absurd rfl h
  ids e he := by cases he
  sorted := .nil
  snap e he := by cases he
  above := .nil

theorem Ready.setSel {Φ : List (List Nat)} {inc : Bool} {s : St F} (h : Ready Φ inc s) {sel : List Nat} (hr : ∀ l ∈ sel, l < 2 * s.nvars) : Ready Φ inc { s with sel := sel } where
  inv := by
    obtain ⟨q, hi⟩ := h.inv
    exact ⟨q, { hi with heap := { hi.heap with }, sel := hr }⟩
  lim := h.lim
  full ho := by
    obtain ⟨a, b⟩ := h.full ho
    exact ⟨{ a with heap := { a.heap with }, sel := hr }, b⟩
  bad := h.bad
  rep := h.rep
  base := h.base

/-- Solving with a selection order. -/
theorem solveSel_ok (hm : C.clauseMin ≠ .none) (fuel : Nat) {Φ : List (List Nat)} {s : St F} (h : Ready Φ C.incremental s) {sel as : List Nat}
    (hs : ∀ l ∈ sel, l < 2 * s.nvars) (ha : ∀ p ∈ as, p < 2 * s.nvars) :
    match Sess.solveSel C fuel sel as s with
    | .panic => False
    | .diverge => True
    | .ok (s', b) => s'.sel = [] ∧ s'.assumptions = [] ∧ Solved Φ C.incremental as { s with sel := [] } s' b := by
  unfold Sess.solveSel
  have hsol := solveWith_ok C hm fuel (h.setSel hs) (as := as) ha
  have hass := solve_assumptions_eq C fuel as { s with sel := sel }
  revert hsol hass
  generalize solveWith C fuel as { s with sel := sel } = r
  intro hsol hass
  match r, hsol, hass with
  | .panic, hsol, _ => exact hsol
  | .diverge, _, _ => trivial
  | .ok (s1, b), hsol, hass =>
    exact ⟨rfl, hass s1 b rfl,
    { ready := hsol.ready.setSel (by simp)
      ext := fun hinc => { hsol.ext hinc with }
      nvars := hsol.nvars
      decision := hsol.decision
      sel := rfl
      bb := hsol.bb
      orig := hsol.orig
      ok := hsol.ok
      sat := hsol.sat
      unsat := hsol.unsat
      cls := hsol.cls
      final := fun e => (hsol.final e).imp fun c hc => { hc with } }⟩

theorem Holds.ext {s' : St F} (h : Holds C x y) (hx : C.incremental = true → Ext y.s s') : ∀ e ∈ x.saved, ∃ st, y.handles[e.1]? = some st ∧ st.nvars = e.2.1 ∧ Snap e.2.2 st s' := by
  intro e he
  obtain ⟨st, h1, h2, h3⟩ := h.snap e he
  have hne : x.saved ≠ [] := fun e' => by rw [e'] at he; cases he
  exact ⟨st, h1, h2, h3.ext h.ready.ids (hx (h.inc hne))⟩

theorem cut_spec {k : Nat} : ∀ {l : List (Nat × Nat × List (List Nat))} {r}, Spec.cut k l = some r → ∃ p, l = p ++ r.2 ∧ (∃ t, r.2 = r.1 :: t) ∧ r.1.1 = k ∧
    Sess.cut k (l.map Prod.fst) = some (r.2.map Prod.fst)
  | [], _, h => by cases h
  | a :: l, r, h => by
    unfold Spec.cut at h
    unfold Sess.cut
    simp only [List.map_cons]
    by_cases ha : a.1 = k
    · rw [if_pos ha] at h
      rw [if_pos ha]
      cases h
      exact ⟨[], rfl, ⟨l, rfl⟩, ha, rfl⟩
    · rw [if_neg ha] at h
      rw [if_neg ha]
      obtain ⟨p, h1, h2, h3, h4⟩ := cut_spec h
      exact ⟨a :: p, by rw [h1]; rfl, h2, h3, h4⟩

/-- One call. -/
theorem Holds.step (h : Holds C x y) (hm : C.clauseMin ≠ .none) {op : Op} (hl : x.Legal op) (hinc : (op = .save ∨ ∃ k, op = .load k) → C.incremental = true)
    (htw : ∀ k, op = .load k → y.Separate k) :
    match y.step C op with
    | .panic => False
    | .diverge => ∃ f sel as, op = .solve f sel as
    | .ok (y', r) => ∃ x', x.step op = some x' ∧ Holds C x' y' ∧
        ∀ f sel as, op = .solve f sel as → ∃ b, r = some b ∧ Solved x.cls C.incremental as y.s y'.s b := by
  cases op with
  | newVar phase =>
    obtain ⟨s', e, hr, hx, hn, _, ha, hs, _⟩ := newVar_ok h.ready phase
    unfold Sess.step
    simp only
    rw [e]
    refine ⟨_, rfl, ?_, fun f sel as e => by cases e⟩
    exact
    { ready := hr
      nvars := by rw [hn, h.nvars]
      sel := hs.trans h.sel
      ass := ha.trans h.ass
      valid := h.valid
      count := h.count
      inc := h.inc
      ids := h.ids
      sorted := h.sorted
      snap := h.ext fun _ => hx
      above := h.above }
  | add c =>
    obtain ⟨s', b, e, hr, hx, _, hs, _⟩ := addClause_ok C h.ready (ps := c) (by rw [h.nvars]; exact hl)
    unfold Sess.step
    simp only
    rw [e]
    refine ⟨_, rfl, ?_, fun f sel as e => by cases e⟩
    exact
    { ready := hr
      nvars := hs.nvars.trans h.nvars
      sel := hs.sel.trans h.sel
      ass := hs.assumptions.trans h.ass
      valid := h.valid
      count := h.count
      inc := h.inc
      ids := h.ids
      sorted := h.sorted
      snap := h.ext fun _ => hx
      above := h.above }
  | solve fuel sel as =>
    have hsol := solveSel_ok hm fuel h.ready (sel := sel) (as := as) (by rw [h.nvars]; exact hl.1) (by rw [h.nvars]; exact hl.2)
    unfold Sess.step
    simp only
    revert hsol
    generalize Sess.solveSel C fuel sel as y.s = r
    intro hsol
    match r, hsol with
    | .panic, hsol => exact hsol
    | .diverge, _ => exact ⟨fuel, sel, as, rfl⟩
    | .ok (s', b), ⟨h1, h2, h3⟩ =>
      have hys : ({ y.s with sel := [] } : St F) = y.s := by
        have := h.sel
        cases hy : y.s
        rw [hy] at this
        simp only at this
        subst this
        rfl
      rw [hys] at h3
      refine ⟨_, rfl, ?_, ?_⟩
      · exact
        { ready := h3.ready
          nvars := h3.nvars.trans h.nvars
          sel := h1
          ass := h2
          valid := h.valid
          count := h.count
          inc := h.inc
          ids := h.ids
          sorted := h.sorted
          snap := h.ext h3.ext
          above := h.above }
      · intro f sel' as' e
        cases e
        exact ⟨b, rfl, h3⟩
  | save =>
    have hi := hinc (.inl rfl)
    have hready := h.ready
    rw [hi] at hready
    obtain ⟨st, e, hsn, e1, e2, e3, e4, e5⟩ := save_ok C hi hready
    unfold Sess.step
    simp only
    rw [e]
    refine ⟨_, rfl, ?_, fun f sel as e => by cases e⟩
    have hold : ∀ e ∈ x.saved, (y.handles ++ [st])[e.1]? = y.handles[e.1]? := fun e he => by
      rw [List.getElem?_append_left]
      rw [h.count]; exact h.ids e he
    have hnew : (y.handles ++ [st])[x.count]? = some st := by rw [← h.count]; simp
    exact
    { ready := h.ready
      nvars := h.nvars
      sel := h.sel
      ass := h.ass
      valid := by simp only [List.map_cons, h.count, h.valid]
      count := by simp [h.count]
      inc := fun _ => hi
      ids := fun e he => by
        rcases List.mem_cons.1 he with rfl | he
        · exact Nat.lt_succ_self _
        · exact Nat.lt_succ_of_lt (h.ids e he)
      sorted := List.pairwise_cons.2 ⟨fun b hb => h.ids b hb, h.sorted⟩
      snap := fun e he => by
        rcases List.mem_cons.1 he with rfl | he
        · exact ⟨st, hnew, by rw [e2, h.nvars], hsn⟩
        · simp only
          rw [hold e he]
          exact h.snap e he
      above := by
        refine List.pairwise_cons.2 ⟨fun b hb sa sb ha hsb => ?_, ?_⟩
        · simp only at ha hsb
          rw [hnew] at ha
          rw [hold b hb] at hsb
          cases ha
          obtain ⟨sb', h1, _, h3⟩ := h.snap b hb
          rw [h1] at hsb
          cases hsb
          exact ⟨by rw [e2]; exact h3.nv, by rw [e3]; exact h3.cl, by rw [e4]; exact h3.le, by rw [e5]; exact h3.un⟩
        · refine h.above.imp_of_mem fun {a b} ha hb hab sa sb h1 h2 => ?_
          simp only at h1 h2
          rw [hold a ha] at h1
          rw [hold b hb] at h2
          exact hab sa sb h1 h2 }
  | load k =>
    have hi := hinc (.inr ⟨k, rfl⟩)
    have hready := h.ready
    rw [hi] at hready
    obtain ⟨r, hr⟩ := Option.isSome_iff_exists.1 (show (Spec.cut k x.saved).isSome = true from hl)
    obtain ⟨p, hp, ⟨t, ht⟩, hk, hcut⟩ := cut_spec hr
    have hmem : r.1 ∈ x.saved := by rw [hp, ht]; simp
    obtain ⟨st, hst, hn, hsn⟩ := h.snap r.1 hmem
    obtain ⟨s', e, hrd, hlo⟩ := load_ok C hi hready hsn (htw k rfl st (hk ▸ hst)) (by rw [h.sel]; simp) (by rw [h.ass]; simp)
    unfold Sess.step
    simp only
    rw [h.valid, hcut, ← hk, hst]
    simp only
    rw [e]
    refine ⟨_, by unfold Spec.step; simp only; rw [hk, hr]; rfl, ?_, fun f sel as e => by cases e⟩
    have hsub : ∀ e ∈ r.2, e ∈ x.saved := fun e he => by rw [hp]; exact List.mem_append_right _ he
    have hab : r.2.Pairwise fun a b => ∀ sa sb, y.handles[a.1]? = some sa → y.handles[b.1]? = some sb → Above sa sb := by
      have := h.above
      rw [hp] at this
      exact (List.pairwise_append.1 this).2.1
    exact
    { ready := by rw [hi]; exact hrd
      nvars := by rw [hlo.nvars, hn]
      sel := hlo.sel.trans h.sel
      ass := hlo.assumptions.trans h.ass
      valid := rfl
      count := h.count
      inc := fun _ => hi
      ids := fun e he => h.ids e (hsub e he)
      sorted := by
        have := h.sorted
        rw [hp] at this
        exact (List.pairwise_append.1 this).2.1
      snap := fun e he => by
        obtain ⟨st', h1, h2, h3⟩ := h.snap e (hsub e he)
        refine ⟨st', h1, h2, ?_⟩
        have hab' : Above st st' := by
          rw [ht] at hab
          have he : e ∈ r.1 :: t := by rw [← ht]; exact he
          rcases List.mem_cons.1 he with rfl | he
          · rw [hst] at h1
            cases h1
            exact ⟨Nat.le_refl _, Nat.le_refl _, Nat.le_refl _, Nat.le_refl _⟩
          · exact (List.pairwise_cons.1 hab).1 e he st st' hst h1
        exact h3.loaded hlo hab'.nvars hab'.clauses hab'.learnts hab'.units
      above := hab }

/-- The solver always holds what the specification says. -/
theorem Runs.holds (hm : C.clauseMin ≠ .none) (h : Runs C x y) : Holds C x y := by
  induction h with
  | new => exact holds_new C
  | step hr hl hinc htw hsp hst ih =>
    have := ih.step hm hl hinc htw
    rw [hst] at this
    obtain ⟨x', h1, h2, _⟩ := this
    rw [hsp] at h1
    cases h1
    exact h2

end
end Verif.Sat
