import Verif.Sat.OnSolver
import Verif.Props.Core
import Verif.F.OrderOk
/-
Property C63: what the solver says about the formulas it holds.

`formula_on_solver` is equivalent to the formulas added as long as no state has been loaded; afterwards it may not be (`C63_loaded_wrong`).  The literals of `up_zero_literals`
are implied by the formulas, also after states have been loaded.  `reset` empties the solver if no states have been saved; it keeps states valid (`C63_reset_wrong`).
-/
namespace Verif.Sat
open St

section
variable {F : Type} [LinearOrder F] [Flt F]

/-- The name of a number. -/
def nm (names : List Var) (i : Nat) : Var := names[i]?.getD (.named 0)

theorem nm_eq {names : List Var} {i : Nat} (h : i < names.length) : names[i]? = some (nm names i) := by
  unfold nm
  rw [List.getElem?_eq_getElem h]
  rfl

theorem num_nm {names : List Var} {i : Nat} (h : i < names.length) (σ : Asg) : num names σ i = σ (nm names i) := by
  unfold num
  rw [nm_eq h]
  rfl

theorem lit_nm {names : List Var} {i : Nat} (h : i < names.length) (σ : Asg) (b : Bool) : Lit.eval σ ⟨nm names i, b⟩ = true ↔ num names σ i = b := by
  rw [num_nm h]
  unfold Lit.eval
  cases b <;> simp

variable {C : MCfg F} {Y : NSpec} {m : Mini F}

theorem clausesOn_ok (K : Canon) (h : NHolds C Y m) : ∃ cs, m.clausesOn K = some cs ∧
    ∀ σ, (∀ g ∈ cs, g.eval σ = true) ↔ ∀ id ∈ m.y.s.clauses, clT (num Y.names σ) (m.y.s.data id) := by
  obtain ⟨q, hi⟩ := h.holds.ready.inv
  have hn : m.y.s.nvars = Y.names.length := h.holds.nvars
  have hr : ∀ id ∈ m.y.s.clauses, ∀ l ∈ m.y.s.data id, vr l < Y.names.length := fun id hid l hl => by
    rw [← hn]
    exact vr_lt.2 ((hi.inv.good id (.inl hid)).1.rng l hl)
  have e : m.clausesOn K = some (m.y.s.clauses.map fun id => Formula.mkClause K ((m.y.s.data id).map fun l => ⟨nm Y.names (vr l), !sgn l⟩)) := by
    unfold Mini.clausesOn
    refine VarOrd.mapM_map _ fun id hid => ?_
    rw [VarOrd.mapM_map (h := fun l => ⟨nm Y.names (vr l), !sgn l⟩) _ fun l hl => ?_]
    · rfl
    · unfold Mini.nameLit
      rw [h.names, nm_eq (hr id hid l hl)]
      rfl
  refine ⟨_, e, fun σ => ?_⟩
  simp only [List.mem_map, forall_exists_index, and_imp, forall_apply_eq_imp_iff₂]
  refine forall_congr' fun id => forall_congr' fun hid => ?_
  rw [Formula.eval_mkClause]
  unfold Clause.Sat clT
  constructor
  · rintro ⟨k, hk, hs⟩
    obtain ⟨l, hl, rfl⟩ := List.mem_map.1 hk
    exact ⟨l, hl, litT_iff.2 ((lit_nm (hr id hid l hl) σ _).1 hs)⟩
  · rintro ⟨l, hl, hs⟩
    exact ⟨_, List.mem_map_of_mem hl, (lit_nm (hr id hid l hl) σ _).2 (litT_iff.1 hs)⟩

theorem zeroOn_ok (h : NHolds C Y m) : ∃ ls, m.zeroOn = some ls ∧
    ∀ σ, (∀ g ∈ ls, g.eval σ = true) ↔ ∀ i < m.y.s.nvars, m.y.s.level i = some 0 → num Y.names σ i = (m.y.s.asg i == some true) := by
  have hn : m.y.s.nvars = Y.names.length := h.holds.nvars
  have e : m.zeroOn = some (((List.range m.y.s.nvars).filter fun i => decide (m.y.s.level i = some 0)).map fun i => .lit ⟨nm Y.names i, m.y.s.asg i == some true⟩) := by
    unfold Mini.zeroOn
    refine VarOrd.mapM_map _ fun i hi => ?_
    have : i < Y.names.length := by rw [← hn]; exact List.mem_range.1 (List.mem_filter.1 hi).1
    rw [h.names, nm_eq this]
    rfl
  refine ⟨_, e, fun σ => ?_⟩
  simp only [List.forall_mem_map, List.mem_filter, List.mem_range, decide_eq_true_eq, and_imp]
  refine forall_congr' fun i => forall_congr' fun hi => forall_congr' fun _ => ?_
  rw [Formula.eval_lit]
  exact lit_nm (by rw [← hn]; exact hi) σ _

/-- The formula on the solver has the models of the clauses added. -/
theorem onSolver_ok (K : Canon) (h : NHolds C Y m) (hz : ZInv m.y.s.toCore) :
    ∃ L, m.formulaOnSolver K = some L ∧ ∀ σ, (∀ g ∈ L, g.eval σ = true) ↔ Sats σ Y.cls := by
  obtain ⟨cs, e1, h1⟩ := clausesOn_ok K h
  obtain ⟨ls, e2, h2⟩ := zeroOn_ok h
  obtain ⟨q, hi⟩ := h.holds.ready.inv
  refine ⟨cs ++ ls ++ if m.y.s.ok then [] else [.fls], by unfold Mini.formulaOnSolver; rw [e1, e2], fun σ => ?_⟩
  have hsplit : (∀ g ∈ cs ++ ls ++ if m.y.s.ok then [] else [.fls], g.eval σ = true) ↔ ((∀ g ∈ cs, g.eval σ = true) ∧ ∀ g ∈ ls, g.eval σ = true) ∧ m.y.s.ok = true := by
    rw [List.forall_mem_append, List.forall_mem_append]
    refine and_congr_right fun _ => ?_
    cases m.y.s.ok <;> simp [Formula.eval]
  rw [hsplit, h1, h2, ← models_num h.over]
  constructor
  · rintro ⟨⟨k1, k2⟩, k3⟩
    refine hi.eqv k3 _ k1 fun x hx h0 => ?_
    obtain ⟨k, hk, _⟩ := hi.inv.twf.le x hx
    have hk0 : k = 0 := by
      unfold Core.lv at h0
      rw [hk] at h0
      exact h0
    have hv := (hi.inv.val x).2 hx
    unfold Core.value at hv
    obtain ⟨b, hb, hbx⟩ := Option.map_eq_some_iff.1 hv
    rw [litT_iff, k2 (vr x) (vr_lt.2 (hi.inv.rng x hx)) (by rw [hk, hk0]), hb]
    cases b <;> cases hs : sgn x <;> rw [hs] at hbx <;> first | rfl | cases hbx
  · intro hM
    refine ⟨⟨fun id hid => (hi.inv.good id (.inl hid)).1.ent _ hM, fun i hin h0 => ?_⟩, ?_⟩
    · cases hb : m.y.s.asg i with
      | none => exact absurd hb (hz.zero i h0)
      | some b =>
        have hx : mkLit i (!b) ∈ m.y.s.trail := by
          rw [← hi.inv.val]
          unfold Core.value
          rw [vr_mkLit, sgn_mkLit, hb]
          cases b <;> rfl
        have := (hi.inv.zero _ hx (by unfold Core.lv; rw [vr_mkLit, h0]; rfl)).lit hM
        rw [litT_iff, vr_mkLit, sgn_mkLit] at this
        rw [this]
        cases b <;> rfl
    · by_contra hok
      exact h.holds.ready.bad (by simpa using hok) _ hM

theorem takeWhile_all {α : Type} {p : α → Bool} : ∀ {l : List α}, (∀ a ∈ l, p a = true) → l.takeWhile p = l
  | [], _ => rfl
  | a :: l, h => by
    rw [List.takeWhile_cons, if_pos (h a List.mem_cons_self), takeWhile_all fun b hb => h b (List.mem_cons_of_mem _ hb)]

/-- Literals propagated on level 0 are implied by the clauses added. -/
theorem upZero_ok (h : NHolds C Y m) : ∃ ls, m.upZeroLiterals = some ls ∧ (∀ l ∈ ls, l.v ∈ Y.names ∧ ∀ σ, Sats σ Y.cls → l.eval σ = true) ∧
    ∀ l, l.v ∈ Y.names → (l ∈ ls ↔ enc Y.names l ∈ m.y.s.trail) := by
  obtain ⟨q, hi⟩ := h.holds.ready.inv
  have hn : m.y.s.nvars = Y.names.length := h.holds.nvars
  have h0 : ∀ l ∈ m.y.s.trail, m.y.s.lv l = 0 := fun l hl => by
    have := hi.inv.lv_le hl
    rw [h.holds.ready.lim] at this
    exact Nat.le_zero.1 this
  have hu : m.y.s.upZero = m.y.s.trail.reverse := by
    unfold St.upZero
    exact takeWhile_all fun l hl => decide_eq_true (h0 l (List.mem_reverse.1 hl))
  have hr : ∀ l ∈ m.y.s.trail, vr l < Y.names.length := fun l hl => by rw [← hn]; exact vr_lt.2 (hi.inv.rng l hl)
  have e : m.upZeroLiterals = some (m.y.s.trail.reverse.map fun l => ⟨nm Y.names (vr l), !sgn l⟩) := by
    unfold Mini.upZeroLiterals
    rw [hu]
    refine VarOrd.mapM_map _ fun l hl => ?_
    unfold Mini.nameLit
    rw [h.names, nm_eq (hr l (List.mem_reverse.1 hl))]
    rfl
  have hidx : ∀ i, i < Y.names.length → Y.names.idxOf (nm Y.names i) = i := by
    intro i hi
    have : nm Y.names i = Y.names[i] := by unfold nm; rw [List.getElem?_eq_getElem hi]; rfl
    rw [this]
    exact h.nodup.idxOf_getElem i hi
  refine ⟨_, e, fun k hk => ?_, fun k hk => ?_⟩
  · obtain ⟨l, hl, rfl⟩ := List.mem_map.1 hk
    have hl := List.mem_reverse.1 hl
    refine ⟨?_, fun σ hσ => (lit_nm (hr l hl) σ _).2 ?_⟩
    · show nm Y.names (vr l) ∈ Y.names
      exact List.mem_of_getElem? (nm_eq (hr l hl))
    · exact litT_iff.1 ((hi.inv.zero l hl (h0 l hl)).lit ((models_num h.over).2 hσ))
  · constructor
    · intro hm
      obtain ⟨l, hl, rfl⟩ := List.mem_map.1 hm
      have hl := List.mem_reverse.1 hl
      unfold enc
      dsimp only
      rw [hidx _ (hr l hl), Bool.not_not, mkLit_vr]
      exact hl
    · intro hm
      refine List.mem_map.2 ⟨_, List.mem_reverse.2 hm, ?_⟩
      unfold enc
      rw [vr_mkLit, sgn_mkLit, Bool.not_not]
      have : nm Y.names (Y.names.idxOf k.v) = k.v := by
        unfold nm
        rw [List.getElem?_idxOf hk]
        rfl
      rw [this]

/-! ### C63 -/

variable {E : Env F} {c : AuxTy → Nat} {X : FSpec} {x : FMini F}

/-- The specification and the solver after a sequence of calls as in `FRuns`, none of which loads a state. -/
inductive LRuns (E : Env F) (c : AuxTy → Nat) : FSpec → FMini F → Prop
  | new : LRuns E c .empty ⟨.new E.C, fun _ => none, World.fresh c, []⟩
  | world {X x w es} : LRuns E c X x → WStep E.K E.cfg x.w x.es w es → LRuns E c X { x with w := w, es := es }
  | add {X x x' f} : LRuns E c X x → Input E.cfg x.w.cnt f → x.add E f = .ok x' → LRuns E c { X with fs := X.fs ++ [f] } x'
  | addProp {X x x' f} : LRuns E c X x → Input E.cfg x.w.cnt f → x.addProp E f = .ok x' → LRuns E c { X with fs := X.fs ++ [f] } x'
  | solve {X x m fuel sel as b} : LRuns E c X x → x.m.solve E.C fuel sel as = .ok (m, b) → LRuns E c X { x with m := m }
  | save {X x m k} : LRuns E c X x → E.C.incremental = true → x.m.save E.C = .ok (m, k) → LRuns E c X.save { x with m := m }
  | reset {X : FSpec} {x : FMini F} : LRuns E c X x → X.saved = [] → LRuns E c { X with fs := [] } (x.reset E)

theorem LRuns.runs (h : LRuns E c X x) : FRuns E c X x := by
  induction h with
  | new => exact .new
  | world _ h ih => exact ih.world h
  | add _ h e ih => exact ih.add h e
  | addProp _ h e ih => exact ih.addProp h e
  | solve _ e ih => exact ih.solve e
  | save _ h e ih => exact ih.save h e
  | reset _ hs ih => exact ih.reset hs

theorem LRuns.zero (h : LRuns E c X x) : ZInv x.m.y.s.toCore := by
  induction h with
  | new => exact ⟨fun v hv => (by cases hv), fun x hx => (by cases hx), Nat.le_refl _, fun n hn => (by cases hn)⟩
  | world _ _ ih => exact ih
  | add _ _ e ih => exact add_zg e ih
  | addProp _ _ e ih => exact addProp_zg e ih
  | solve _ e ih => exact solve_mzg e ih
  | save _ _ e ih => exact save_zg e ih
  | reset _ _ _ => exact ⟨fun v hv => (by cases hv), fun x hx => (by cases hx), Nat.le_refl _, fun n hn => (by cases hn)⟩

/-- C63: as long as no state has been loaded, `formula_on_solver` does not panic, its result implies all formulas added, and each assignment that satisfies the formulas added can be
extended to the auxiliary variables such that the result holds.  Partial: see `C63_loaded_wrong` for the rest, and `Props/SatFun.lean` for clause minimization. -/
theorem C63_formula_on_solver_partial (hm : E.C.clauseMin ≠ .none) (hcfg : E.cfg.cc.Good) (h : LRuns E c X x) : ∃ L, x.m.formulaOnSolver E.K = some L ∧
    (∀ σ, (∀ g ∈ L, g.eval σ = true) → X.Sat σ) ∧
    (X.Over c → ∀ σ, X.Sat σ → ∃ σ', (∀ v, Verif.Known c v → σ' v = σ v) ∧ ∀ g ∈ L, g.eval σ' = true) := by
  obtain ⟨Y, G, i⟩ := h.runs.inv hm hcfg
  obtain ⟨L, e, hL⟩ := onSolver_ok E.K (i.runs.holds hm) h.zero
  refine ⟨L, e, fun σ hσ => i.models.1 σ ((hL σ).1 hσ), fun hX σ hσ => ?_⟩
  obtain ⟨σ', hag, hs⟩ := i.models.2 hX σ hσ
  exact ⟨σ', hag, (hL σ').2 hs⟩

/-- C63: after every sequence of calls, also with states loaded, `up_zero_literals` does not panic, and the literals over variables of the user have the same value in all models of
the formulas added. -/
theorem C63_up_zero_partial (hm : E.C.clauseMin ≠ .none) (hcfg : E.cfg.cc.Good) (h : FRuns E c X x) (hX : X.Over c) : ∃ ls, x.m.upZeroLiterals = some ls ∧
    ∀ l ∈ ls, Verif.Known c l.v → FForced X l.v l.pos := by
  obtain ⟨Y, G, i⟩ := h.inv hm hcfg
  obtain ⟨ls, e, hl, _⟩ := upZero_ok (i.runs.holds hm)
  refine ⟨ls, e, fun l hm hk σ hσ => ?_⟩
  obtain ⟨σ', hag, hs⟩ := i.models.2 hX σ hσ
  have := (hl l hm).2 σ' hs
  unfold Lit.eval at this
  rw [hag _ hk] at this
  cases hp : l.pos <;> rw [hp] at this <;> simpa using this

/-- All names are known. -/
theorem known_all (h : NHolds C Y m) : m.knownVariables = m.names := by
  have hn : m.y.s.nvars = m.names.length := by rw [h.names]; exact h.holds.nvars
  unfold Mini.knownVariables
  rw [List.filter_eq_self]
  intro v hv
  rw [hn]
  exact decide_eq_true (List.idxOf_lt_length_of_mem hv)

/-- C63: the variables known to the solver stay known when a formula is added, and all variables of the formula become known, whether or not they occur in clauses. -/
theorem C63_known_variables_partial (hm : E.C.clauseMin ≠ .none) (hcfg : E.cfg.cc.Good) (h : FRuns E c X x) {f : Formula} (hin : Input E.cfg x.w.cnt f) {x' : FMini F}
    (e : x.add E f = .ok x') : (∀ v ∈ x.m.knownVariables, v ∈ x'.m.knownVariables) ∧ ∀ v, Occ v f → v ∈ x'.m.knownVariables := by
  obtain ⟨Y, G, i⟩ := (h.add hin e).inv hm hcfg
  rw [known_all (i.runs.holds hm)]
  obtain ⟨h1, h2⟩ := add_names e
  exact ⟨fun v hv => h2 v (List.mem_filter.1 hv).1, fun v hv => h1 v (((vars_val f).1 v).2 hv)⟩

/-- C63: after `reset`, if no state had been saved, the solver behaves as one to which nothing has been added: it knows no variable, its formula is empty, and each set of
assumptions that does not contradict itself is satisfiable. -/
theorem C63_reset_partial (hm : E.C.clauseMin ≠ .none) (hcfg : E.cfg.cc.Good) (h : FRuns E c X x) (hs : X.saved = []) :
    (x.reset E).m.knownVariables = [] ∧ (x.reset E).m.formulaOnSolver E.K = some [] ∧
    ∀ fuel sel as m, (x.reset E).m.solve E.C fuel sel as = .ok (m, false) → (∀ a ∈ as, Verif.Known c a.v) → ∀ σ : Asg, ¬ ∀ a ∈ as, a.eval σ = true := by
  refine ⟨rfl, rfl, fun fuel sel as m e has σ ha => ?_⟩
  exact C56_unsat_partial hm hcfg (h.reset hs) (fun f hf => by cases hf) has e σ (fun f hf => by cases hf) ha

end

/-! ### Examples and counterexamples -/

/-- `A | B` -/
def exAB : Formula := .or [.lit vA.p, .lit vB.p]

theorem exAB_in (w : AuxTy → Nat) : Input (exFCfg .swc true) w exAB := inB_ok (n := 3) (by decide)

theorem exA_in (w : AuxTy → Nat) : Input (exFCfg .swc true) w (.lit vA.p) := inB_ok (n := 1) (by decide)

theorem exMin (me : CnfMethod) : (exEnv me).C.clauseMin ≠ .none := by unfold exEnv demoM demoCfg; exact fun h => by cases h

/-- The solver after `A | B` has been added, a state has been saved and `A` has been added. -/
theorem exAB_runs (me : CnfMethod) (p : FMini Int → Bool) (h : (okB (FMini.add (exEnv me) exAB exNew) fun x => okB (x.m.save demoM) fun r =>
    okB (FMini.add (exEnv me) (.lit vA.p) { x with m := r.1 }) p) = true) :
    ∃ x, LRuns (exEnv me) (fun _ => 7) ⟨[exAB, .lit vA.p], [(0, [exAB])], 1⟩ x ∧ p x = true := by
  obtain ⟨x, e1, h1⟩ := okB_ok h
  obtain ⟨⟨m, k⟩, e2, h2⟩ := okB_ok h1
  obtain ⟨y, e3, h3⟩ := okB_ok h2
  exact ⟨y, (((LRuns.new.add (E := exEnv me) (exAB_in _) e1).save rfl e2).add (exA_in _) e3), h3⟩

/-- The hypotheses of the theorems for the formula on the solver and the literals of level 0: both are as expected. -/
example (me : CnfMethod) : ∃ X x, LRuns (exEnv me) (fun _ => 7) X x ∧ X.Over (fun _ => 7) ∧ X.fs = [exAB, .lit vA.p] ∧
    x.m.formulaOnSolver canon0 = some [exAB, .lit vA.p] ∧ x.m.upZeroLiterals = some [vA.p] ∧ x.m.knownVariables = [vA, vB] := by
  obtain ⟨x, h, hp⟩ := exAB_runs me (fun x => decide (x.m.formulaOnSolver canon0 = some [exAB, .lit vA.p]) &&
    (decide (x.m.upZeroLiterals = some [vA.p]) && decide (x.m.knownVariables = [vA, vB]))) (by cases me <;> decide +kernel)
  simp only [Bool.and_eq_true, decide_eq_true_eq] at hp
  refine ⟨_, x, h, fun f hf => ?_, rfl, hp.1, hp.2.1, hp.2.2⟩
  simp only [List.mem_cons, List.not_mem_nil, or_false] at hf
  rcases hf with rfl | rfl
  · exact (exAB_in _).known
  · exact (exA_in _).known

/-- C63 does not hold once a state has been loaded: `A | B` is added, a state saved, `A` added and the state loaded.  The solver now holds `A | B` only, but the formula on the
solver has the literal `~A`, since variable `A` still has level 0 though it is not assigned.  So the formula is false of an assignment that satisfies all formulas added. -/
theorem C63_loaded_wrong (me : CnfMethod) : ∃ X x L, FRuns (exEnv me) (fun _ => 7) X x ∧ X.fs = [exAB] ∧ X.Over (fun _ => 7) ∧ x.m.formulaOnSolver canon0 = some L ∧
    ∃ σ, X.Sat σ ∧ ∀ σ', (∀ v, Verif.Known (fun _ => 7) v → σ' v = σ v) → ¬ ∀ g ∈ L, g.eval σ' = true := by
  obtain ⟨x, h, hp⟩ := exAB_runs me (fun x => separateB x.m.y 0 && okB (x.load (exEnv me) 0) fun y => decide (y.m.formulaOnSolver canon0 = some [exAB, .lit vA.n]))
    (by cases me <;> decide +kernel)
  simp only [Bool.and_eq_true] at hp
  obtain ⟨y, e, h2⟩ := okB_ok hp.2
  refine ⟨_, y, _, h.runs.load rfl (separateB_ok hp.1) rfl e, rfl, ?_, of_decide_eq_true h2, fun _ => true, ?_, fun σ' hag hL => ?_⟩
  · intro f hf
    rw [List.mem_singleton.1 hf]
    exact (exAB_in _).known
  · intro f hf
    rw [List.mem_singleton.1 hf]
    rfl
  · have h1 := hL (.lit vA.n) (by simp)
    have h2 := hag vA trivial
    rw [Formula.eval_lit] at h1
    unfold Lit.eval at h1
    simp only [Var.n, Bool.false_eq_true, if_false] at h1
    rw [h2] at h1
    cases h1

/-- `reset` keeps the states valid: `A` is added, a state saved, the solver reset and the state loaded.  Nothing panics, and the state loaded does not hold `A`: there is a model
with the assumption `~A`. -/
theorem C63_reset_wrong (me : CnfMethod) : ∃ X x y m, FRuns (exEnv me) (fun _ => 7) X x ∧ X.saved = [(0, [.lit vA.p])] ∧ (x.reset (exEnv me)).load (exEnv me) 0 = .ok y ∧
    y.m.solve demoM 100 [] [vA.n] = .ok (m, true) := by
  have h : (okB (FMini.add (exEnv me) (.lit vA.p) exNew) fun x => okB (x.m.save demoM) fun r =>
      okB ((FMini.reset (exEnv me) { x with m := r.1 }).load (exEnv me) 0) fun y => okB (y.m.solve demoM 100 [] [vA.n]) fun r => r.2) = true := by cases me <;> decide +kernel
  obtain ⟨x, e1, h1⟩ := okB_ok h
  obtain ⟨⟨m, k⟩, e2, h2⟩ := okB_ok h1
  obtain ⟨y, e3, h3⟩ := okB_ok h2
  obtain ⟨⟨m', b⟩, e4, h4⟩ := okB_ok h3
  dsimp only at h4
  subst h4
  exact ⟨_, _, y, m', ((FRuns.new.add (E := exEnv me) (exA_in _) e1).save rfl e2), rfl, e3, e4⟩

/-- The hypotheses of `C63_reset_partial`: without states, and the solver had formulas. -/
example (me : CnfMethod) : ∃ X x, FRuns (exEnv me) (fun _ => 7) X x ∧ X.saved = [] ∧ X.fs = [exAB] ∧ x.m.knownVariables = [vA, vB] ∧
    ∃ m, (x.reset (exEnv me)).m.solve demoM 100 [] [vA.n, vA.p] = .ok (m, false) := by
  have h : (okB (FMini.add (exEnv me) exAB exNew) fun x => decide (x.m.knownVariables = [vA, vB]) &&
      okB ((x.reset (exEnv me)).m.solve demoM 100 [] [vA.n, vA.p]) fun r => !r.2) = true := by cases me <;> decide +kernel
  obtain ⟨x, e1, h1⟩ := okB_ok h
  simp only [Bool.and_eq_true, decide_eq_true_eq] at h1
  obtain ⟨⟨m', b⟩, e4, h4⟩ := okB_ok h1.2
  cases b
  · exact ⟨_, x, FRuns.new.add (E := exEnv me) (exAB_in _) e1, rfl, rfl, h1.1, m', e4⟩
  · cases h4
end Verif.Sat
