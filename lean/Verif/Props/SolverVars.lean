import Verif.Props.EnumF
import Verif.Props.OnSolver
/-
Property C86: adding a formula to a solver makes no variables known but those of the formula and auxiliary ones.

As specification only `Occ` and `knownVariables` are used; `FRuns E c X x` says that the solver and the factory are in a state reached by any sequence of calls
(Sat/AddFOk.lean).
-/
namespace Verif.Sat
open St

section
variable {F : Type} [LinearOrder F] [Flt F] {E : Env F} {c : AuxTy → Nat} {X : FSpec} {x x' : FMini F} {Y : NSpec} {G : List Verif.Ent} {f : Formula}

/-- The variables in the cache of Plaisted and Greenbaum are auxiliary. -/
def CacheAux (x : FMini F) : Prop := ∀ g e, x.cache g = some e → ∃ t k, e.v = .aux t k

/-- The variables of the solver after adding `f`. -/
def OnlyNew (x x' : FMini F) (f : Formula) : Prop := ∀ u ∈ x'.m.names, u ∈ x.m.names ∨ Occ u f ∨ ∃ t k, u = .aux t k

theorem litsOf_occ (d : Formula) : ∀ l ∈ litsOf d, Occ l.v d := by
  intro l hl
  cases d with
  | lit k => rw [litsOf, List.mem_singleton] at hl; rw [hl]; exact (Formula.occ_lit ..).2 rfl
  | nary o fs =>
    obtain ⟨g, hg, hl⟩ := List.mem_filterMap.1 hl
    split at hl
    · cases hl; exact (Formula.occ_nary ..).2 ⟨_, hg, (Formula.occ_lit ..).2 rfl⟩
    · cases hl
  | _ => cases hl

theorem known_only {x0 : FMini F} {m : Mini F} (h : FMini.known E f x0 (.ok m) = .ok x') : x'.cache = x0.cache ∧ ∀ u ∈ x'.m.names, u ∈ m.names ∨ Occ u f := by
  unfold FMini.known at h
  simp only at h
  split at h
  · cases h
  · cases h
  · rename_i h1
    cases h
    exact ⟨rfl, fun u hu => (knowAll_only h1 u hu).imp_right (((vars_val f).1 u).1)⟩

theorem add_step (hcfg : E.cfg.cc.Good) (i : FInv E c X x Y G) (hca : CacheAux x) (hin : Input E.cfg x.w.cnt f) (e : x.add E f = .ok x') : CacheAux x' ∧ OnlyNew x x' f := by
  have factory : x.addFactory E f = .ok x' → CacheAux x' ∧ OnlyNew x x' f := by
    intro e
    obtain ⟨g, s', w', G', e1, _, _, _, k⟩ := transform_ok (C := E.K) hcfg E.alg i.pg.w (EncInv.stateless _ _) hin.top
    unfold FMini.addFactory at e
    simp only [e1] at e
    split at e
    · cases e
    · rename_i L eL
      obtain ⟨m, e2⟩ := known_ok e
      rw [e2] at e
      obtain ⟨h1, h2⟩ := known_only e
      refine ⟨fun g e => by rw [h1]; exact hca g e, fun u hu => ?_⟩
      rcases h2 u hu with hu | hu
      · refine (addAll_only e2 u hu).imp_right ?_
        rintro ⟨d, hd, l, hl, rfl⟩
        exact k.aux _ (PgVars.cnfClauses_vars litsOf_occ eL d hd l hl)
      · exact .inr (.inl hu)
  have pg : ∀ full, x.addPg E full f = .ok x' → CacheAux x' ∧ OnlyNew x x' f := by
    intro full e
    unfold FMini.addPg at e
    split at e
    · cases e
    · rename_i s e1
      obtain ⟨m, e2⟩ := known_ok e
      rw [e2] at e
      obtain ⟨h1, h2⟩ := known_only e
      obtain ⟨h3, h4⟩ := PgVars.addCnfToSolver_vars hcfg i.pg.w full hin.top hca e1
      refine ⟨fun g e => by rw [h1]; exact h3 g e, fun u hu => ?_⟩
      rcases h2 u hu with hu | hu
      · refine (addAll_only e2 u hu).imp_right ?_
        rintro ⟨d, hd, l, hl, rfl⟩
        exact h4 d hd l hl
      · exact .inr (.inl hu)
  unfold FMini.add at e
  cases f with
  | cc k =>
    change x.addCc E k = .ok x' at e
    unfold FMini.addCc at e
    split at e
    · rename_i s es
      obtain ⟨m, e2⟩ := known_ok e
      rw [e2] at e
      obtain ⟨h1, h2⟩ := known_only e
      have hk := encodeConstraint_clean (newPbVars (c0 := x.w.cnt) (· ∈ k.vars)).toNewVars (cER_clean fun _ => Nat.le_refl _) (fun v hv => .inl hv) es
      refine ⟨fun g e => by rw [h1]; exact hca g e, fun u hu => ?_⟩
      rcases h2 u hu with hu | hu
      · refine (write_only e2 u hu).imp_right ?_
        rintro (hu | ⟨d, hd, l, hl, rfl⟩)
        · exact .inr hu
        · rcases hk.cl d hd l hl with h | ⟨k, _, h⟩ | ⟨k, _, h⟩ | h
          · exact .inl ((Formula.occ_cc ..).2 h)
          · exact .inr ⟨_, _, h⟩
          · exact .inr ⟨_, _, h⟩
          · exact .inr ⟨_, _, h⟩
      · exact .inr (.inl hu)
    · cases e
  | _ =>
    cases hme : E.me with
    | factory => simp only [hme] at e; exact factory e
    | pg => simp only [hme] at e; exact pg false e
    | fullPg => simp only [hme] at e; exact pg true e

theorem addProp_step (hcfg : E.cfg.cc.Good) (i : FInv E c X x Y G) (hca : CacheAux x) (hin : Input E.cfg x.w.cnt f) (e : x.addProp E f = .ok x') :
    CacheAux x' ∧ OnlyNew x x' f := by
  have pg : ∀ full, (match addCnfToSolver E.K E.cfg full f ⟨x.cache, x.w, []⟩ with
      | none => .panic
      | some s =>
        match x.m.addAll E.C s.out with
        | .ok m => .ok ⟨m, s.cache, s.w, x.es⟩
        | .panic => .panic
        | .diverge => .diverge : Res (FMini F)) = .ok x' → CacheAux x' ∧ OnlyNew x x' f := by
    intro full e
    split at e
    · cases e
    · rename_i s e1
      obtain ⟨h3, h4⟩ := PgVars.addCnfToSolver_vars hcfg i.pg.w full hin.top hca e1
      split at e
      · rename_i m e2
        cases e
        refine ⟨h3, fun u hu => (addAll_only e2 u hu).imp_right ?_⟩
        rintro ⟨d, hd, l, hl, rfl⟩
        exact h4 d hd l hl
      · cases e
      · cases e
  unfold FMini.addProp at e
  cases hme : E.me with
  | factory =>
    simp only [hme] at e
    obtain ⟨g, s', w', G', e1, _, _, _, k⟩ := transform_ok (C := E.K) hcfg .factorization i.pg.w (EncInv.stateless _ _) hin.top
    simp only [e1] at e
    split at e
    · cases e
    · rename_i L eL
      split at e
      · rename_i m e2
        cases e
        refine ⟨hca, fun u hu => (addAll_only e2 u hu).imp_right ?_⟩
        rintro ⟨d, hd, l, hl, rfl⟩
        exact k.aux _ (PgVars.cnfClauses_vars litsOf_occ eL d hd l hl)
      · cases e
      · cases e
  | pg => simp only [hme] at e; exact pg _ e
  | fullPg => simp only [hme] at e; exact pg _ e

theorem FRuns.cacheAux (hm : E.C.clauseMin ≠ .none) (hcfg : E.cfg.cc.Good) (h : FRuns E c X x) : CacheAux x := by
  induction h with
  | new => intro g e h; cases h
  | world _ _ ih => exact ih
  | add h hin e ih =>
    obtain ⟨Y, G, i⟩ := h.inv hm hcfg
    exact (add_step hcfg i ih hin e).1
  | addProp h hin e ih =>
    obtain ⟨Y, G, i⟩ := h.inv hm hcfg
    exact (addProp_step hcfg i ih hin e).1
  | solve _ _ ih => exact ih
  | save _ _ _ ih => exact ih
  | load _ _ _ _ e _ =>
    unfold FMini.load at e
    split at e
    · cases e; intro g e h; cases h
    · cases e
    · cases e
  | enumerate _ _ _ _ _ => intro g e h; cases h
  | backbone _ _ ih =>
    intro g e h
    simp only at h
    split at h
    · cases h
    · exact ih g e h
  | optimize _ _ _ _ _ _ => intro g e h; cases h
  | reset _ _ _ => intro g e h; cases h

/-- C86: in any state of the solver and the factory, adding a formula, with any method and also with constraints in the formula, makes the variables of the formula known, and
no other named variable. -/
theorem C86_add (hm : E.C.clauseMin ≠ .none) (hcfg : E.cfg.cc.Good) (h : FRuns E c X x) (hin : Input E.cfg x.w.cnt f) :
    ∃ x', x.add E f = .ok x' ∧ ∀ n, .named n ∈ x'.m.knownVariables ↔ .named n ∈ x.m.knownVariables ∨ Occ (.named n) f := by
  obtain ⟨Y, G, i⟩ := h.inv hm hcfg
  obtain ⟨x', e, Y', G', i', _⟩ := i.add hm hcfg hin
  refine ⟨x', e, fun n => ?_⟩
  rw [known_all (i.runs.holds hm), known_all (i'.runs.holds hm)]
  obtain ⟨h1, h2⟩ := add_names e
  constructor
  · intro hn
    rcases (add_step hcfg i (h.cacheAux hm hcfg) hin e).2 _ hn with hn | hn | ⟨_, _, hn⟩
    · exact .inl hn
    · exact .inr hn
    · cases hn
  · rintro (hn | hn)
    · exact h2 _ hn
    · exact h1 _ (((vars_val f).1 _).2 hn)

/-- C86 for propositions: only variables of the formula become known (not necessarily all of them). -/
theorem C86_add_proposition (hm : E.C.clauseMin ≠ .none) (hcfg : E.cfg.cc.Good) (h : FRuns E c X x) (hin : Input E.cfg x.w.cnt f) {x' : FMini F} (e : x.addProp E f = .ok x') :
    ∀ n, .named n ∈ x'.m.knownVariables → .named n ∈ x.m.knownVariables ∨ Occ (.named n) f := by
  obtain ⟨Y, G, i⟩ := h.inv hm hcfg
  obtain ⟨Y', G', i'⟩ := (h.addProp hin e).inv hm hcfg
  intro n hn
  rw [known_all (i'.runs.holds hm)] at hn
  rw [known_all (i.runs.holds hm)]
  rcases (addProp_step hcfg i (h.cacheAux hm hcfg) hin e).2 _ hn with hn | hn | ⟨_, _, hn⟩
  · exact .inl hn
  · exact .inr hn
  · cases hn

/-- C86 for `add_all` (minisat_solver.rs:86-90): no panic, and the named variables known afterwards are those known before and those of the formulas. -/
theorem C86_add_all (hm : E.C.clauseMin ≠ .none) (hcfg : E.cfg.cc.Good) (fs : List Formula) : ∀ {X : FSpec} {x : FMini F}, FRuns E c X x → (∀ f ∈ fs, Input E.cfg c f) →
    ∃ x', addFs E fs x = .ok x' ∧ FRuns E c { X with fs := X.fs ++ fs } x' ∧
      ∀ n, .named n ∈ x'.m.knownVariables ↔ .named n ∈ x.m.knownVariables ∨ ∃ f ∈ fs, Occ (.named n) f := by
  induction fs with
  | nil => intro X x h _; exact ⟨x, rfl, by simpa using h, by simp⟩
  | cons f fs ih =>
    intro X x h hin
    obtain ⟨Y, G, i⟩ := h.inv hm hcfg
    have hf := Input.le (hin f (by simp)) i.pg.w.base.le
    obtain ⟨x1, e1, h1⟩ := C86_add hm hcfg h hf
    obtain ⟨x2, e2, r2, h2⟩ := ih (h.add hf e1) fun g hg => hin g (by simp [hg])
    refine ⟨x2, ?_, by simpa using r2, fun n => ?_⟩
    · rw [addFs, e1]; exact e2
    · rw [h2, h1, or_assoc]; simp

end

/-! ### Cases that meet the hypotheses -/

/-- A new solver, with each method. -/
example (me : CnfMethod) : ∃ x', FMini.add (exEnv me) exAB exNew = .ok x' ∧ ∀ n, .named n ∈ x'.m.knownVariables ↔ .named n ∈ (exNew).m.knownVariables ∨ Occ (.named n) exAB :=
  C86_add (E := exEnv me) (c := fun _ => 7) (by cases me <;> decide) trivial .new (exAB_in _)

/-- After a formula with a pseudo-Boolean constraint, exactly its variables and `A`, `B` of the formula before are known besides auxiliary ones. -/
example (me : CnfMethod) : okB (FMini.add (exEnv me) exAB exNew) (fun x => okB (x.add (exEnv me) exTc) fun x' =>
    decide ((List.range 20).filter (fun n => decide (.named n ∈ x'.m.knownVariables)) = [0, 1, 2, 5]) && decide (4 < x'.m.knownVariables.length)) = true := by
  cases me <;> decide +kernel

/-- Two formulas added at once, the second with a pseudo-Boolean constraint. -/
example (me : CnfMethod) : ∃ x', addFs (exEnv me) [exAB, exTc] exNew = .ok x' ∧
    ∀ n, .named n ∈ x'.m.knownVariables ↔ .named n ∈ (exNew).m.knownVariables ∨ ∃ f ∈ [exAB, exTc], Occ (.named n) f := by
  obtain ⟨x', e, _, h⟩ := C86_add_all (E := exEnv me) (c := fun _ => 7) (by cases me <;> decide) trivial [exAB, exTc] .new fun f hf => by
    simp only [List.mem_cons, List.not_mem_nil, or_false] at hf
    rcases hf with rfl | rfl
    · exact exAB_in _
    · exact exTc_input
  exact ⟨x', e, h⟩

end Verif.Sat
