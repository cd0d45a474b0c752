import Verif.Sat.EnumF
import Verif.Sat.OnSolver
import Verif.F.PgVars
import Verif.F.EncVars
import Verif.F.ModelCount
import Mathlib.Algebra.BigOperators.Ring.Finset
import Verif.Props.TermFun
/-
Property C83: `enumerate_models_for_formula` and `enumerate_models_for_formula_with_config` enumerate the models of the formula.

As specification only `Formula.eval` and `AgreesOn` are used.  `PRuns E c s` says that the factory is in a state reached by any sequence of calls (Props/SatPred.lean).
-/
namespace Verif.Sat
open St
open scoped BigOperators

section
variable {F : Type} [LinearOrder F] [Flt F] {C : MCfg F}

/-! ### Names on the solver come from clauses and formulas -/

theorem know_only {phase : Bool} {v : Var} {m m' : Mini F} (h : m.know C phase v = .ok m') : ∀ u ∈ m'.names, u ∈ m.names ∨ u = v := by
  unfold Mini.know at h
  split at h
  · cases h; exact fun _ hu => .inl hu
  · split at h
    · cases h; exact fun u hu => (List.mem_append.1 hu).imp_right List.mem_singleton.1
    · cases h
    · cases h

theorem genLits_only {ls : List Lit} : ∀ {m : Mini F} {x : Mini F × List Nat}, m.genLits C ls = .ok x → ∀ u ∈ x.1.names, u ∈ m.names ∨ ∃ l ∈ ls, u = l.v := by
  induction ls with
  | nil => intro m x h; cases h; exact fun _ hu => .inl hu
  | cons l ls ih =>
    intro m x h
    unfold Mini.genLits at h
    split at h
    · rename_i h1
      unfold Mini.genLit at h1
      split at h1
      · rename_i h2
        cases h1
        split at h
        · rename_i h3
          cases h
          intro u hu
          rcases ih h3 u hu with hu | ⟨k, hk, rfl⟩
          · exact (know_only h2 u hu).imp_right fun e => ⟨l, by simp, e⟩
          · exact .inr ⟨k, by simp [hk], rfl⟩
        · cases h
        · cases h
      · cases h1
      · cases h1
    · cases h
    · cases h

theorem addClause_only {c : Clause} {m m' : Mini F} (h : m.addClause C c = .ok m') : ∀ u ∈ m'.names, u ∈ m.names ∨ ∃ l ∈ c, u = l.v := by
  unfold Mini.addClause at h
  split at h
  · rename_i h1
    split at h
    · cases h; exact genLits_only h1
    · cases h
    · cases h
  · cases h
  · cases h

theorem addAll_only {cs : List Clause} : ∀ {m m' : Mini F}, m.addAll C cs = .ok m' → ∀ u ∈ m'.names, u ∈ m.names ∨ ∃ c ∈ cs, ∃ l ∈ c, u = l.v := by
  induction cs with
  | nil => intro m m' h; cases h; exact fun _ hu => .inl hu
  | cons c cs ih =>
    intro m m' h
    unfold Mini.addAll at h
    split at h
    · rename_i h1
      intro u hu
      rcases ih h u hu with hu | ⟨d, hd, k⟩
      · exact (addClause_only h1 u hu).imp_right fun k => ⟨c, by simp, k⟩
      · exact .inr ⟨d, by simp [hd], k⟩
    · cases h
    · cases h

theorem knowAll_only {phase : Bool} {vs : List Var} : ∀ {m m' : Mini F}, m.knowAll C phase vs = .ok m' → ∀ u ∈ m'.names, u ∈ m.names ∨ u ∈ vs := by
  induction vs with
  | nil => intro m m' h; cases h; exact fun _ hu => .inl hu
  | cons v vs ih =>
    intro m m' h
    unfold Mini.knowAll at h
    split at h
    · rename_i h1
      intro u hu
      rcases ih h u hu with hu | hu
      · exact (know_only h1 u hu).imp_right fun e => by simp [e]
      · exact .inr (by simp [hu])
    · cases h
    · cases h

theorem write_only {s s' : ER} {m m' : Mini F} (h : m.write C s s' = .ok m') : ∀ u ∈ m'.names, u ∈ m.names ∨ (∃ t k, u = .aux t k) ∨ ∃ c ∈ s'.clauses, ∃ l ∈ c, u = l.v := by
  unfold Mini.write at h
  split at h
  · rename_i m1 h1
    intro u hu
    rcases addAll_only h u hu with hu | ⟨d, hd, k⟩
    · refine (knowAll_only h1 u hu).imp_right fun hu => .inl ?_
      obtain ⟨t, _, hu⟩ := List.mem_flatMap.1 hu
      obtain ⟨i, _, rfl⟩ := List.mem_map.1 hu
      exact ⟨_, _, rfl⟩
    · exact .inr (.inr ⟨d, List.mem_of_mem_drop hd, k⟩)
  · cases h
  · cases h

/-- The same for a single cardinality constraint. -/
theorem addCc_only {E : Env F} {x0 x : FMini F} {k : CC} (h0 : x0.m.names = []) (e : x0.addCc E k = .ok x) : ∀ u ∈ x.m.names, Occ u (.cc k) ∨ ∃ t k, u = .aux t k := by
  unfold FMini.addCc at e
  split at e
  · rename_i s es
    obtain ⟨m, e2⟩ := known_ok e
    rw [e2] at e
    unfold FMini.known at e
    simp only at e
    split at e
    · cases e
    · cases e
    · rename_i m' e3
      cases e
      have hk := encodeConstraint_clean (newPbVars (c0 := x0.w.cnt) (· ∈ k.vars)).toNewVars (cER_clean fun _ => Nat.le_refl _) (fun v hv => .inl hv) es
      intro u hu
      rcases knowAll_only e3 u hu with hu | hu
      · rcases write_only e2 u hu with hu | hu | ⟨d, hd, l, hl, rfl⟩
        · rw [h0] at hu; cases hu
        · exact .inr hu
        · rcases hk.cl d hd l hl with h | ⟨k, _, h⟩ | ⟨k, _, h⟩ | h
          · exact .inl ((Formula.occ_cc ..).2 h)
          · exact .inr ⟨_, _, h⟩
          · exact .inr ⟨_, _, h⟩
          · exact .inr ⟨_, _, h⟩
      · exact .inl (((vars_val (.cc k)).1 u).1 hu)
  · cases e

/-- A new solver to which a formula has been added knows the variables of the formula and auxiliary variables. -/
theorem add_only {E : PEnv F} {c : AuxTy → Nat} {s : PState} {G : List Verif.Ent} (hcfg : E.cfg.cc.Good) (h : PInv E.K c s G) {f : Formula} (hin : Input E.cfg s.w.cnt f)
    {x : FMini F} (e : (E.solver .pg s).2.add (E.solver .pg s).1 f = .ok x) : ∀ u ∈ x.m.names, Occ u f ∨ ∃ t k, u = .aux t k := by
  by_cases hk : ∃ k, f = .cc k
  · obtain ⟨k, rfl⟩ := hk
    exact addCc_only rfl e
  have hpg : (E.solver .pg s).2.addPg (E.solver .pg s).1 false f = .ok x := by
    cases f with
    | cc k => exact absurd ⟨k, rfl⟩ hk
    | _ => exact e
  unfold FMini.addPg at hpg
  split at hpg
  · cases hpg
  · rename_i p e1
    obtain ⟨m, e2⟩ := known_ok hpg
    rw [e2] at hpg
    unfold FMini.known at hpg
    simp only at hpg
    split at hpg
    · cases hpg
    · cases hpg
    · rename_i m' e3
      cases hpg
      intro u hu
      rcases knowAll_only e3 u hu with hu | hu
      · rcases addAll_only e2 u hu with hu | ⟨d, hd, l, hl, rfl⟩
        · cases hu
        · exact (PgVars.addCnfToSolver_vars hcfg h.w false hin.top (fun _ _ h => by cases h) e1).2 d hd l hl
      · exact .inl (((vars_val f).1 u).1 hu)

end

section
variable {F : Type} [LinearOrder F] [Flt F] {E : PEnv F} {c : AuxTy → Nat} {s : PState} {G : List Verif.Ent}

theorem restrictTo_agrees {R A : List Var} (hs : ∀ v ∈ R, v ∈ A) (σ : Asg) : AgreesOn R (restrictTo A σ) σ := (agreesOn_restrictTo hs).2 fun _ _ => rfl

theorem agreesOn_congr {R : List Var} {M : NModel} {σ τ : Asg} (h : ∀ v ∈ R, σ v = τ v) : AgreesOn R M σ ↔ AgreesOn R M τ :=
  ⟨fun a v hv => by rw [← h v hv]; exact a v hv, fun a v hv => by rw [h v hv]; exact a v hv⟩

/-- The variables asked for: those of the list that are on the solver, or all that belong into models. -/
theorem relVars_relevant {C : MCfg F} {cfg : EnumCfg} {names : List Var} (ha : ∀ vs, cfg.vars = some vs → ∀ v ∈ vs, isRelevant C v = true) :
    ∀ v ∈ relVars C cfg names, isRelevant C v = true := by
  intro v hv
  unfold relVars at hv
  cases hc : cfg.vars with
  | some vs =>
    rw [hc] at hv
    exact ha vs hc v (List.mem_filter.1 hv).1
  | none =>
    rw [hc] at hv
    simp only at hv
    split at hv
    · rename_i h
      cases v with
      | named _ => rfl
      | aux _ _ => exact h
    · exact (List.mem_filter.1 hv).2

/-- What the enumeration returns, in terms of the clauses on the solver. -/
theorem enumFormula_ok (hm : E.C.clauseMin ≠ .none) (hi : E.C.incremental = true) (hE : ∀ n, Ends E.C.toCfg n) (hcfg : E.cfg.cc.Good) (h : PInv E.K c s G) {f : Formula}
    (hin : Input E.cfg s.w.cnt f) {cfg : EnumCfg} (hmax : cfg.max = none) (ha : ∀ vs, cfg.vars = some vs → ∀ v ∈ vs, isRelevant E.C v = true) :
    ∃ f0 ms s', (∀ fuel ≥ f0, enumFormula E fuel cfg f s = .ok (ms, s')) ∧ ∃ (names : List Var) (cls : List Clause), (∀ v, Occ v f → v ∈ names) ∧
      (∀ u ∈ names, Occ u f ∨ ∃ t k, u = .aux t k) ∧ (∀ M ∈ ms, ∃ σ, f.eval σ = true ∧ AgreesOn (relVars E.C cfg names) M σ) ∧
      (∀ σ, Sats σ cls → ms.countP (fun M => decide (AgreesOn (relVars E.C cfg names) M σ)) = 1) ∧
      (Direct c f → ∀ σ, f.eval σ = true → ∃ σ', (∀ v, Occ v f → σ' v = σ v) ∧ Sats σ' cls) := by
  obtain ⟨x, e, Y, G', i, had⟩ := (h.solver (E := E) .pg).add hm hcfg hin
  have hrel : ∀ v ∈ relVars E.C cfg Y.names, isRelevant E.C v = true := relVars_relevant ha
  obtain ⟨f0, m', ms, hf, hc⟩ := C67_enumeration_partial hm hi hE i.runs (cfg := cfg) hrel
  refine ⟨f0, ms, { s with w := x.w, es := x.es }, fun fuel hfuel => ?_, Y.names, Y.cls, fun v hv => ?_, ?_, fun M hM => ?_, hc hmax, fun hd σ hσ => direct_sat i had hd hσ⟩
  · unfold enumFormula
    simp only [e]
    rw [show x.m.enumerate E.C fuel cfg = .ok (m', ms) from hf fuel hfuel]
  · rw [← (i.runs.holds hm).names]
    exact (add_names e).1 v (((vars_val f).1 v).2 hv)
  · rw [← (i.runs.holds hm).names]
    exact add_only hcfg h hin e
  · obtain ⟨σ, h1, rfl⟩ := (C33_enumeration_partial hm hi i.runs hmax hrel (hf f0 (Nat.le_refl _))).1 M hM
    exact ⟨σ, i.models.1 σ h1 f (by simp), restrictTo_agrees (relVars_allVars hrel) σ⟩

/-- C83: asked for the models over some variables of the formula, the enumeration ends; every model reported is a model of the formula restricted to the variables, and every
model of the formula agrees on them with exactly one of those reported.  The variables must not be auxiliary variables when these are kept out of models. -/
theorem C83_over (hm : E.C.clauseMin = .deep) (hi : E.C.incremental = true) (hE : ∀ n, Ends E.C.toCfg n) (hcfg : E.cfg.cc.Good) (h : PRuns E c s) {f : Formula}
    (hin : Input E.cfg s.w.cnt f) (ho : (∀ v, Occ v f → Verif.Known c v) ∨ IsCnf f) {vs : List Var} (hv : ∀ v ∈ vs, Occ v f) (ha : ∀ v ∈ vs, isRelevant E.C v = true)
    (more : Option (List Var)) :
    ∃ f0 ms s', (∀ fuel ≥ f0, enumFormula E fuel ⟨some vs, more, none⟩ f s = .ok (ms, s')) ∧
      (∀ M ∈ ms, ∃ σ, f.eval σ = true ∧ AgreesOn vs M σ) ∧ ∀ σ, f.eval σ = true → ms.countP (fun M => decide (AgreesOn vs M σ)) = 1 := by
  have hm : E.C.clauseMin ≠ .none := by rw [hm]; exact nofun
  obtain ⟨G, i⟩ := h.inv hm hcfg
  obtain ⟨f0, ms, s', h1, names, cls, hn, hN0, h2, h3, h4⟩ := enumFormula_ok hm hi hE hcfg i hin (cfg := ⟨some vs, more, none⟩) rfl (fun _ e => by cases e; exact ha)
  have hr : relVars E.C ⟨some vs, more, none⟩ names = vs := by
    unfold relVars
    exact List.filter_eq_self.2 fun v hv' => decide_eq_true (hn v (hv v hv'))
  rw [hr] at h2 h3
  refine ⟨f0, ms, s', h1, h2, fun σ hσ => ?_⟩
  obtain ⟨σ', hag, hs⟩ := h4 ho σ hσ
  rw [← h3 σ' hs]
  refine List.countP_congr fun M _ => ?_
  rw [decide_eq_true_iff, decide_eq_true_iff]
  exact agreesOn_congr fun v hv' => (hag v (hv v hv')).symm

/-- C83: asked for all models, with auxiliary variables kept out of models, the enumeration ends; every model reported gives a value to all variables of the formula that are
not auxiliary, and to no others, and can be extended to a model of the formula; every model of the formula agrees with exactly one of those reported, on all variables `N` of
these models. -/
theorem C83_all (hm : E.C.clauseMin = .deep) (hi : E.C.incremental = true) (hE : ∀ n, Ends E.C.toCfg n) (hcfg : E.cfg.cc.Good) (haux : E.C.auxInModels = false)
    (h : PRuns E c s) {f : Formula} (hin : Input E.cfg s.w.cnt f) (ho : (∀ v, Occ v f → Verif.Known c v) ∨ IsCnf f) (more : Option (List Var)) :
    ∃ f0 ms s', (∀ fuel ≥ f0, enumFormula E fuel ⟨none, more, none⟩ f s = .ok (ms, s')) ∧ ∃ N : List Var, (∀ v ∈ N, ∃ n, v = .named n) ∧ (∀ n, .named n ∈ N ↔ Occ (.named n) f) ∧
      (∀ M ∈ ms, ∃ σ, f.eval σ = true ∧ AgreesOn N M σ) ∧ ∀ σ, f.eval σ = true → ms.countP (fun M => decide (AgreesOn N M σ)) = 1 := by
  have hm : E.C.clauseMin ≠ .none := by rw [hm]; exact nofun
  obtain ⟨G, i⟩ := h.inv hm hcfg
  obtain ⟨f0, ms, s', h1, names, cls, hn, hN0, h2, h3, h4⟩ := enumFormula_ok hm hi hE hcfg i hin (cfg := ⟨none, more, none⟩) rfl (fun _ e => by cases e)
  have hr : relVars E.C ⟨none, more, none⟩ names = names.filter (isRelevant E.C) := by
    unfold relVars
    simp [haux]
  have hN : ∀ v ∈ names.filter (isRelevant E.C), ∃ n, v = .named n := by
    intro v hv
    have := (List.mem_filter.1 hv).2
    cases v with
    | named n => exact ⟨n, rfl⟩
    | aux t k => simp [isRelevant, haux] at this
  rw [hr] at h2 h3
  refine ⟨f0, ms, s', h1, _, hN, fun n => ⟨fun hn' => ?_, fun hn' => List.mem_filter.2 ⟨hn _ hn', rfl⟩⟩, h2, fun σ hσ => ?_⟩
  · rcases hN0 _ (List.mem_filter.1 hn').1 with h | ⟨_, _, h⟩
    · exact h
    · cases h
  obtain ⟨σ', hag, hs⟩ := h4 ho σ hσ
  rw [← h3 σ' hs]
  refine List.countP_congr fun M _ => ?_
  have hag : ∀ v ∈ names.filter (isRelevant E.C), σ' v = σ v := by
    intro v hv
    rcases hN0 v (List.mem_filter.1 hv).1 with h | ⟨t, k, rfl⟩
    · exact hag v h
    · obtain ⟨n, h⟩ := hN _ hv; cases h
  rw [decide_eq_true_iff, decide_eq_true_iff]
  exact agreesOn_congr fun v hv' => (hag v hv').symm

/-- A list of models in which each model of the formula agrees with exactly one has as many members as the formula has models. -/
theorem length_eq_card {f : Formula} {V : List Var} {ms : List NModel} (hV : ∀ v, Occ v f → v ∈ V) (h1 : ∀ M ∈ ms, ∃ σ, f.eval σ = true ∧ AgreesOn V M σ)
    (h2 : ∀ σ, f.eval σ = true → ms.countP (fun M => decide (AgreesOn V M σ)) = 1) : ms.length = (modelsOver V.toFinset f).card := by
  have key : ∀ ms : List NModel, (∀ M ∈ ms, ∃ σ, f.eval σ = true ∧ AgreesOn V M σ) →
      ∑ A ∈ modelsOver V.toFinset f, ms.countP (fun M => decide (AgreesOn V M fun v => decide (v ∈ A))) = ms.length := by
    intro ms
    induction ms with
    | nil => intro _; simp
    | cons M ms ih =>
      intro h
      obtain ⟨σ, hσ, ha⟩ := h M (by simp)
      simp only [List.countP_cons, Finset.sum_add_distrib, List.length_cons, ih fun M' hM' => h M' (by simp [hM'])]
      congr 1
      rw [Finset.sum_eq_single (V.toFinset.filter fun v => σ v = true)]
      · refine if_pos (decide_eq_true ((agreesOn_congr fun v hv => ?_).1 ha))
        simp [hv]
      · intro A hA hne
        refine if_neg fun hd => hne (Finset.ext fun v => ?_)
        have hd := of_decide_eq_true hd
        have hA := Finset.mem_powerset.1 (Finset.mem_filter.1 hA).1
        simp only [Finset.mem_filter, List.mem_toFinset]
        constructor
        · intro hv
          have hv' := List.mem_toFinset.1 (hA hv)
          exact ⟨hv', ((ha v hv').1).1 (((hd v hv').1).2 (decide_eq_true hv))⟩
        · rintro ⟨hv, hs⟩
          exact of_decide_eq_true (((hd v hv).1).1 (((ha v hv).1).2 hs))
      · intro hn
        refine absurd (Finset.mem_filter.2 ⟨Finset.mem_powerset.2 (Finset.filter_subset _ _), ?_⟩) hn
        refine (Formula.eval_congr fun v hv => ?_).trans hσ
        simp [hV v hv]
  rw [← key ms h1, Finset.card_eq_sum_ones]
  exact Finset.sum_congr rfl fun A hA => h2 _ (Finset.mem_filter.1 hA).2

/-- C83: the number of models enumerated for a formula over named variables is the number of its models over its variables. -/
theorem C83_number (hm : E.C.clauseMin = .deep) (hi : E.C.incremental = true) (hE : ∀ n, Ends E.C.toCfg n) (hcfg : E.cfg.cc.Good) (haux : E.C.auxInModels = false)
    (h : PRuns E c s) {f : Formula} (hin : Input E.cfg s.w.cnt f) (hnm : ∀ v, Occ v f → ∃ n, v = .named n) (more : Option (List Var)) :
    ∃ f0 ms s', (∀ fuel ≥ f0, enumFormula E fuel ⟨none, more, none⟩ f s = .ok (ms, s')) ∧ ms.length = (modelsOver f.varSet f).card := by
  obtain ⟨f0, ms, s', h0, N, h1, h2, h4, h5⟩ := C83_all hm hi hE hcfg haux h hin (.inl fun v hv => by obtain ⟨n, rfl⟩ := hnm v hv; trivial) more
  refine ⟨f0, ms, s', h0, ?_⟩
  have hV : ∀ v, Occ v f → v ∈ N := fun v hv => by
    obtain ⟨n, rfl⟩ := hnm v hv
    exact (h2 n).2 hv
  rw [length_eq_card hV h4 h5]
  congr 2
  ext v
  rw [List.mem_toFinset, mem_varSet]
  refine ⟨fun hv => ?_, hV v⟩
  obtain ⟨n, rfl⟩ := h1 v hv
  exact (h2 n).1 hv

end

/-! ### Cases that meet the hypotheses -/

/-- A formula in a new factory, with two of its variables. -/
example : ∃ f0 ms s', ∀ fuel ≥ f0, enumFormula exP fuel ⟨some [vA, vC], none, none⟩ exB exP0 = .ok (ms, s') := by
  obtain ⟨f0, ms, s', h, _⟩ := C83_over (E := exP) (c := fun _ => 7) (s := exP0) (f := exB) (vs := [vA, vC]) rfl rfl ends_demoM trivial .new exB_input
    (.inl fun v hv => exB_input.known v hv) (by
      intro v hv
      refine ((vars_val exB).1 v).1 ?_
      revert v
      decide +kernel) (by decide) none
  exact ⟨f0, ms, s', h⟩

/-- All models of a formula in a new factory. -/
example : ∃ f0 ms s', ∀ fuel ≥ f0, enumFormula exP fuel ⟨none, none, none⟩ exB exP0 = .ok (ms, s') := by
  obtain ⟨f0, ms, s', h, _⟩ := C83_all (E := exP) (c := fun _ => 7) (s := exP0) (f := exB) rfl rfl ends_demoM trivial rfl .new exB_input
    (.inl fun v hv => exB_input.known v hv) none
  exact ⟨f0, ms, s', h⟩

/-- The hypotheses of `C83_number`. -/
example : ∀ v, Occ v exB → ∃ n, v = .named n := by
  intro v hv
  have : ∀ v ∈ fnVars.val exB, (match v with | .named _ => true | _ => false) = true := by decide +kernel
  have := this v (((vars_val exB).1 v).2 hv)
  cases v with
  | named n => exact ⟨n, rfl⟩
  | aux _ _ => cases this

/-- The models of `A ∧ (B ∨ ¬A) ∧ (C ∨ B ∨ ¬A) ∧ (C ∨ ¬D)` -/
example : okB (enumFormula exP 1000 ⟨none, none, none⟩ exB exP0) (fun r => decide (r.1.length = 3)) = true := by decide +kernel

/-- A cardinality constraint, two of three variables, which has three models. -/
example : okB (enumFormula exP 1000 ⟨none, none, none⟩ (.cc ⟨[vA, vB, vC], .eq, 2⟩) exP0) (fun r => decide (r.1.length = 3)) = true := by decide +kernel

/-- A pseudo-Boolean constraint inside a formula, `D ∨ (2·A + B + C ≥ 3)`, which has eleven models. -/
example : okB (enumFormula exP 1000 ⟨none, none, none⟩ (.nary .disj [.lit ⟨.named 9, true⟩, .pbc ⟨[(⟨vA, true⟩, 2), (⟨vB, true⟩, 1), (⟨vC, true⟩, 1)], .ge, 3⟩]) exP0)
    (fun r => decide (r.1.length = 11)) = true := by decide +kernel

end Verif.Sat
