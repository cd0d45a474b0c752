import Verif.Sat.Mini
import Mathlib.Data.List.Perm.Subperm
/-
Model enumeration, solver/functions/model_enumeration.rs.
-/
namespace Verif.Sat
open St

/-- `ModelEnumerationConfig`, model_enumeration.rs:30-39 -/
structure EnumCfg where
  vars : Option (List Var)
  additional : Option (List Var)
  max : Option Nat

/-- `Model`, datastructures/model.rs: the variables that are true and those that are false. -/
abbrev NModel := List Var × List Var

/-- `is_relevant_variable`, minisat_solver.rs:411-416 -/
def isRelevant {F : Type} (C : MCfg F) : Var → Bool
  | .named _ => true
  | .aux _ _ => C.auxInModels

/-- `create_assignment`, minisat_solver.rs:378-409.  The indices are always known and in range where it is called. -/
def createAssignment {F : Type} (C : MCfg F) (names : List Var) (model : List Bool) (rel : Option (List Nat)) : NModel :=
  let is := (rel.getD (List.range model.length)).filter fun i => (names[i]?).any (isRelevant C)
  ((is.filter fun i => model.getD i false).filterMap (names[·]?), (is.filter fun i => !model.getD i false).filterMap (names[·]?))

/-- `relevant_indices`, model_enumeration.rs:213-225.  Simplified: `name2idx` is ordered by variables, here the indices are ascending. -/
def relevantIndices {F : Type} (C : MCfg F) (cfg : EnumCfg) (names : List Var) : Option (List Nat) :=
  match cfg.vars with
  | some vs => some (vs.filterMap (idx names))
  | none => if !C.auxInModels then some ((names.filter (isRelevant C)).filterMap (idx names)) else none

/-- `relevant_all_indices`, model_enumeration.rs:227-248.  Simplified: the additional variables are not sorted. -/
def relevantAllIndices {F : Type} (C : MCfg F) (cfg : EnumCfg) (names : List Var) : Option (List Nat) :=
  (relevantIndices C cfg names).map fun r => r ++ (((cfg.additional.getD []).eraseDups.filter fun v => !(cfg.vars.getD []).contains v).filterMap (idx names))

/-- `generate_blocking_clause`, model_enumeration.rs:268-282 -/
def blockingClause (model : List Bool) (rel : Option (List Nat)) : List Nat :=
  (rel.getD (List.range model.length)).map fun i => mkLit i (model.getD i false)

namespace Mini
variable {F : Type} [LinearOrder F] [Flt F]

/-- The loop of `enumerate_models_with_config`, model_enumeration.rs:250-262.  The first number bounds the number of iterations; it never gets 0
(`C33_enumeration_partial` shows that there is no panic). -/
def enumLoop (C : MCfg F) (fuel : Nat) (cfg : EnumCfg) (rel all : Option (List Nat)) : Nat → List NModel → Mini F → Res (Mini F × List NModel)
  | 0, _, _ => .panic
  | n + 1, ms, m =>
    if cfg.max.any (· ≤ ms.length) then .ok (m, ms)
    else
      match m.solve C fuel [] [] with
      | .panic => .panic
      | .diverge => .diverge
      | .ok (m, false) => .ok (m, ms)
      | .ok (m, true) =>
        let mo := createAssignment C m.names m.y.s.model all
        if !(mo.1.isEmpty && mo.2.isEmpty) then
          match m.y.step C.toCfg (.add (blockingClause m.y.s.model rel)) with
          | .ok (y, _) => enumLoop C fuel cfg rel all n (ms ++ [mo]) { m with y := y }
          | .panic => .panic
          | .diverge => .diverge
        else .ok (m, ms ++ [mo])

/-- `enumerate_models_with_config`, model_enumeration.rs:209-265 -/
def enumerate (C : MCfg F) (fuel : Nat) (cfg : EnumCfg) (m : Mini F) : Res (Mini F × List NModel) :=
  match m.save C with
  | .panic => .panic
  | .diverge => .diverge
  | .ok (m, k) =>
    let rel := relevantIndices C cfg m.names
    match enumLoop C fuel cfg rel (relevantAllIndices C cfg m.names) (2 ^ (rel.getD (List.range m.names.length)).length + 1) [] m with
    | .panic => .panic
    | .diverge => .diverge
    | .ok (m, ms) =>
      match m.load C k with
      | .ok m => .ok (m, ms)
      | .panic => .panic
      | .diverge => .diverge

end Mini

/-! ### Specification -/

/-- The variables over which models are distinguished: those asked for, or all (but without auxiliary variables if they do not belong into models). -/
def relVars {F : Type} (C : MCfg F) (cfg : EnumCfg) (names : List Var) : List Var :=
  match cfg.vars with
  | some vs => vs.filter (· ∈ names)
  | none => if C.auxInModels then names else names.filter (isRelevant C)

/-- The variables of the reported models. -/
def allVars {F : Type} (C : MCfg F) (cfg : EnumCfg) (names : List Var) : List Var :=
  match cfg.vars, C.auxInModels with
  | none, true => names
  | _, _ => (relVars C cfg names ++ ((cfg.additional.getD []).eraseDups.filter fun v => decide (v ∉ cfg.vars.getD [] ∧ v ∈ names))).filter (isRelevant C)

/-- An assignment restricted to variables. -/
def restrictTo (A : List Var) (σ : Asg) : NModel := (A.filter σ, A.filter fun v => !σ v)

/-! ### Correctness -/

/-- The clause that excludes an assignment. -/
def block (vs : List Var) (σ : Asg) : Clause := vs.map fun v => ⟨v, !σ v⟩

theorem block_sat {vs : List Var} {σ τ : Asg} : Clause.Sat τ (block vs σ) ↔ ∃ v ∈ vs, τ v ≠ σ v := by
  unfold Clause.Sat block
  constructor
  · rintro ⟨l, hl, ht⟩
    obtain ⟨v, hv, rfl⟩ := List.mem_map.1 hl
    refine ⟨v, hv, ?_⟩
    unfold Lit.eval at ht
    cases h1 : σ v <;> cases h2 : τ v <;> simp_all
  · rintro ⟨v, hv, hne⟩
    refine ⟨_, List.mem_map_of_mem hv, ?_⟩
    unfold Lit.eval
    cases h1 : σ v <;> cases h2 : τ v <;> simp_all

theorem filterMap_idx {names : List Var} : ∀ {vs : List Var}, vs.filterMap (idx names) = (vs.filter (· ∈ names)).map names.idxOf
  | [] => rfl
  | v :: vs => by
    by_cases h : v ∈ names
    · rw [List.filterMap_cons_some (show idx names v = some (names.idxOf v) by unfold idx; rw [if_pos h]), List.filter_cons_of_pos (by simpa using h), List.map_cons, filterMap_idx]
    · rw [List.filterMap_cons_none (show idx names v = none by unfold idx; rw [if_neg h]), List.filter_cons_of_neg (by simpa using h), filterMap_idx]

theorem map_idxOf_self {names : List Var} (h : names.Nodup) : names.map names.idxOf = List.range names.length := by
  apply List.ext_getElem
  · simp
  · intro i h1 h2
    simp only [List.getElem_map, List.getElem_range]
    exact List.Nodup.idxOf_getElem h i (by simpa using h1)

section
variable {F : Type} [LinearOrder F] [Flt F] {C : MCfg F} {X : NSpec} {m : Mini F}

theorem relevantIndices_eq {cfg : EnumCfg} {names : List Var} (hn : names.Nodup) {k : Nat} (hk : k = names.length) :
    (relevantIndices C cfg names).getD (List.range k) = (relVars C cfg names).map names.idxOf := by
  subst hk
  unfold relevantIndices relVars
  cases hv : cfg.vars with
  | some vs => simp only [Option.getD_some]; exact filterMap_idx
  | none =>
    cases ha : C.auxInModels with
    | true => simp only [Bool.not_true, Bool.false_eq_true, if_false, Option.getD_none, if_true]; exact (map_idxOf_self hn).symm
    | false =>
      simp only [Bool.not_false, if_true, Option.getD_some, Bool.false_eq_true, if_false]
      rw [filterMap_idx]
      congr 1
      exact List.filter_eq_self.2 fun v hv => by simpa using (List.mem_filter.1 hv).1

theorem relVars_sub {cfg : EnumCfg} {names : List Var} : ∀ v ∈ relVars C cfg names, v ∈ names := by
  unfold relVars
  cases cfg.vars with
  | some vs => intro v hv; simpa using (List.mem_filter.1 hv).2
  | none =>
    simp only
    split
    · exact fun v hv => hv
    · exact fun v hv => (List.mem_filter.1 hv).1

theorem createAssignment_eq {names vs : List Var} {model : List Bool} {rel : Option (List Nat)} (h : rel.getD (List.range model.length) = vs.map names.idxOf) (hs : ∀ v ∈ vs, v ∈ names) :
    createAssignment C names model rel = restrictTo (vs.filter (isRelevant C)) fun v => model.getD (names.idxOf v) false := by
  have back : ∀ us : List Var, (∀ v ∈ us, v ∈ names) → (us.map names.idxOf).filterMap (names[·]?) = us := by
    intro us
    induction us with
    | nil => intro _; rfl
    | cons u us ih =>
      intro hu
      rw [List.map_cons, List.filterMap_cons_some (List.getElem?_idxOf (hu u (by simp))), ih fun v hv => hu v (List.mem_cons_of_mem _ hv)]
  have hf : (vs.map names.idxOf).filter (fun i => (names[i]?).any (isRelevant C)) = (vs.filter (isRelevant C)).map names.idxOf := by
    rw [List.filter_map]
    congr 1
    refine List.filter_congr fun v hv => ?_
    simp only [Function.comp_apply]
    rw [List.getElem?_idxOf (hs v hv)]; rfl
  have hs' : ∀ v ∈ vs.filter (isRelevant C), v ∈ names := fun v hv => hs v (List.mem_filter.1 hv).1
  unfold createAssignment restrictTo
  simp only
  rw [h, hf, List.filter_map, List.filter_map, back _ fun v hv => hs' v (List.mem_filter.1 hv).1, back _ fun v hv => hs' v (List.mem_filter.1 hv).1]
  rfl

theorem relevantAllIndices_eq {cfg : EnumCfg} {names : List Var} (hn : names.Nodup) : ∃ vs : List Var,
    (relevantAllIndices C cfg names).getD (List.range names.length) = vs.map names.idxOf ∧ (∀ v ∈ vs, v ∈ names) ∧ vs.filter (isRelevant C) = allVars C cfg names := by
  have hr := relevantIndices_eq (C := C) (cfg := cfg) hn rfl
  by_cases hc : relevantIndices C cfg names = none
  · have h1 : cfg.vars = none ∧ C.auxInModels = true := by
      unfold relevantIndices at hc
      cases hv : cfg.vars with
      | some vs => rw [hv] at hc; cases hc
      | none =>
        rw [hv] at hc
        simp only at hc
        cases ha : C.auxInModels with
        | true => exact ⟨rfl, rfl⟩
        | false => rw [ha] at hc; cases hc
    refine ⟨names, ?_, fun v hv => hv, ?_⟩
    · unfold relevantAllIndices
      rw [hc]
      exact (map_idxOf_self hn).symm
    · unfold allVars
      rw [h1.1, h1.2]
      refine List.filter_eq_self.2 fun v _ => ?_
      cases v with
      | named n => rfl
      | aux t n => exact h1.2
  · obtain ⟨r, hr'⟩ := Option.ne_none_iff_exists'.1 hc
    rw [hr', Option.getD_some] at hr
    refine ⟨relVars C cfg names ++ ((cfg.additional.getD []).eraseDups.filter fun v => decide (v ∉ cfg.vars.getD [] ∧ v ∈ names)), ?_, ?_, ?_⟩
    · unfold relevantAllIndices
      rw [hr', Option.map_some, Option.getD_some, hr, filterMap_idx, List.filter_filter, List.map_append]
      congr 2
      refine List.filter_congr fun v _ => ?_
      simp [and_comm]
    · intro v hv
      rcases List.mem_append.1 hv with hv | hv
      · exact relVars_sub v hv
      · have := (List.mem_filter.1 hv).2
        simp only [decide_eq_true_eq] at this
        exact this.2
    · unfold allVars
      split
      · next h1 h2 => exact absurd (by unfold relevantIndices; rw [h1]; simp [h2]) hc
      · rfl

theorem learn_known {names : List Var} : ∀ {vs : List Var}, (∀ v ∈ vs, v ∈ names) → NSpec.learn names vs = names
  | [], _ => rfl
  | v :: vs, h => by
    show NSpec.learn (if v ∈ names then names else names ++ [v]) vs = names
    rw [if_pos (h v (by simp))]
    exact learn_known fun w hw => h w (List.mem_cons_of_mem _ hw)

theorem genLits_known {c : Clause} (h : ∀ l ∈ c, l.v ∈ m.names) : m.genLits C c = .ok (m, c.map (enc m.names)) := by
  induction c with
  | nil => rfl
  | cons l c ih =>
    unfold Mini.genLits Mini.genLit Mini.know
    rw [if_pos (h l (by simp))]
    simp only
    rw [ih fun k hk => h k (List.mem_cons_of_mem _ hk)]
    rfl

/-- Adding a clause over known variables. -/
theorem NHolds.addKnown (h : NHolds C X m) {c : Clause} (hc : ∀ l ∈ c, l.v ∈ X.names) :
    ∃ y', m.y.step C.toCfg (.add (c.map (enc m.names))) = .ok (y', none) ∧ NHolds C { X with cls := X.cls ++ [c] } { m with y := y' } ∧
      y'.s.model = m.y.s.model ∧ y'.handles = m.y.handles ∧ GrewBy (NewC X c m { m with y := y' }) m.y.s y'.s := by
  have hc' : ∀ l ∈ c, l.v ∈ m.names := by rw [h.names]; exact hc
  obtain ⟨m', e, h1, _, h2, h3⟩ := h.addClause c
  rw [learn_known (by intro v hv; obtain ⟨l, hl, rfl⟩ := List.mem_map.1 hv; exact hc l hl)] at h1
  unfold Mini.addClause at e
  rw [genLits_known hc'] at e
  simp only at e
  have hr : ∀ y' r, m.y.step C.toCfg (.add (c.map (enc m.names))) = .ok (y', r) → r = none := by
    intro y' r e
    unfold Sess.step at e
    simp only at e
    split at e
    · cases e
    · cases e; rfl
  revert e hr
  match m.y.step C.toCfg (.add (c.map (enc m.names))) with
  | .ok (y', r) =>
    intro e hr
    cases hr y' r rfl
    cases e
    exact ⟨y', rfl, h1, h2, h3⟩
  | .panic => intro e; cases e
  | .diverge => intro e; cases e

/-- All lists of `k` truth values. -/
def allB : Nat → List (List Bool)
  | 0 => [[]]
  | k + 1 => (allB k).map (false :: ·) ++ (allB k).map (true :: ·)

theorem allB_length (k : Nat) : (allB k).length = 2 ^ k := by
  induction k with
  | zero => rfl
  | succ k ih => simp only [allB, List.length_append, List.length_map, ih, Nat.pow_succ]; omega

theorem mem_allB : ∀ l : List Bool, l ∈ allB l.length
  | [] => by simp [allB]
  | b :: l => by
    have := mem_allB l
    simp only [List.length_cons, allB, List.mem_append, List.mem_map]
    cases b with
    | true => exact .inr ⟨l, this, rfl⟩
    | false => exact .inl ⟨l, this, rfl⟩

/-- There are at most `2 ^ k` assignments that differ on `k` variables. -/
theorem pairwise_le {vs : List Var} {vals : List Asg} (h : vals.Pairwise fun σ τ => ∃ v ∈ vs, σ v ≠ τ v) : vals.length ≤ 2 ^ vs.length := by
  have hn : (vals.map fun σ => vs.map σ).Nodup := by
    rw [List.nodup_iff_pairwise_ne, List.pairwise_map]
    refine h.imp fun {σ τ} ⟨v, hv, hne⟩ e => hne ?_
    exact List.map_inj_left.1 e v hv
  have hs : (vals.map fun σ => vs.map σ) ⊆ allB vs.length := by
    intro l hl
    obtain ⟨σ, _, rfl⟩ := List.mem_map.1 hl
    have := mem_allB (vs.map σ)
    rwa [List.length_map] at this
  have := (List.subperm_of_subset hn hs).length_le
  rwa [List.length_map, allB_length] at this

/-- State `k` can be loaded: no clause added since has the same literals as an older one. -/
def Mini.CanLoad (m : Mini F) (k : Nat) : Prop := ∃ st, m.y.handles[k]? = some st ∧ st.clauses ≤ m.y.s.clauses.length ∧ Sep st.clauses m.y.s

theorem Mini.CanLoad.separate {k : Nat} (h : m.CanLoad k) : m.y.Separate k := by
  obtain ⟨st, h1, _, h2⟩ := h
  intro st' h'
  rw [h1] at h'
  cases h'
  exact h2

theorem Mini.CanLoad.grew {k : Nat} {m' : Mini F} {P : List Nat → Prop} (h : m.CanLoad k) (hh : m'.y.handles = m.y.handles) (hg : GrewBy P m.y.s m'.y.s)
    (hP : ∀ d, P d → ∀ i ∈ m.y.s.clauses, ¬ (m.y.s.data i).Perm d) : m'.CanLoad k := by
  obtain ⟨st, h1, h2, h3⟩ := h
  refine ⟨st, by rw [hh]; exact h1, ?_, h3.grew h2 hg hP⟩
  obtain ⟨r, e, _⟩ := hg
  rw [e, List.length_append]
  omega

/-- A state just saved can be loaded. -/
theorem canLoad_saved {m' : Mini F} {k : Nat} (hs : m'.y.s = m.y.s) (h : ∃ st, m'.y.handles[k]? = some st ∧ st.clauses = m.y.s.clauses.length ∧ st.nvars = m.y.s.nvars) : m'.CanLoad k := by
  obtain ⟨st, h1, h2, _⟩ := h
  refine ⟨st, h1, ?_, ?_⟩
  · rw [hs, h2]; exact Nat.le_refl _
  · rw [h2, ← hs]; exact sep_all _

/-- What the loop has found: the assignments `vals`. -/
structure EnumInv (C : MCfg F) (k : Nat) (X : NSpec) (vs A : List Var) (vals : List Asg) (ms : List NModel) (m : Mini F) : Prop where
  holds : NHolds C { X with cls := X.cls ++ vals.map (block vs) } m
  twins : m.CanLoad k
  models : ms = vals.map (restrictTo A)
  sat : ∀ σ ∈ vals, Sats σ X.cls
  diff : vals.Pairwise fun σ τ => ∃ v ∈ vs, σ v ≠ τ v

/-- What the loop returns. -/
structure EnumOut (C : MCfg F) (k : Nat) (X : NSpec) (cfg : EnumCfg) (vs A : List Var) (ms : List NModel) (m : Mini F) : Prop where
  holds : ∃ extra, NHolds C { X with cls := X.cls ++ extra } m
  twins : m.CanLoad k
  found : ∃ vals : List Asg, ms = vals.map (restrictTo A) ∧ (∀ σ ∈ vals, Sats σ X.cls) ∧ (vals.Pairwise fun σ τ => ∃ v ∈ vs, σ v ≠ τ v) ∧
    (∀ k, cfg.max = some k → vals.length ≤ k) ∧ ((∀ k, cfg.max = some k → vals.length < k) → ∀ σ, Sats σ X.cls → ∃ τ ∈ vals, ∀ v ∈ vs, σ v = τ v)

theorem EnumInv.out {k : Nat} {vs A : List Var} {vals : List Asg} {ms : List NModel} {cfg : EnumCfg} (h : EnumInv C k X vs A vals ms m)
    (h1 : ∀ k, cfg.max = some k → vals.length ≤ k) (h2 : (∀ k, cfg.max = some k → vals.length < k) → ∀ σ, Sats σ X.cls → ∃ τ ∈ vals, ∀ v ∈ vs, σ v = τ v) :
    EnumOut C k X cfg vs A ms m := ⟨⟨_, h.holds⟩, h.twins, vals, h.models, h.sat, h.diff, h1, h2⟩

theorem sats_append {σ : Asg} {a b : List Clause} : Sats σ (a ++ b) ↔ Sats σ a ∧ Sats σ b := by
  unfold Sats
  constructor
  · exact fun h => ⟨fun c hc => h c (List.mem_append_left _ hc), fun c hc => h c (List.mem_append_right _ hc)⟩
  · rintro ⟨h1, h2⟩ c hc
    rcases List.mem_append.1 hc with hc | hc
    · exact h1 c hc
    · exact h2 c hc

theorem sats_block {σ : Asg} {vs : List Var} {vals : List Asg} : Sats σ (vals.map (block vs)) ↔ ∀ τ ∈ vals, ∃ v ∈ vs, σ v ≠ τ v := by
  unfold Sats
  constructor
  · exact fun h τ hτ => block_sat.1 (h _ (List.mem_map_of_mem hτ))
  · intro h c hc
    obtain ⟨τ, hτ, rfl⟩ := List.mem_map.1 hc
    exact block_sat.2 (h τ hτ)

theorem restrictTo_empty {A : List Var} {σ : Asg} : ((restrictTo A σ).1.isEmpty && (restrictTo A σ).2.isEmpty) = true ↔ A = [] := by
  unfold restrictTo
  constructor
  · intro h
    simp only [Bool.and_eq_true, List.isEmpty_iff, List.filter_eq_nil_iff] at h
    cases A with
    | nil => rfl
    | cons a A =>
      have h1 := h.1 a (by simp)
      have h2 := h.2 a (by simp)
      cases h3 : σ a <;> simp_all
  · rintro rfl; rfl

theorem enumLoop_ok (hm : C.clauseMin ≠ .none) (hi : C.incremental = true) (fuel : Nat) {k : Nat} {cfg : EnumCfg} {rel all : Option (List Nat)} {vs A : List Var}
    (hrel : rel.getD (List.range X.names.length) = vs.map X.names.idxOf) (hvs : ∀ v ∈ vs, v ∈ X.names)
    (hall : ∀ mo : List Bool, mo.length = X.names.length → createAssignment C X.names mo all = restrictTo A fun v => mo.getD (X.names.idxOf v) false)
    (hA : A = [] → vs = []) (n : Nat) : ∀ {vals : List Asg} {ms : List NModel} {m : Mini F}, EnumInv C k X vs A vals ms m → n + vals.length = 2 ^ vs.length + 1 →
      (∀ k, cfg.max = some k → vals.length ≤ k) →
      match m.enumLoop C fuel cfg rel all n ms with
      | .panic => False
      | .diverge => True
      | .ok (m', ms') => EnumOut C k X cfg vs A ms' m' := by
  induction n with
  | zero =>
    intro vals ms m h hn _
    have := pairwise_le h.diff
    omega
  | succ n ih =>
    intro vals ms m h hn hk
    have hlen : ms.length = vals.length := by rw [h.models, List.length_map]
    unfold Mini.enumLoop
    by_cases hmax : (cfg.max.any (· ≤ ms.length)) = true
    · rw [if_pos hmax]
      refine h.out hk fun hlt => ?_
      exfalso
      rw [Option.any_eq_true] at hmax
      obtain ⟨k, h1, h2⟩ := hmax
      have := hlt k h1
      simp only [decide_eq_true_eq] at h2
      omega
    · rw [if_neg hmax]
      have hk' : ∀ k, cfg.max = some k → vals.length + 1 ≤ k := by
        intro k hk1
        rw [hk1, hlen] at hmax
        simp only [Option.any_some, decide_eq_true_eq] at hmax
        omega
      have hsol := h.holds.solve hm fuel [] []
      revert hsol
      match m.solve C fuel [] [] with
      | .panic => exact fun h => h
      | .diverge => exact fun _ => trivial
      | .ok (m1, false) =>
        rintro ⟨h1, _, h2, h2', _, h3⟩
        simp only
        refine EnumInv.out ⟨h1, h.twins.grew h2 (h2' hi) (fun _ h => h.elim), h.models, h.sat, h.diff⟩ hk fun _ σ hσ => ?_
        by_contra hno
        refine h3 rfl σ (sats_append.2 ⟨hσ, sats_block.2 fun τ hτ => ?_⟩) (by simp)
        by_contra hall'
        refine hno ⟨τ, hτ, fun v hv => ?_⟩
        by_contra hne
        exact hall' ⟨v, hv, hne⟩
      | .ok (m1, true) =>
        rintro ⟨h1, _, h2, h2', h3, _⟩
        have hcl := h.twins.grew h2 (h2' hi) (fun _ h => h.elim)
        have h1 : NHolds C { X with cls := X.cls ++ vals.map (block vs) } m1 := h1
        obtain ⟨hl, hsat, _⟩ := h3 rfl
        obtain ⟨hs1, hs2⟩ := sats_append.1 hsat
        have hnm : m1.names = X.names := h1.names
        have hmo : createAssignment C m1.names m1.y.s.model all = restrictTo A m1.asg := by
          rw [hnm, hall _ (hl.trans (by rw [hnm]))]
          unfold Mini.asg
          rw [hnm]
        simp only
        rw [hmo]
        have hdiff : (vals ++ [m1.asg]).Pairwise fun σ τ => ∃ v ∈ vs, σ v ≠ τ v := by
          refine List.pairwise_append.2 ⟨h.diff, List.pairwise_singleton _ _, fun a ha b hb => ?_⟩
          rw [List.mem_singleton.1 hb]
          obtain ⟨v, hv, hne⟩ := sats_block.1 hs2 a ha
          exact ⟨v, hv, fun e => hne e.symm⟩
        have hms : ms ++ [restrictTo A m1.asg] = (vals ++ [m1.asg]).map (restrictTo A) := by rw [h.models, List.map_append]; rfl
        have hsats : ∀ σ ∈ vals ++ [m1.asg], Sats σ X.cls := by
          intro σ hσ
          rcases List.mem_append.1 hσ with hσ | hσ
          · exact h.sat σ hσ
          · rw [List.mem_singleton.1 hσ]; exact hs1
        by_cases he : (!((restrictTo A m1.asg).1.isEmpty && (restrictTo A m1.asg).2.isEmpty)) = true
        · rw [if_pos he]
          have hblk : blockingClause m1.y.s.model rel = (block vs m1.asg).map (enc m1.names) := by
            unfold blockingClause block
            rw [hl, hnm, hrel, List.map_map, List.map_map]
            refine List.map_congr_left fun v _ => ?_
            simp only [Function.comp_apply, enc, Bool.not_not, Mini.asg, hnm]
          rw [hblk]
          obtain ⟨y', e, g1, _, g3, g4⟩ := h1.addKnown (c := block vs m1.asg) (by
            intro l hl
            unfold block at hl
            obtain ⟨v, hv, rfl⟩ := List.mem_map.1 hl
            exact hvs v hv)
          rw [e]
          simp only
          have hinv : EnumInv C k X vs A (vals ++ [m1.asg]) (ms ++ [restrictTo A m1.asg]) { m1 with y := y' } :=
            ⟨by rw [List.map_append, ← List.append_assoc]; exact g1, hcl.grew g3 g4 (fun d hd => hd.other ⟨m1.asg, hsat, fun hc => by
              obtain ⟨v, _, hne⟩ := block_sat.1 hc
              exact hne rfl⟩), hms, hsats, hdiff⟩
          exact ih hinv (by rw [List.length_append, List.length_singleton]; omega) fun k hk1 => by
            rw [List.length_append, List.length_singleton]; exact hk' k hk1
        · rw [if_neg he]
          have hnil := hA (restrictTo_empty.1 (by simpa using he))
          exact ⟨⟨_, h1⟩, hcl, vals ++ [m1.asg], hms, hsats, hdiff, fun k hk1 => by rw [List.length_append, List.length_singleton]; exact hk' k hk1,
            fun _ σ _ => ⟨m1.asg, by simp, fun v hv => by rw [hnil] at hv; cases hv⟩⟩

/-- The solver after saving and loading: the state saved remains. -/
def NSpec.after (X : NSpec) : NSpec := { X with saved := (X.count, X.names.length, X.cls) :: X.saved, count := X.count + 1 }

theorem enumerate_ok (hm : C.clauseMin ≠ .none) (hi : C.incremental = true) (fuel : Nat) {cfg : EnumCfg} (h : NHolds C X m)
    (hrel : ∀ v ∈ relVars C cfg X.names, isRelevant C v = true) :
    match m.enumerate C fuel cfg with
    | .panic => False
    | .diverge => True
    | .ok (m', ms) => NHolds C X.after m' ∧ ∃ vals : List Asg, ms = vals.map (restrictTo (allVars C cfg X.names)) ∧ (∀ σ ∈ vals, Sats σ X.cls) ∧
        (vals.Pairwise fun σ τ => ∃ v ∈ relVars C cfg X.names, σ v ≠ τ v) ∧
        (∀ k, cfg.max = some k → vals.length ≤ k) ∧
        ((∀ k, cfg.max = some k → vals.length < k) → ∀ σ, Sats σ X.cls → ∃ τ ∈ vals, ∀ v ∈ relVars C cfg X.names, σ v = τ v) := by
  unfold Mini.enumerate
  obtain ⟨m1, e1, h1, hn1, hs1, hst1⟩ := h.save hm hi
  rw [e1]
  simp only
  have hnm : m1.names = X.names := hn1.trans h.names
  rw [hnm]
  have hr := relevantIndices_eq (C := C) (cfg := cfg) h.nodup rfl
  obtain ⟨us, hu1, hu2, hu3⟩ := relevantAllIndices_eq (C := C) (cfg := cfg) h.nodup
  have hA : allVars C cfg X.names = [] → relVars C cfg X.names = [] := by
    unfold allVars
    intro he
    split at he
    · next h1 h2 => unfold relVars; rw [h1, h2]; exact he
    · have : ∀ v ∈ relVars C cfg X.names, False := fun v hv => by
        have : v ∈ ([] : List Var) := by rw [← he]; exact List.mem_filter.2 ⟨List.mem_append_left _ hv, hrel v hv⟩
        cases this
      exact List.eq_nil_iff_forall_not_mem.2 this
  have hl : ((relevantIndices C cfg X.names).getD (List.range X.names.length)).length = (relVars C cfg X.names).length := by rw [hr, List.length_map]
  have hloop := enumLoop_ok (X := X.after) (k := X.count) hm hi fuel (cfg := cfg) (vs := relVars C cfg X.names) (A := allVars C cfg X.names) hr relVars_sub
    (all := relevantAllIndices C cfg X.names)
    (fun mo hmo => by rw [← hu3]; exact createAssignment_eq (by rw [hmo]; exact hu1) hu2) hA (2 ^ (relVars C cfg X.names).length + 1) (vals := []) (ms := []) (m := m1)
    ⟨by show NHolds C { X.after with cls := X.cls ++ [] } m1; rw [List.append_nil]; exact h1, canLoad_saved hs1 hst1, rfl, by simp, .nil⟩ (by simp) (by simp)
  rw [hl]
  revert hloop
  match Mini.enumLoop C fuel cfg (relevantIndices C cfg X.names) (relevantAllIndices C cfg X.names) (2 ^ (relVars C cfg X.names).length + 1) [] m1 with
  | .panic => exact fun h => h
  | .diverge => exact fun _ => trivial
  | .ok (m2, ms) =>
    rintro ⟨⟨extra, hx⟩, ht2, hf⟩
    simp only
    obtain ⟨m3, e3, h3⟩ := hx.load hm hi ht2.separate (r := ((X.count, X.names.length, X.cls), X.after.saved)) (by
      show NSpec.cut X.count ((X.count, X.names.length, X.cls) :: X.saved) = _
      unfold NSpec.cut
      rw [if_pos rfl]; rfl)
    rw [e3]
    refine ⟨?_, hf⟩
    simp only [NSpec.after, List.take_length] at h3 ⊢
    exact h3

end
end Verif.Sat
