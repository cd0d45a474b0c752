import Verif.Sat.Backbone
import Verif.Sat.Enum
/-
Backbones of `MiniSat` (solver/functions/backbone_function.rs), and `count_models` (solver/functions/model_enumeration.rs:302-314).
-/
namespace Verif.Sat
open St

namespace Mini
variable {F : Type} [LinearOrder F] [Flt F]

/-- `compute_backbone` of the core solver, minisat2.rs:1177-1189, with names; `none` is the backbone of an unsatisfiable set of clauses
(`Backbone::new_unsat`). -/
def coreBackbone (C : MCfg F) (fuel : Nat) (vars : List Var) (t : BbType) (m : Mini F) : Res (Mini F × Option (Backbone Var)) :=
  match computeBackbone C.toCfg fuel (vars.filterMap (idx m.names)) t m.y.s with
  | .panic => .panic
  | .diverge => .diverge
  | .ok (s, none) => .ok ({ m with y := { m.y with s := s } }, none)
  | .ok (s, some b) => .ok ({ m with y := { m.y with s := s } }, some (buildBackbone (idx m.names) b t vars))

/-- `BackboneConfig::compute_backbone`, backbone_function.rs:51-58 -/
def backbone (C : MCfg F) (fuel : Nat) (vars : List Var) (t : BbType) (m : Mini F) : Res (Mini F × Option (Backbone Var)) :=
  if C.incremental then
    match m.save C with
    | .panic => .panic
    | .diverge => .diverge
    | .ok (m, k) =>
      match m.coreBackbone C fuel vars t with
      | .panic => .panic
      | .diverge => .diverge
      | .ok (m, b) =>
        match m.load C k with
        | .ok m => .ok (m, b)
        | .panic => .panic
        | .diverge => .diverge
  else m.coreBackbone C fuel vars t

/-- The loop of `count_models`, model_enumeration.rs:304-312.  The first number bounds the number of iterations; it never gets 0. -/
def countLoop (C : MCfg F) (fuel max : Nat) : Nat → Nat → Mini F → Res (Mini F × Nat)
  | 0, _, _ => .panic
  | n + 1, k, m =>
    if k ≤ max then
      match m.solve C fuel [] [] with
      | .panic => .panic
      | .diverge => .diverge
      | .ok (m, false) => .ok (m, k)
      | .ok (m, true) =>
        match m.y.step C.toCfg (.add (blockingClause m.y.s.model none)) with
        | .ok (y, _) => countLoop C fuel max n (k + 1) { m with y := y }
        | .panic => .panic
        | .diverge => .diverge
    else .ok (m, k)

/-- `count_models`, model_enumeration.rs:302-314 -/
def countModels (C : MCfg F) (fuel max : Nat) (m : Mini F) : Res (Mini F × Nat) := countLoop C fuel max (2 ^ m.names.length + 1) 0 m

end Mini

/-- A literal is true in all models, with names. -/
def Forced (cls : List Clause) (v : Var) (b : Bool) : Prop := ∀ σ, Sats σ cls → σ v = b

section
variable {F : Type} [LinearOrder F] [Flt F] {C : MCfg F} {X : NSpec} {m : Mini F}

theorem forced_ent (h : NHolds C X m) {v : Var} {b : Bool} (hv : v ∈ X.names) : Forced X.cls v b ↔ Ent X.num.cls [mkLit (X.names.idxOf v) (!b)] := by
  have key : ∀ ρ : Nat → Bool, clT ρ [mkLit (X.names.idxOf v) (!b)] ↔ ρ (X.names.idxOf v) = b := by
    intro ρ
    rw [clT_single, litT_iff, vr_mkLit, sgn_mkLit, Bool.not_not]
  constructor
  · intro hf ρ hρ
    rw [key]
    exact hf _ (models_enc.1 hρ)
  · intro he σ hσ
    have := (key _).1 (he _ ((models_num h.over).2 hσ))
    rwa [num_idxOf hv] at this

/-- Only known variables are forced. -/
theorem forced_known (h : NHolds C X m) (hs : ∃ σ, Sats σ X.cls) {v : Var} {b : Bool} (hf : Forced X.cls v b) : v ∈ X.names := by
  by_contra hv
  obtain ⟨σ, hσ⟩ := hs
  have := hf (fun w => if w = v then !b else σ w) ((sats_congr h.over fun w hw => by
    have hne : w ≠ v := fun e => hv (e ▸ hw)
    exact if_neg hne).2 hσ)
  simp at this

/-- The backbone says exactly which of the variables are forced. -/
structure BbSpec (cls : List Clause) (t : BbType) (vars : List Var) (b : Backbone Var) : Prop where
  pos : if t = .onlyNegative then b.pos = none else ∃ l, b.pos = some l ∧ ∀ v, v ∈ l ↔ v ∈ vars ∧ Forced cls v true
  neg : if t = .onlyPositive then b.neg = none else ∃ l, b.neg = some l ∧ ∀ v, v ∈ l ↔ v ∈ vars ∧ Forced cls v false
  opt : if t = .positiveAndNegative then ∃ l, b.opt = some l ∧ ∀ v, v ∈ l ↔ v ∈ vars ∧ ¬ Forced cls v true ∧ ¬ Forced cls v false else b.opt = none

theorem coreBackbone_ok (hm : C.clauseMin ≠ .none) (fuel : Nat) (h : NHolds C X m) (vars : List Var) (t : BbType) :
    match m.coreBackbone C fuel vars t with
    | .panic => False
    | .diverge => True
    | .ok (m', r) => NHolds C X m' ∧ m'.y.handles = m.y.handles ∧ (C.incremental = true → GrewBy (fun _ => False) m.y.s m'.y.s) ∧
      match r with
      | none => ∀ σ, ¬ Sats σ X.cls
      | some b => (∃ σ, Sats σ X.cls) ∧ BbSpec X.cls t vars b := by
  unfold Mini.coreBackbone
  have hb := computeBackbone_ok hm fuel (vars := vars.filterMap (idx m.names)) (t := t) h.holds.ready h.holds.ass (by
    intro v hv
    rw [h.names, filterMap_idx] at hv
    obtain ⟨w, hw, rfl⟩ := List.mem_map.1 hv
    rw [h.holds.nvars]
    exact List.idxOf_lt_length_of_mem (by simpa using (List.mem_filter.1 hw).2))
  have keep : ∀ s', Kept X.num.cls C.incremental m.y.s s' → NHolds C X { m with y := { m.y with s := s' } } ∧ (C.incremental = true → GrewBy (fun _ => False) m.y.s s') := by
    intro s' k
    refine ⟨{ h with holds := ?_ }, fun hi => ?_⟩
    · exact
      { ready := k.ready
        nvars := k.nvars.trans h.holds.nvars
        sel := k.sel.trans h.holds.sel
        ass := k.ass
        valid := h.holds.valid
        count := h.holds.count
        inc := h.holds.inc
        ids := h.holds.ids
        sorted := h.holds.sorted
        snap := h.holds.ext k.ext
        above := h.holds.above }
    · exact .same (k.cls hi) fun i hi' => (k.ext hi).perm i (h.holds.ready.ids i (.inl hi'))
  revert hb
  match computeBackbone C.toCfg fuel (vars.filterMap (idx m.names)) t m.y.s with
  | .panic => exact fun h => h
  | .diverge => exact fun _ => trivial
  | .ok (s', none) =>
    rintro ⟨k, hu⟩
    refine ⟨(keep s' k).1, rfl, (keep s' k).2, fun σ hσ => ?_⟩
    exact hu _ ((models_num h.over).2 hσ)
  | .ok (s', some b) =>
    rintro ⟨k, ⟨ρ, hρ⟩, hx⟩
    have hs : ∃ σ, Sats σ X.cls := ⟨_, models_enc.1 hρ⟩
    refine ⟨(keep s' k).1, rfl, (keep s' k).2, hs, ?_⟩
    have key : ∀ v x, v ∈ vars → t.matchesPhase x = true → (((idx m.names v).bind b == some x) = true ↔ Forced X.cls v x) := by
      intro v x hv hp
      rw [beq_iff_eq, h.names]
      constructor
      · intro he
        obtain ⟨i, hi, hbi⟩ := Option.bind_eq_some_iff.1 he
        unfold idx at hi
        split at hi
        · next hm' =>
          cases hi
          exact (forced_ent h hm').2 (hx.sound _ _ hbi)
        · cases hi
      · intro hf
        have hk := forced_known h hs hf
        refine Option.bind_eq_some_iff.2 ⟨X.names.idxOf v, by unfold idx; rw [if_pos hk], ?_⟩
        refine hx.complete _ ?_ x hp ((forced_ent h hk).1 hf)
        rw [h.names, filterMap_idx]
        exact List.mem_map_of_mem (List.mem_filter.2 ⟨hv, by simpa using hk⟩)
    exact
    { pos := by
        by_cases ht : t = .onlyNegative
        · rw [if_pos ht]; unfold buildBackbone; simp only; rw [if_pos ht]
        · rw [if_neg ht]
          refine ⟨_, by unfold buildBackbone; simp only; rw [if_neg ht], fun v => ?_⟩
          rw [List.mem_filter]
          exact and_congr_right fun hv => key v true hv (by cases t <;> first | rfl | exact absurd rfl ht)
      neg := by
        by_cases ht : t = .onlyPositive
        · rw [if_pos ht]; unfold buildBackbone; simp only; rw [if_pos ht]
        · rw [if_neg ht]
          refine ⟨_, by unfold buildBackbone; simp only; rw [if_neg ht], fun v => ?_⟩
          rw [List.mem_filter]
          exact and_congr_right fun hv => key v false hv (by cases t <;> first | rfl | exact absurd rfl ht)
      opt := by
        by_cases ht : t = .positiveAndNegative
        · rw [if_pos ht]
          refine ⟨_, by unfold buildBackbone; simp only; rw [if_pos ht], fun v => ?_⟩
          rw [List.mem_filter]
          refine and_congr_right fun hv => ?_
          rw [← key v true hv (by rw [ht]; rfl), ← key v false hv (by rw [ht]; rfl)]
          cases (idx m.names v).bind b with
          | none => simp
          | some x => cases x <;> simp
        · rw [if_neg ht]; unfold buildBackbone; simp only; rw [if_neg ht] }

/-- The specification after a solver function that saves and loads in incremental mode. -/
def NSpec.afterIf (X : NSpec) (inc : Bool) : NSpec := if inc = true then X.after else X

theorem backbone_ok (hm : C.clauseMin ≠ .none) (fuel : Nat) (h : NHolds C X m) (vars : List Var) (t : BbType) :
    match m.backbone C fuel vars t with
    | .panic => False
    | .diverge => True
    | .ok (m', r) => NHolds C (X.afterIf C.incremental) m' ∧
      match r with
      | none => ∀ σ, ¬ Sats σ X.cls
      | some b => (∃ σ, Sats σ X.cls) ∧ BbSpec X.cls t vars b := by
  unfold Mini.backbone NSpec.afterIf
  by_cases hi : C.incremental = true
  · rw [if_pos hi, if_pos hi]
    obtain ⟨m1, e1, h1, _, hs1, hst1⟩ := h.save hm hi
    rw [e1]
    simp only
    have hb := coreBackbone_ok hm fuel h1 vars t
    revert hb
    match m1.coreBackbone C fuel vars t with
    | .panic => exact fun h => h
    | .diverge => exact fun _ => trivial
    | .ok (m2, r) =>
      rintro ⟨h2, hh2, ht2, hr⟩
      simp only
      obtain ⟨m3, e3, h3⟩ := h2.load hm hi ((canLoad_saved hs1 hst1).grew hh2 (ht2 hi) fun _ h => h.elim).separate (r := ((X.count, X.names.length, X.cls), X.after.saved)) (by
        show NSpec.cut X.count ((X.count, X.names.length, X.cls) :: X.saved) = _
        unfold NSpec.cut
        rw [if_pos rfl]; rfl)
      rw [e3]
      refine ⟨?_, hr⟩
      simp only [NSpec.after, List.take_length] at h3 ⊢
      exact h3
  · rw [if_neg hi, if_neg hi]
    have hb := coreBackbone_ok hm fuel h vars t
    revert hb
    match m.coreBackbone C fuel vars t with
    | .panic => exact fun h => h
    | .diverge => exact fun _ => trivial
    | .ok (m2, r) => exact fun ⟨h2, _, _, hr⟩ => ⟨h2, hr⟩

theorem countLoop_ok (hm : C.clauseMin ≠ .none) (fuel max : Nat) (n : Nat) : ∀ {vals : List Asg} {m : Mini F}, NHolds C { X with cls := X.cls ++ vals.map (block X.names) } m →
    (∀ σ ∈ vals, Sats σ X.cls) → (vals.Pairwise fun σ τ => ∃ v ∈ X.names, σ v ≠ τ v) → n + vals.length = 2 ^ X.names.length + 1 → vals.length ≤ max + 1 →
      match m.countLoop C fuel max n vals.length with
      | .panic => False
      | .diverge => True
      | .ok (_, k) => ∃ vals' : List Asg, vals'.length = k ∧ (∀ σ ∈ vals', Sats σ X.cls) ∧ (vals'.Pairwise fun σ τ => ∃ v ∈ X.names, σ v ≠ τ v) ∧ k ≤ max + 1 ∧
          (k ≤ max → ∀ σ, Sats σ X.cls → ∃ τ ∈ vals', ∀ v ∈ X.names, σ v = τ v) := by
  induction n with
  | zero =>
    intro vals m _ _ hd hn _
    have := pairwise_le hd
    omega
  | succ n ih =>
    intro vals m h hs hd hn hk
    unfold Mini.countLoop
    by_cases hmax : vals.length ≤ max
    · rw [if_pos hmax]
      have hsol := h.solve hm fuel [] []
      revert hsol
      match m.solve C fuel [] [] with
      | .panic => exact fun h => h
      | .diverge => exact fun _ => trivial
      | .ok (m1, false) =>
        rintro ⟨_, _, _, _, _, h3⟩
        refine ⟨vals, rfl, hs, hd, hk, fun _ σ hσ => ?_⟩
        by_contra hno
        refine h3 rfl σ (sats_append.2 ⟨hσ, sats_block.2 fun τ hτ => ?_⟩) (by simp)
        by_contra hall'
        refine hno ⟨τ, hτ, fun v hv => ?_⟩
        by_contra hne
        exact hall' ⟨v, hv, hne⟩
      | .ok (m1, true) =>
        rintro ⟨h1, _, _, _, h3, _⟩
        have h1 : NHolds C { X with cls := X.cls ++ vals.map (block X.names) } m1 := h1
        obtain ⟨hl, hsat, _⟩ := h3 rfl
        obtain ⟨hs1, hs2⟩ := sats_append.1 hsat
        have hnm : m1.names = X.names := h1.names
        simp only
        have hblk : blockingClause m1.y.s.model none = (block X.names m1.asg).map (enc m1.names) := by
          unfold blockingClause block
          rw [hl, hnm, Option.getD_none, ← map_idxOf_self h1.nodup, List.map_map, List.map_map]
          refine List.map_congr_left fun v _ => ?_
          simp only [Function.comp_apply, enc, Bool.not_not, Mini.asg, hnm]
        rw [hblk]
        obtain ⟨y', e, g1, _, _, _⟩ := h1.addKnown (c := block X.names m1.asg) (by
          intro l hl
          unfold block at hl
          obtain ⟨v, hv, rfl⟩ := List.mem_map.1 hl
          exact hv)
        rw [e]
        simp only
        have := ih (vals := vals ++ [m1.asg]) (m := { m1 with y := y' }) (by rw [List.map_append, ← List.append_assoc]; exact g1) (by
            intro σ hσ
            rcases List.mem_append.1 hσ with hσ | hσ
            · exact hs σ hσ
            · rw [List.mem_singleton.1 hσ]; exact hs1) (by
            refine List.pairwise_append.2 ⟨hd, List.pairwise_singleton _ _, fun a ha b hb => ?_⟩
            rw [List.mem_singleton.1 hb]
            obtain ⟨v, hv, hne⟩ := sats_block.1 hs2 a ha
            exact ⟨v, hv, fun e => hne e.symm⟩) (by rw [List.length_append, List.length_singleton]; omega) (by rw [List.length_append, List.length_singleton]; omega)
        rw [List.length_append, List.length_singleton] at this
        exact this
    · rw [if_neg hmax]
      exact ⟨vals, rfl, hs, hd, hk, fun h => absurd h hmax⟩

theorem countModels_ok (hm : C.clauseMin ≠ .none) (fuel max : Nat) (h : NHolds C X m) :
    match m.countModels C fuel max with
    | .panic => False
    | .diverge => True
    | .ok (_, k) => ∃ vals : List Asg, vals.length = k ∧ (∀ σ ∈ vals, Sats σ X.cls) ∧ (vals.Pairwise fun σ τ => ∃ v ∈ X.names, σ v ≠ τ v) ∧ k ≤ max + 1 ∧
        (k ≤ max → ∀ σ, Sats σ X.cls → ∃ τ ∈ vals, ∀ v ∈ X.names, σ v = τ v) := by
  unfold Mini.countModels
  rw [h.names]
  exact countLoop_ok hm fuel max _ (vals := []) (by simpa using h) (by simp) .nil (by simp) (by simp)

end
end Verif.Sat
