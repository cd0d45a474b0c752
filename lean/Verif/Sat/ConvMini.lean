import Verif.Sat.Conv
import Verif.Sat.Optimize
/-
The functions of `MiniSat` end: solving, enumeration, counting, backbones, optimization.
-/
namespace Verif.Sat
open St

section
variable {F : Type} [LinearOrder F] [Flt F] {C : MCfg F} {X : NSpec} {m : Mini F}

/-- Calls other than solving do not need rounds. -/
theorem step_ne_diverge {C : Cfg F} {op : Op} (h : ∀ f sel as, op ≠ .solve f sel as) (y : Sess F) : y.step C op ≠ .diverge := by
  unfold Sess.step
  cases op with
  | solve f sel as => exact absurd rfl (h f sel as)
  | newVar p => simp only; split <;> nofun
  | add c => simp only; split <;> nofun
  | save => simp only; split <;> nofun
  | load k =>
    simp only
    split
    · split <;> nofun
    · nofun

theorem save_ne_diverge : m.save C ≠ .diverge := by
  unfold Mini.save
  have := step_ne_diverge (C := C.toCfg) (op := .save) nofun m.y
  revert this
  cases m.y.step C.toCfg .save with
  | ok a => exact fun _ => nofun
  | panic => exact fun _ => nofun
  | diverge => exact fun h => absurd rfl h

theorem load_ne_diverge {k : Nat} : m.load C k ≠ .diverge := by
  unfold Mini.load
  have := step_ne_diverge (C := C.toCfg) (op := .load k) nofun m.y
  revert this
  cases m.y.step C.toCfg (.load k) with
  | ok a => exact fun _ => nofun
  | panic => exact fun _ => nofun
  | diverge => exact fun h => absurd rfl h

theorem idx_lt {names : List Var} {v : Var} {i : Nat} (h : idx names v = some i) : i < names.length := by
  unfold idx at h
  split at h
  · rename_i hv; cases h; exact List.idxOf_lt_length_iff.2 hv
  · cases h

/-! ### Solving -/

theorem step_solve_conv {C : Cfg F} (hm : C.clauseMin ≠ .none) (hE : ∀ n, Ends C n) {x : Spec} {y : Sess F} (h : Holds C x y) {sel as : List Nat}
    (hl : x.Legal (.solve 0 sel as)) : Conv fun f => y.step C (.solve f sel as) := by
  have := (solveSel_conv C hm (hE _) h.ready (sel := sel) (as := as) (by rw [h.nvars]; exact hl.1) (by rw [h.nvars]; exact hl.2)).bind
    (k := fun _ a => Res.ok ({ y with s := a.1 }, some a.2)) fun _ _ _ => .ok _
  refine this.congr fun f => ?_
  unfold Sess.step
  simp only
  cases Sess.solveSel C f sel as y.s <;> rfl

/-- After a call of `sat`, the solver holds the same. -/
theorem sat_holds (hm : C.clauseMin ≠ .none) {x : Spec} (h : Holds C.toCfg x m.y) {f : Nat} {m' : Mini F} {b : Bool} (e : m.solve C f [] [] = .ok (m', b)) :
    Holds C.toCfg x m'.y ∧ m'.names = m.names ∧ (b = true → m'.y.s.model.length = x.n) := by
  unfold Mini.solve Mini.genLits at e
  simp only at e
  have hst := h.step hm (op := .solve f (Mini.order m.names []) []) ⟨(fun l hl => nomatch hl), (fun l hl => nomatch hl)⟩ (by rintro (h | ⟨k, h⟩) <;> cases h)
    (by rintro k h; cases h)
  revert e hst
  match m.y.step C.toCfg (.solve f (Mini.order m.names []) []) with
  | .panic => exact nofun
  | .diverge => exact nofun
  | .ok (y, r) =>
    rintro e ⟨x', hx, hh, hs⟩
    cases e
    cases hx
    refine ⟨hh, rfl, fun hb => ?_⟩
    obtain ⟨b, hr, hsol⟩ := hs _ _ _ rfl
    subst hr
    simp only [Option.some_beq_some, beq_true] at hb
    exact (hsol.sat hb).1.trans hh.nvars

theorem sat_conv (hm : C.clauseMin ≠ .none) (hE : ∀ n, Ends C.toCfg n) {x : Spec} (h : Holds C.toCfg x m.y) : Conv fun f => m.solve C f [] [] := by
  refine ((step_solve_conv (C := C.toCfg) hm hE h (sel := Mini.order m.names []) (as := []) ⟨(fun l hl => nomatch hl), (fun l hl => nomatch hl)⟩).bind
    (k := fun _ a => Res.ok ({ m with y := a.1 }, a.2 == some true)) fun _ _ _ => .ok _).congr fun f => ?_
  unfold Mini.solve Mini.genLits
  simp only
  cases m.y.step C.toCfg (.solve f (Mini.order m.names []) []) <;> rfl

/-- `sat_with` ends. -/
theorem solve_conv_mini (hm : C.clauseMin ≠ .none) (hE : ∀ n, Ends C.toCfg n) (h : NHolds C X m) (sel as : List Lit) : Conv fun f => m.solve C f sel as := by
  obtain ⟨m1, e1, h1, hl, k1⟩ := NHolds.genLits as h
  have hn1 := h1.names
  simp only at hn1
  obtain ⟨more, hmore⟩ := k1.names
  refine ((step_solve_conv (C := C.toCfg) hm hE h1.holds (sel := Mini.order m.names sel) (as := as.map (enc m1.names)) ⟨?_, ?_⟩).bind
    (k := fun _ a => Res.ok ({ m1 with y := a.1 }, a.2 == some true)) fun _ _ _ => .ok _).congr fun f => ?_
  · intro l hl
    obtain ⟨k, _, hk⟩ := List.mem_filterMap.1 hl
    obtain ⟨i, hi, rfl⟩ := Option.map_eq_some_iff.1 hk
    have hi' := idx_lt hi
    have : i < (NSpec.learn X.names (as.map Lit.v)).length := by rw [← hn1, hmore, List.length_append]; omega
    show mkLit i (!k.pos) < 2 * (NSpec.learn X.names (as.map Lit.v)).length
    unfold mkLit
    split <;> omega
  · intro l hl'
    obtain ⟨a, ha, rfl⟩ := List.mem_map.1 hl'
    have := List.idxOf_lt_length_iff.2 (hl a ha)
    rw [hn1] at this ⊢
    show mkLit _ (!a.pos) < 2 * (NSpec.learn X.names (as.map Lit.v)).length
    unfold mkLit
    split <;> omega
  · unfold Mini.solve
    rw [e1]
    simp only
    cases m1.y.step C.toCfg (.solve f (Mini.order m.names sel) (as.map (enc m1.names))) <;> rfl

/-! ### Enumeration and counting -/

theorem blocking_lt {model : List Bool} {rel : Option (List Nat)} {n : Nat} (hl : model.length = n) (hr : ∀ r, rel = some r → ∀ i ∈ r, i < n) : ∀ l ∈ blockingClause model rel, l < 2 * n := by
  intro l hl'
  obtain ⟨i, hi, rfl⟩ := List.mem_map.1 hl'
  have : i < n := by
    cases rel with
    | none => rw [Option.getD_none, hl] at hi; exact List.mem_range.1 hi
    | some r => exact hr r rfl i hi
  unfold mkLit
  split <;> omega

theorem enumLoop_conv (hm : C.clauseMin ≠ .none) (hE : ∀ n, Ends C.toCfg n) {cfg : EnumCfg} {rel all : Option (List Nat)} (n : Nat) :
    ∀ {x : Spec} {m : Mini F} (ms : List NModel), Holds C.toCfg x m.y → (∀ r, rel = some r → ∀ i ∈ r, i < x.n) → Conv fun f => m.enumLoop C f cfg rel all n ms := by
  induction n with
  | zero => exact fun _ _ _ => .panic
  | succ n ih =>
    intro x m ms h hr
    by_cases hmax : cfg.max.any (· ≤ ms.length) = true
    · refine (Conv.ok (m, ms)).congr fun f => ?_
      unfold Mini.enumLoop
      rw [if_pos hmax]
    · refine ((sat_conv hm hE h).bind (k := fun f (a : Mini F × Bool) => match a with
        | (m, false) => .ok (m, ms)
        | (m, true) =>
          let mo := createAssignment C m.names m.y.s.model all
          if !(mo.1.isEmpty && mo.2.isEmpty) then
            match m.y.step C.toCfg (.add (blockingClause m.y.s.model rel)) with
            | .ok (y, _) => Mini.enumLoop C f cfg rel all n (ms ++ [mo]) { m with y := y }
            | .panic => .panic
            | .diverge => .diverge
          else .ok (m, ms ++ [mo])) ?_).congr fun f => ?_
      · rintro f0 ⟨m1, b⟩ e
        obtain ⟨h1, _, hl⟩ := sat_holds hm h e
        cases b with
        | false => exact .ok _
        | true =>
          simp only
          split
          · have hleg : x.Legal (.add (blockingClause m1.y.s.model rel)) := blocking_lt (hl rfl) hr
            have hst := h1.step hm hleg (by rintro (h | ⟨k, h⟩) <;> cases h) (by rintro k h; cases h)
            revert hst
            match m1.y.step C.toCfg (.add (blockingClause m1.y.s.model rel)) with
            | .panic => exact False.elim
            | .diverge => rintro ⟨f, sel, as, h⟩; cases h
            | .ok (y, r) =>
              rintro ⟨x', hx, hh, _⟩
              cases hx
              exact ih (m := { m1 with y := y }) _ hh hr
          · exact .ok _
      · conv_lhs => unfold Mini.enumLoop
        rw [if_neg hmax]
        match m.solve C f [] [] with
        | .panic => rfl
        | .diverge => rfl
        | .ok (m, true) => rfl
        | .ok (m, false) => rfl

theorem enumerate_conv (hm : C.clauseMin ≠ .none) (hi : C.incremental = true) (hE : ∀ n, Ends C.toCfg n) {cfg : EnumCfg} (h : NHolds C X m) : Conv fun f => m.enumerate C f cfg := by
  obtain ⟨m1, e1, h1, hn1, _⟩ := h.save hm hi
  have hn : ∀ r, relevantIndices C cfg m1.names = some r → ∀ i ∈ r, i < m1.names.length := by
    intro r hr i hir
    unfold relevantIndices at hr
    split at hr
    · cases hr
      obtain ⟨v, _, hv⟩ := List.mem_filterMap.1 hir
      exact idx_lt hv
    · split at hr
      · cases hr
        obtain ⟨v, _, hv⟩ := List.mem_filterMap.1 hir
        exact idx_lt hv
      · cases hr
  refine ((enumLoop_conv hm hE (cfg := cfg) (rel := relevantIndices C cfg m1.names) (all := relevantAllIndices C cfg m1.names)
    (2 ^ ((relevantIndices C cfg m1.names).getD (List.range m1.names.length)).length + 1) [] h1.holds (by
    rw [h1.names] at hn ⊢; exact hn)).bind (k := fun _ (a : Mini F × List NModel) => match a.1.load C X.count with
      | .ok m => .ok (m, a.2)
      | .panic => .panic
      | .diverge => .diverge) ?_).congr fun f => ?_
  · rintro f0 ⟨m2, ms⟩ _
    refine .const ?_
    have := load_ne_diverge (C := C) (m := m2) (k := X.count)
    revert this
    simp only
    cases m2.load C X.count with
    | ok a => exact fun _ => nofun
    | panic => exact fun _ => nofun
    | diverge => exact fun h => absurd rfl h
  · unfold Mini.enumerate
    rw [e1]
    simp only
    cases m1.enumLoop C f cfg (relevantIndices C cfg m1.names) (relevantAllIndices C cfg m1.names) _ [] <;> rfl

theorem countLoop_conv (hm : C.clauseMin ≠ .none) (hE : ∀ n, Ends C.toCfg n) {max : Nat} (n : Nat) :
    ∀ {x : Spec} {m : Mini F} (k : Nat), Holds C.toCfg x m.y → Conv fun f => m.countLoop C f max n k := by
  induction n with
  | zero => exact fun _ _ => .panic
  | succ n ih =>
    intro x m k h
    by_cases hmax : k ≤ max
    · refine ((sat_conv hm hE h).bind (k := fun f (a : Mini F × Bool) => match a with
        | (m, false) => .ok (m, k)
        | (m, true) =>
            match m.y.step C.toCfg (.add (blockingClause m.y.s.model none)) with
            | .ok (y, _) => Mini.countLoop C f max n (k + 1) { m with y := y }
            | .panic => .panic
            | .diverge => .diverge) ?_).congr fun f => ?_
      · rintro f0 ⟨m1, b⟩ e
        obtain ⟨h1, _, hl⟩ := sat_holds hm h e
        cases b with
        | false => exact .ok _
        | true =>
          simp only
          have hleg : x.Legal (.add (blockingClause m1.y.s.model none)) := blocking_lt (hl rfl) nofun
          have hst := h1.step hm hleg (by rintro (h | ⟨k, h⟩) <;> cases h) (by rintro k h; cases h)
          revert hst
          match m1.y.step C.toCfg (.add (blockingClause m1.y.s.model none)) with
          | .panic => exact False.elim
          | .diverge => rintro ⟨f, sel, as, h⟩; cases h
          | .ok (y, r) =>
            rintro ⟨x', hx, hh, _⟩
            cases hx
            exact ih (m := { m1 with y := y }) _ hh
      · conv_lhs => unfold Mini.countLoop
        rw [if_pos hmax]
        match m.solve C f [] [] with
        | .panic => rfl
        | .diverge => rfl
        | .ok (m, true) => rfl
        | .ok (m, false) => rfl
    · refine (Conv.ok (m, k)).congr fun f => ?_
      unfold Mini.countLoop
      rw [if_neg hmax]

theorem countModels_conv (hm : C.clauseMin ≠ .none) (hE : ∀ n, Ends C.toCfg n) {max : Nat} (h : NHolds C X m) : Conv fun f => m.countModels C f max :=
  countLoop_conv hm hE _ 0 h.holds

/-! ### Backbones -/

/-- The literals of the computation are those of known variables. -/
def BbState.Below (n : Nat) (b : BbState) : Prop := (∀ l ∈ b.as, l < 2 * n) ∧ ∀ l ∈ b.cands, l < 2 * n

theorem BbState.Below.add {n : Nat} {b : BbState} (h : b.Below n) {l : Nat} (hl : l < 2 * n) : (b.add l).Below n :=
  ⟨fun x hx => (List.mem_append.1 hx).elim (h.1 x) fun hx => by rw [List.mem_singleton.1 hx]; exact hl, h.2⟩

theorem BbState.Below.addAll {n : Nat} (ls : List Nat) : ∀ {b : BbState}, b.Below n → (∀ l ∈ ls, l < 2 * n) → (ls.foldl BbState.add b).Below n := by
  induction ls with
  | nil => exact fun h _ => h
  | cons l ls ih => exact fun h hl => ih (h.add (hl l (by simp))) fun x hx => hl x (List.mem_cons_of_mem _ hx)

omit [LinearOrder F] [Flt F] in
theorem BbState.Below.refine {C : Cfg F} {s : St F} {n : Nat} {b : BbState} (h : b.Below n) : (refineUpperBound C s b).Below n :=
  ⟨(h.addAll (b.cands.filter fun l => s.level (vr l) == some 0) fun l hl => h.2 l (List.mem_filter.1 hl).1).1, fun l hl => h.2 l (List.mem_filter.1 hl).1⟩

theorem mkLit_lt {v n : Nat} (h : v < n) (b : Bool) : mkLit v b < 2 * n := by
  unfold mkLit
  split <;> omega

omit [LinearOrder F] [Flt F] in
theorem BbState.Below.initial {C : Cfg F} {t : BbType} {s : St F} {n : Nat} (vars : List Nat) : ∀ {b : BbState}, b.Below n → (∀ v ∈ vars, v < n) →
    (initialCandidates C t s vars b).Below n := by
  induction vars with
  | nil => exact fun h _ => h
  | cons v vs ih =>
    intro b h hv
    refine ih ?_ fun x hx => hv x (List.mem_cons_of_mem _ hx)
    unfold initialCandidate
    simp only
    split
    · exact h.add (mkLit_lt (hv v (by simp)) _)
    · split
      · exact ⟨h.1, fun x hx => (List.mem_append.1 hx).elim (h.2 x) fun hx => by rw [List.mem_singleton.1 hx]; exact mkLit_lt (hv v (by simp)) _⟩
      · exact h

theorem candidateLoop_conv {Φ : List (List Nat)} {C : Cfg F} (hm : C.clauseMin ≠ .none) (hE : ∀ n, Ends C n) (n : Nat) : ∀ {b : BbState} {s : St F}, Ready Φ C.incremental s →
    b.Below s.nvars → Conv fun f => candidateLoop C f n b s := by
  induction n with
  | zero => exact fun _ _ => .ok _
  | succ n ih =>
    intro b s h hb
    cases hl : b.cands.getLast? with
    | none =>
      refine (Conv.ok (s, b)).congr fun f => ?_
      unfold candidateLoop
      rw [hl]
    | some l =>
      have hlr : l < 2 * s.nvars := hb.2 l (List.mem_of_getLast? hl)
      have hdrop : BbState.Below s.nvars { b with cands := b.cands.dropLast } := ⟨hb.1, fun x hx => hb.2 x (List.mem_of_mem_dropLast hx)⟩
      have has : ∀ p ∈ b.as ++ [neg l], p < 2 * s.nvars := fun p hp => (List.mem_append.1 hp).elim (hb.1 p) fun hp => by
        rw [List.mem_singleton.1 hp]; exact neg_lt.2 hlr
      refine ((solveWith_conv C hm (hE _) h has).bind (k := fun f (a : St F × Bool) => match a with
        | (s, true) => candidateLoop C f n (refineUpperBound C s { b with cands := b.cands.dropLast }) s
        | (s, false) => candidateLoop C f n (({ b with cands := b.cands.dropLast } : BbState).add l) s) ?_).congr fun f => ?_
      · rintro f0 ⟨s1, r⟩ e
        have hsol := solveWith_ok C hm f0 h has
        rw [e] at hsol
        have hsol : Solved Φ C.incremental (b.as ++ [neg l]) s s1 r := hsol
        cases r with
        | true => exact ih hsol.ready (by rw [hsol.nvars]; exact hdrop.refine)
        | false => exact ih hsol.ready (by rw [hsol.nvars]; exact hdrop.add hlr)
      · conv_lhs => unfold candidateLoop
        rw [hl]
        simp only
        match solveWith C f (b.as ++ [neg l]) s with
        | .panic => rfl
        | .diverge => rfl
        | .ok (m, true) => rfl
        | .ok (m, false) => rfl

theorem computeBackbone_conv {Φ : List (List Nat)} {C : Cfg F} (hm : C.clauseMin ≠ .none) (hE : ∀ n, Ends C n) {s : St F} (h : Ready Φ C.incremental s) {vars : List Nat} {t : BbType}
    (hv : ∀ v ∈ vars, v < s.nvars) : Conv fun f => computeBackbone C f vars t s := by
  refine ((solve_conv C hm (hE _) h).bind (k := fun f (a : St F × Bool) => match a with
    | (s, false) => .ok (s, none)
    | (s, true) =>
      let s := { s with bb := true }
      let b := initialCandidates C t s vars ⟨[], [], fun _ => none⟩
      match candidateLoop C f b.cands.length b s with
      | .panic => .panic
      | .diverge => .diverge
      | .ok (s, b) => .ok ({ s with bb := false }, some b.map)) ?_).congr fun f => ?_
  · rintro f0 ⟨s1, r⟩ e
    have hsol := solve_ok C hm f0 h
    rw [e] at hsol
    obtain ⟨hsol, _⟩ : Solved Φ C.incremental s.assumptions s s1 r ∧ s1.assumptions = s.assumptions := hsol
    cases r with
    | false => exact .ok _
    | true =>
      simp only
      obtain ⟨s2, hs2⟩ : ∃ s2 : St F, s2 = { s1 with bb := true } := ⟨_, rfl⟩
      rw [← hs2]
      have hr2 : Ready Φ C.incremental s2 := hsol.ready.of_eq (by rw [hs2]) (by rw [hs2]) (by rw [hs2]) (by rw [hs2]) (by rw [hs2]) (by rw [hs2])
      have hn2 : s2.nvars = s.nvars := by rw [hs2]; exact hsol.nvars
      refine ((candidateLoop_conv hm hE (initialCandidates C t s2 vars ⟨[], [], fun _ => none⟩).cands.length hr2
        (BbState.Below.initial (C := C) (t := t) (s := s2) vars (b := ⟨[], [], fun _ => none⟩) ⟨(fun l hl => nomatch hl), (fun l hl => nomatch hl)⟩ (by rw [hn2]; exact hv))).bind
        (k := fun _ (a : St F × BbState) => Res.ok ({ a.1 with bb := false }, some a.2.map)) fun _ _ _ => .ok _).congr fun f => ?_
      cases candidateLoop C f _ _ s2 <;> rfl
  · unfold computeBackbone
    match solve C f s with
    | .panic => rfl
    | .diverge => rfl
    | .ok (m, true) => rfl
    | .ok (m, false) => rfl

theorem coreBackbone_conv (hm : C.clauseMin ≠ .none) (hE : ∀ n, Ends C.toCfg n) (h : NHolds C X m) (vars : List Var) (t : BbType) : Conv fun f => m.coreBackbone C f vars t := by
  refine ((computeBackbone_conv (C := C.toCfg) hm hE h.holds.ready (vars := vars.filterMap (idx m.names)) (t := t) (by
    intro v hv
    obtain ⟨w, _, hw⟩ := List.mem_filterMap.1 hv
    rw [h.holds.nvars]
    have := idx_lt hw
    rw [h.names] at this
    exact this)).bind (k := fun _ a => match a with
      | (s, none) => Res.ok ({ m with y := { m.y with s := s } }, none)
      | (s, some b) => Res.ok ({ m with y := { m.y with s := s } }, some (buildBackbone (idx m.names) b t vars))) ?_).congr fun f => ?_
  · rintro _ ⟨s, _ | b⟩ _
    · exact .ok _
    · exact .ok _
  · unfold Mini.coreBackbone
    match computeBackbone C.toCfg f (vars.filterMap (idx m.names)) t m.y.s with
    | .panic => rfl
    | .diverge => rfl
    | .ok (s, none) => rfl
    | .ok (s, some b) => rfl

/-- Loading a state at the end. -/
theorem load_conv {α : Type} (k : Nat) (m : Mini F) (r : α) : Conv fun _ => match m.load C k with
    | .ok m => .ok (m, r)
    | .panic => .panic
    | .diverge => .diverge := by
  refine .const ?_
  have := load_ne_diverge (C := C) (m := m) (k := k)
  revert this
  cases m.load C k with
  | ok a => exact fun _ => nofun
  | panic => exact fun _ => nofun
  | diverge => exact fun h => absurd rfl h

theorem backbone_conv (hm : C.clauseMin ≠ .none) (hE : ∀ n, Ends C.toCfg n) (h : NHolds C X m) (vars : List Var) (t : BbType) : Conv fun f => m.backbone C f vars t := by
  by_cases hi : C.incremental = true
  · obtain ⟨m1, e1, h1, _⟩ := h.save hm hi
    refine ((coreBackbone_conv hm hE h1 vars t).bind (k := fun _ a => match a.1.load C X.count with
      | .ok m => .ok (m, a.2)
      | .panic => .panic
      | .diverge => .diverge) fun _ a _ => load_conv _ _ _).congr fun f => ?_
    unfold Mini.backbone
    rw [if_pos hi, e1]
    simp only
    cases m1.coreBackbone C f vars t <;> rfl
  · refine (coreBackbone_conv hm hE h vars t).congr fun f => ?_
    unfold Mini.backbone
    rw [if_neg hi]

/-! ### Optimization -/

theorem Out.bind_ne {α β : Type} {a : Out α} {f : α → Out β} (ha : a ≠ .diverge) (hf : ∀ x, f x ≠ .diverge) : a.bind f ≠ .diverge := by
  cases a with
  | ok x => exact hf x
  | panic => exact nofun
  | diverge => exact absurd rfl ha

theorem Out.ofOption_ne {α : Type} (o : Option α) : Out.ofOption o ≠ .diverge := by cases o <;> exact nofun

theorem getU_ne (l : List Lit) (i : Nat) : getU l i ≠ .diverge := by unfold getU; split <;> exact nofun

theorem ccAlk_ne (cfg : AmkEnc) (vars : List Var) (rhs : Nat) (inc : Bool) (s : ER) : ccAlk cfg vars rhs inc s ≠ .diverge := by
  have hcn : cnAlk vars rhs inc s ≠ .diverge := by
    unfold cnAlk
    simp only
    split
    · exact Out.bind_ne (Out.ofOption_ne _) fun _ => Out.bind_ne (getU_ne _ _) fun _ => nofun
    · split
      · exact Out.bind_ne (Out.ofOption_ne _) fun _ => nofun
      · exact Out.bind_ne (Out.ofOption_ne _) fun _ => Out.bind_ne (getU_ne _ _) fun _ => nofun
  unfold ccAlk
  repeat' split
  all_goals first
    | exact hcn
    | (intro h; cases h)
    | exact Out.bind_ne (Out.ofOption_ne _) fun _ => nofun

theorem newLower_ne (d : IncData) (rhs : Nat) (s : ER) : newLower d rhs s ≠ .diverge := by
  have ha : ∀ (d : IncData) (r : Nat), addModular d r s ≠ .diverge := by
    intro d r
    unfold addModular
    repeat' split
    all_goals exact nofun
  unfold newLower
  simp only
  repeat' split
  all_goals first
    | (intro h; cases h)
    | exact Out.bind_ne (ha _ _) fun _ => nofun

theorem optLoop_conv (hm : C.clauseMin ≠ .none) (hE : ∀ n, Ends C.toCfg n) {o : OptF} {sels : List Var} (n : Nat) :
    ∀ {X : NSpec} {data : Option IncData} {er : ER} {model : List Bool} {m : Mini F}, NHolds C X m → Conv fun f => m.optLoop C f o sels n data er model := by
  induction n with
  | zero => exact fun _ => .panic
  | succ n ih =>
    intro X data er model m h
    refine ((solve_conv_mini hm hE h [] []).bind (k := fun f (a : Mini F × Bool) => match a with
      | (m, false) => .ok (m, some (m.resultModel C o.vars model))
      | (m, true) =>
        if m.trueOf C sels = sels.length then .ok (m, some (m.resultModel C o.vars m.y.s.model))
        else
          match data with
          | none => .panic
          | some d =>
            match newLower d (m.trueOf C sels + 1) er with
            | .panic => .panic
            | .diverge => .diverge
            | .ok (d, er') =>
              match m.write C er er' with
              | .panic => .panic
              | .diverge => .diverge
              | .ok m' => Mini.optLoop C f o sels n (some d) er' m.y.s.model m') ?_).congr fun f => ?_
    · rintro f0 ⟨m1, b⟩ e
      have hs := h.solve hm f0 [] []
      rw [e] at hs
      obtain ⟨h1, _⟩ := hs
      cases b with
      | false => exact .ok _
      | true =>
        simp only
        split
        · exact .ok _
        · cases data with
          | none => exact .panic
          | some d =>
            simp only
            have hne := newLower_ne d (m1.trueOf C sels + 1) er
            revert hne
            match newLower d (m1.trueOf C sels + 1) er with
            | .panic => exact fun _ => .panic
            | .diverge => exact fun h => absurd rfl h
            | .ok (d, er') =>
              intro _
              obtain ⟨m2, e2, h2, _⟩ := h1.write er er'
              simp only [e2]
              exact ih h2
    · conv_lhs => unfold Mini.optLoop
      match m.solve C f [] [] with
      | .panic => rfl
      | .diverge => rfl
      | .ok (m, true) => rfl
      | .ok (m, false) => rfl

theorem optRest_conv (hm : C.clauseMin ≠ .none) (hE : ∀ n, Ends C.toCfg n) (cc : CcCfg) {o : OptF} {sels : List Var} {er : ER} {model : List Bool} {bound : Nat}
    (h : NHolds C X m) : Conv fun f => m.optRest C cc f o sels er model bound := by
  unfold Mini.optRest
  have hne := ccAlk_ne cc.alk sels (bound + 1) true er
  have he : encodeIncremental cc ⟨sels, .ge, bound + 1⟩ er = ccAlk cc.alk sels (bound + 1) true er := rfl
  rw [← he] at hne
  revert hne
  match encodeIncremental cc ⟨sels, .ge, bound + 1⟩ er with
  | .panic => exact fun _ => .panic
  | .diverge => exact fun h => absurd rfl h
  | .ok (data, er') =>
    intro _
    obtain ⟨m2, e2, h2, _⟩ := h.write er er'
    simp only [e2]
    exact optLoop_conv hm hE _ h2

theorem optCompute_conv (hm : C.clauseMin ≠ .none) (hE : ∀ n, Ends C.toCfg n) (cc : CcCfg) {o : OptF} {sm : List (Var × Lit)} {cnt : AuxTy → Nat}
    (h : NHolds C X m) : Conv fun f => m.optCompute C cc f o sm cnt := by
  obtain ⟨m1, e1, h1, _⟩ := h.addAll (selClauses o.maximize sm)
  refine ((solve_conv_mini hm hE h1 [] []).bind (k := fun f (a : Mini F × Bool) => match a with
    | (m, false) => .ok (m, none)
    | (m, true) =>
      if m.trueOf C (sm.map Prod.fst) = 0 then
        match encodeConstraint cc 0 ⟨sm.map Prod.fst, .ge, 1⟩ ⟨cnt, []⟩ with
        | .panic => .panic
        | .diverge => .diverge
        | .ok er =>
          match m.write C ⟨cnt, []⟩ er with
          | .panic => .panic
          | .diverge => .diverge
          | .ok m1 =>
            match m1.solve C f [] [] with
            | .panic => .panic
            | .diverge => .diverge
            | .ok (m2, false) => .ok (m2, some (m2.resultModel C o.vars m.y.s.model))
            | .ok (m2, true) => m2.optRest C cc f o (sm.map Prod.fst) er m2.y.s.model (m2.trueOf C (sm.map Prod.fst))
      else if m.trueOf C (sm.map Prod.fst) = (sm.map Prod.fst).length then .ok (m, some (m.resultModel C o.vars m.y.s.model))
      else m.optRest C cc f o (sm.map Prod.fst) ⟨cnt, []⟩ m.y.s.model (m.trueOf C (sm.map Prod.fst))) ?_).congr fun f => ?_
  · rintro f0 ⟨m2, b⟩ e
    have hs := h1.solve hm f0 [] []
    rw [e] at hs
    obtain ⟨h2, _⟩ := hs
    cases b with
    | false => exact .ok _
    | true =>
      simp only
      split
      · have hne : encodeConstraint cc 0 ⟨sm.map Prod.fst, .ge, 1⟩ ⟨cnt, []⟩ ≠ .diverge := Out.bind_ne (ccAlk_ne _ _ _ _ _) fun _ => nofun
        revert hne
        match encodeConstraint cc 0 ⟨sm.map Prod.fst, .ge, 1⟩ ⟨cnt, []⟩ with
        | .panic => exact fun _ => .panic
        | .diverge => exact fun h => absurd rfl h
        | .ok er =>
          intro _
          obtain ⟨m3, e3, h3, _⟩ := h2.write ⟨cnt, []⟩ er
          simp only [e3]
          refine ((solve_conv_mini hm hE h3 [] []).bind (k := fun f (a : Mini F × Bool) => match a with
            | (m4, false) => .ok (m4, some (m4.resultModel C o.vars m2.y.s.model))
            | (m4, true) => m4.optRest C cc f o (sm.map Prod.fst) er m4.y.s.model (m4.trueOf C (sm.map Prod.fst))) ?_).congr fun f => ?_
          · rintro f0 ⟨m4, b⟩ e
            have hs := h3.solve hm f0 [] []
            rw [e] at hs
            obtain ⟨h4, _⟩ := hs
            cases b with
            | false => exact .ok _
            | true => exact optRest_conv hm hE cc h4
          · match m3.solve C f [] [] with
            | .panic => rfl
            | .diverge => rfl
            | .ok (m, true) => rfl
            | .ok (m, false) => rfl
      · split
        · exact .ok _
        · exact optRest_conv hm hE cc h2
  · unfold Mini.optCompute
    simp only [e1]
    match m1.solve C f [] [] with
    | .panic => rfl
    | .diverge => rfl
    | .ok (m, true) => rfl
    | .ok (m, false) => rfl

theorem optimize_conv (hm : C.clauseMin ≠ .none) (hE : ∀ n, Ends C.toCfg n) (cc : CcCfg) {o : OptF} {sm : List (Var × Lit)} {cnt : AuxTy → Nat}
    (h : NHolds C X m) : Conv fun f => m.optimize C cc f o sm cnt := by
  by_cases hi : C.incremental = true
  · obtain ⟨m1, e1, h1, _⟩ := h.save hm hi
    refine ((optCompute_conv hm hE cc (o := o) (sm := sm) (cnt := cnt) h1).bind (k := fun _ a => match a.1.load C X.count with
      | .ok m => .ok (m, a.2)
      | .panic => .panic
      | .diverge => .diverge) fun _ a _ => load_conv _ _ _).congr fun f => ?_
    unfold Mini.optimize
    rw [if_pos hi, e1]
    simp only
    cases m1.optCompute C cc f o sm cnt <;> rfl
  · refine (optCompute_conv hm hE cc (o := o) (sm := sm) (cnt := cnt) h).congr fun f => ?_
    unfold Mini.optimize
    rw [if_neg hi]

end
end Verif.Sat
