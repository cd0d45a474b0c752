import Verif.Sat.Session
import Mathlib.Tactic.ByContra
/-
Backbones: the literals that are true in all models, minisat2.rs:1177-1283.
-/
namespace Verif.Sat
open St

/-- solver/functions/backbone_function.rs:9-16 -/
inductive BbType
  | onlyPositive
  | onlyNegative
  | positiveAndNegative
deriving DecidableEq

/-- solver/functions/backbone_function.rs:21-27 -/
def BbType.matchesPhase : BbType → Bool → Bool
  | .onlyPositive, phase => phase
  | .onlyNegative, phase => !phase
  | .positiveAndNegative, _ => true

section
variable {F : Type} [LinearOrder F] [Flt F]

/-- `is_unit`, minisat2.rs:1281-1283.  The index of the model is always in range where it is called. -/
def isUnit (s : St F) (l : Nat) (cl : List Nat) : Bool :=
  !cl.any fun c => l != c && (s.model.getD (vr c) false != sgn c)

/-- `is_rotatable`, minisat2.rs:1272-1279 -/
def isRotatable (s : St F) (l : Nat) : Bool :=
  if (s.reason (vr l)).isSome then false
  else !(s.watches (neg l)).any fun w => isUnit s l (s.data w.1)

/-- `BackboneComputationState`, minisat2.rs:1317-1321: the candidates and assumptions in the order in which they were pushed, and the value of each
variable in the backbone. -/
structure BbState where
  cands : List Nat
  as : List Nat
  map : Nat → Option Bool

/-- `add_backbone_literal`, minisat2.rs:1324-1327 -/
def BbState.add (b : BbState) (l : Nat) : BbState := { b with as := b.as ++ [l], map := upd b.map (vr l) (some (!sgn l)) }

/-- One variable in `create_initial_candidates`, minisat2.rs:1211-1219.  The index of the model is always in range where it is called. -/
def initialCandidate (C : Cfg F) (t : BbType) (s : St F) (b : BbState) (v : Nat) : BbState :=
  let phase := s.model.getD v false
  let l := mkLit v (!phase)
  if s.level v = some 0 then b.add l
  else if (t.matchesPhase phase && (!C.bbInitialRotatable || !isRotatable s l)) = true then { b with cands := b.cands ++ [l] }
  else b

/-- `create_initial_candidates`, minisat2.rs:1209-1221 -/
def initialCandidates (C : Cfg F) (t : BbType) (s : St F) (vars : List Nat) (b : BbState) : BbState := vars.foldl (initialCandidate C t s) b

/-- The candidates kept by `refine_upper_bound`, minisat2.rs:1226-1235. -/
def keepCandidate (C : Cfg F) (s : St F) (l : Nat) : Bool :=
  !(s.level (vr l) == some 0) &&
    !(C.bbComplement && (s.model.getD (vr l) false == sgn l) || C.bbRotatable && isRotatable s l)

/-- `refine_upper_bound`, minisat2.rs:1223-1240 -/
def refineUpperBound (C : Cfg F) (s : St F) (b : BbState) : BbState :=
  { (b.cands.filter fun l => s.level (vr l) == some 0).foldl BbState.add b with cands := b.cands.filter (keepCandidate C s) }

/-- The loop of `backbone_impl`, minisat2.rs:1197-1206.  The first number bounds the number of iterations by the number of candidates, which gets
smaller in each iteration; the list is empty when it reaches 0. -/
def candidateLoop (C : Cfg F) (fuel : Nat) : Nat → BbState → St F → Res (St F × BbState)
  | 0, b, s => .ok (s, b)
  | n + 1, b, s =>
    match b.cands.getLast? with
    | none => .ok (s, b)
    | some l =>
      match solveWith C fuel (b.as ++ [neg l]) s with
      | .panic => .panic
      | .diverge => .diverge
      | .ok (s, true) => candidateLoop C fuel n (refineUpperBound C s { b with cands := b.cands.dropLast }) s
      | .ok (s, false) => candidateLoop C fuel n (({ b with cands := b.cands.dropLast } : BbState).add l) s

/-- `compute_backbone`, minisat2.rs:1177-1189, for the indices of the known variables; `none` if there is no model, else the backbone map. -/
def computeBackbone (C : Cfg F) (fuel : Nat) (vars : List Nat) (t : BbType) (s : St F) : Res (St F × Option (Nat → Option Bool)) :=
  match solve C fuel s with
  | .panic => .panic
  | .diverge => .diverge
  | .ok (s, false) => .ok (s, none)
  | .ok (s, true) =>
    let s := { s with bb := true }
    let b := initialCandidates C t s vars ⟨[], [], fun _ => none⟩
    match candidateLoop C fuel b.cands.length b s with
    | .panic => .panic
    | .diverge => .diverge
    | .ok (s, b) => .ok ({ s with bb := false }, some b.map)

end

/-- backbones/backbone.rs: the three sets (as lists), `none` if not computed. -/
structure Backbone (V : Type) where
  pos : Option (List V)
  neg : Option (List V)
  opt : Option (List V)

/-- `build_backbone`, minisat2.rs:1242-1270: `idx` gives the index of a known variable.  The sets are lists here. -/
def buildBackbone {V : Type} (idx : V → Option Nat) (m : Nat → Option Bool) (t : BbType) (vars : List V) : Backbone V where
  pos := if t = .onlyNegative then none else some (vars.filter fun v => (idx v).bind m == some true)
  neg := if t = .onlyPositive then none else some (vars.filter fun v => (idx v).bind m == some false)
  opt := if t = .positiveAndNegative then some (vars.filter fun v => (idx v).bind m == none) else none

/-! ### Correctness -/

section
variable {F : Type} [LinearOrder F] [Flt F] {Φ : List (List Nat)} {inc : Bool} {c : Core} {s : St F} {C : Cfg F}

theorem Final.trail (h : Final Φ inc c s) {l : Nat} (hl : l < 2 * s.nvars) : litT (modelVal s.model) l ↔ l ∈ c.trail := by
  rw [h.model]
  constructor
  · intro ht
    by_contra hn
    by_cases hg : neg l ∈ c.trail
    · exact litT_neg.1 (h.inv.valuation hg) ht
    · have := (h.inv.val_none l).2 ⟨hn, hg⟩
      unfold Core.value at this
      exact h.all (vr l) (by rw [← h.nvars]; exact vr_lt.2 hl) (Option.map_eq_none_iff.1 this)
  · exact h.inv.valuation

/-- Literals of level 0 are true in all models. -/
theorem Final.zero (h : Final Φ inc c s) {l : Nat} (hl : l < 2 * s.nvars) (h0 : s.level (vr l) = some 0) (ht : litT (modelVal s.model) l) : Ent Φ [l] :=
  h.inv.zero l ((h.trail hl).1 ht) (by rw [h.level] at h0; simp [Core.lv, h0])

/-- One of the watched literals is true. -/
theorem Final.watched (h : Final Φ inc c s) {id c0 c1 : Nat} {r : List Nat} (e : c.data id = c0 :: c1 :: r)
    (h0 : id ∈ (c.watches (neg c0)).map Prod.fst) (h1 : id ∈ (c.watches (neg c1)).map Prod.fst) (hr0 : c0 < 2 * s.nvars) (hr1 : c1 < 2 * s.nvars) :
    c0 ∈ c.trail ∨ c1 ∈ c.trail := by
  obtain ⟨⟨_, b0⟩, hw0, rfl⟩ := List.mem_map.1 h0
  obtain ⟨⟨i1, b1⟩, hw1, hi⟩ := List.mem_map.1 h1
  simp only at hi e hw0 hw1
  subst hi
  by_cases t0 : litT (modelVal s.model) c0
  · exact .inl ((h.trail hr0).1 t0)
  by_cases t1 : litT (modelVal s.model) c1
  · exact .inr ((h.trail hr1).1 t1)
  have n0 := (h.trail (neg_lt.2 hr0)).1 (litT_neg.2 t0)
  have n1 := (h.trail (neg_lt.2 hr1)).1 (litT_neg.2 t1)
  have hd : ∀ x ∈ c.trail, x ∈ c.done c.qhead := fun x hx => by unfold Core.done; rw [h.full]; simpa using hx
  obtain ⟨x0, _, ht0, _, e0⟩ := h.inv.valid _ (hd _ n0) _ hw0
  obtain ⟨x1, _, ht1, _, e1⟩ := h.inv.valid _ (hd _ n1) _ hw1
  simp only at e0 e1
  subst e0 e1
  rcases h.inv.mutual_ _ _ _ _ _ _ e hw0 hw1 with hb | hb
  · exact .inr (hb ▸ ht0)
  · exact .inl (hb ▸ ht1)

/-- A rotatable literal is false in some model. -/
theorem Final.rotate (h : Final Φ inc c s) (hM : Models (modelVal s.model) Φ) {l : Nat} (hl : l < 2 * s.nvars) (h0 : s.level (vr l) ≠ some 0)
    (hr : isRotatable s l = true) : ∃ ρ, Models ρ Φ ∧ ¬ litT ρ l := by
  by_cases ht : litT (modelVal s.model) l
  rotate_left
  · exact ⟨_, hM, ht⟩
  have hlt := (h.trail hl).1 ht
  refine ⟨upd (valuation c) (vr l) (sgn l), ?_, ?_⟩
  rotate_left
  · rw [litT_iff, upd_self]; simp
  have key : ∀ x ∈ c.trail, x ≠ l → litT (upd (valuation c) (vr l) (sgn l)) x := by
    intro x hx hne
    rw [litT_iff, upd_ne _ _ fun e => hne (h.inv.trail_inj hx hlt e), ← litT_iff]
    exact h.inv.valuation hx
  have hlv : c.lv l ≠ 0 := by
    obtain ⟨k, hk, _⟩ := h.inv.twf.le l hlt
    rw [h.level, hk] at h0
    intro e
    simp only [Core.lv, hk, Option.getD_some] at e
    exact h0 (by rw [e])
  refine h.eqv _ (fun id hid => ?_) fun x hx hx0 => key x hx fun e => hlv (e ▸ hx0)
  have hgood := (h.inv.good id (.inl hid)).1
  rw [← h.nvars] at hgood
  suffices hs : ∃ x ∈ c.data id, x ∈ c.trail ∧ x ≠ l by
    obtain ⟨x, h1, h2, h3⟩ := hs
    exact ⟨x, h1, key x h2 h3⟩
  rcases h.inv.cov id (List.mem_append_left _ hid) with ⟨_, t, ht, htt, h0⟩ | ⟨c0, c1, r, e, m0, m1⟩
  · exact ⟨t, ht, htt, fun e => hlv (e ▸ h0)⟩
  · have d0 : c0 ∈ c.data id := by rw [e]; simp
    have d1 : c1 ∈ c.data id := by rw [e]; simp
    have hw := h.watched e m0 m1 (hgood.rng _ d0) (hgood.rng _ d1)
    by_cases hc : (c0 ∈ c.trail ∧ c0 ≠ l) ∨ (c1 ∈ c.trail ∧ c1 ≠ l)
    · rcases hc with ⟨h1, h2⟩ | ⟨h1, h2⟩
      · exact ⟨c0, d0, h1, h2⟩
      · exact ⟨c1, d1, h1, h2⟩
    · have hm : id ∈ (c.watches (neg l)).map Prod.fst := by
        rcases hw with hw | hw
        · have : c0 = l := by by_contra hne; exact hc (.inl ⟨hw, hne⟩)
          rw [← this]; exact m0
        · have : c1 = l := by by_contra hne; exact hc (.inr ⟨hw, hne⟩)
          rw [← this]; exact m1
      obtain ⟨w, hwm, rfl⟩ := List.mem_map.1 hm
      unfold isRotatable at hr
      split at hr
      · cases hr
      · simp only [Bool.not_eq_eq_eq_not, Bool.not_true, List.any_eq_false] at hr
        have := hr w (by rw [h.watches]; exact hwm)
        simp only [isUnit, Bool.not_eq_eq_eq_not, Bool.not_true, Bool.not_eq_false, List.any_eq_true, Bool.and_eq_true, bne_iff_ne, ne_eq, h.data] at this
        obtain ⟨x, hx, hxl, hxm⟩ := this
        refine ⟨x, hx, (h.trail (hgood.rng x hx)).1 ?_, fun e => hxl e.symm⟩
        rw [litT_iff]
        unfold modelVal
        cases hb : s.model.getD (vr x) false <;> cases hs : sgn x <;> simp_all

/-- What the backbone computation maintains: `vs` are the variables considered so far. -/
structure BbInv (Φ : List (List Nat)) (n : Nat) (t : BbType) (vs : List Nat) (b : BbState) : Prop where
  map : ∀ v x, b.map v = some x → Ent Φ [mkLit v (!x)]
  ent : ∀ l ∈ b.as, Ent Φ [l]
  arng : ∀ l ∈ b.as, l < 2 * n
  rng : ∀ l ∈ b.cands, l < 2 * n
  poss : ∀ l ∈ b.cands, ∃ ρ, Models ρ Φ ∧ litT ρ l
  full : ∀ l, vr l ∈ vs → t.matchesPhase (!sgn l) = true → Ent Φ [l] → b.map (vr l) = some (!sgn l) ∨ l ∈ b.cands

/-- Only one of two opposite literals is true in all models. -/
theorem ent_inj {ρ : Nat → Bool} (hρ : Models ρ Φ) {a b : Nat} (ha : Ent Φ [a]) (hb : Ent Φ [b]) (e : vr a = vr b) : a = b := by
  rcases vr_eq e with h | h
  · exact h
  · rw [h] at ha
    exact absurd (hb.lit hρ) (litT_neg.1 (ha.lit hρ))

theorem BbInv.add {n : Nat} {t : BbType} {vs : List Nat} {b : BbState} (h : BbInv Φ n t vs b) {ρ : Nat → Bool} (hρ : Models ρ Φ) {l : Nat} (hl : l < 2 * n) (he : Ent Φ [l]) :
    BbInv Φ n t vs (b.add l) where
  map v x hx := by
    have hx : upd b.map (vr l) (some (!sgn l)) v = some x := hx
    by_cases hv : v = vr l
    · subst hv
      rw [upd_self] at hx
      cases hx
      rw [Bool.not_not, mkLit_vr]
      exact he
    · rw [upd_ne _ _ hv] at hx
      exact h.map v x hx
  ent x hx := by
    rcases List.mem_append.1 hx with hx | hx
    · exact h.ent x hx
    · rw [List.mem_singleton.1 hx]; exact he
  arng x hx := by
    rcases List.mem_append.1 hx with hx | hx
    · exact h.arng x hx
    · rw [List.mem_singleton.1 hx]; exact hl
  rng := h.rng
  poss := h.poss
  full x hx hm hex := by
    by_cases hv : vr x = vr l
    · have := ent_inj hρ hex he hv
      subst this
      exact .inl (upd_self ..)
    · refine (h.full x hx hm hex).imp (fun h' => ?_) fun h' => h'
      exact (upd_ne _ _ hv).trans h'

theorem BbInv.adds {n : Nat} {t : BbType} {vs : List Nat} {ρ : Nat → Bool} (hρ : Models ρ Φ) (ls : List Nat) :
    ∀ {b : BbState}, BbInv Φ n t vs b → (∀ l ∈ ls, l < 2 * n ∧ Ent Φ [l]) → BbInv Φ n t vs (ls.foldl BbState.add b) ∧ (ls.foldl BbState.add b).cands = b.cands ∧
      ∀ l ∈ ls, (ls.foldl BbState.add b).map (vr l) = some (!sgn l) := by
  induction ls with
  | nil => intro b h _; exact ⟨h, rfl, fun l hl => by cases hl⟩
  | cons a ls ih =>
    intro b h hls
    have h1 := h.add hρ (hls a (by simp)).1 (hls a (by simp)).2
    obtain ⟨h2, h3, h4⟩ := ih h1 fun l hl => hls l (List.mem_cons_of_mem _ hl)
    refine ⟨h2, h3, fun l hl => ?_⟩
    rcases List.mem_cons.1 hl with rfl | hl
    · rw [List.foldl_cons]
      suffices hk : ∀ (ks : List Nat) (b : BbState), (∀ k ∈ ks, Ent Φ [k]) → b.map (vr l) = some (!sgn l) → (ks.foldl BbState.add b).map (vr l) = some (!sgn l) from
        hk ls _ (fun k hk => (hls k (List.mem_cons_of_mem _ hk)).2) (upd_self ..)
      intro ks
      induction ks with
      | nil => intro b _ hb; exact hb
      | cons k ks ihk =>
        intro b hks hb
        refine ihk _ (fun k' hk' => hks k' (List.mem_cons_of_mem _ hk')) ?_
        by_cases hv : vr l = vr k
        · have := ent_inj hρ (hls l (by simp)).2 (hks k (by simp)) hv
          subst this
          exact upd_self ..
        · exact (upd_ne _ _ hv).trans hb
    · exact h4 l hl

/-- The true literal of a variable in the model. -/
theorem model_lit {v : Nat} {l : Nat} (hv : vr l = v) : litT (modelVal s.model) l ↔ l = mkLit v (!s.model.getD v false) := by
  rw [litT_iff]
  unfold modelVal
  rw [hv]
  constructor
  · intro h
    apply eq_of_vr_sgn
    · rw [vr_mkLit, hv]
    · rw [sgn_mkLit, h]; simp
  · rintro rfl
    rw [sgn_mkLit]; simp

theorem initialCandidate_ok (hf : Final Φ inc c s) (hM : Models (modelVal s.model) Φ) {t : BbType} {vs : List Nat} {b : BbState} (h : BbInv Φ s.nvars t vs b)
    {v : Nat} (hv : v < s.nvars) : BbInv Φ s.nvars t (vs ++ [v]) (initialCandidate C t s b v) := by
  have hlr : mkLit v (!s.model.getD v false) < 2 * s.nvars := vr_lt.1 (by rw [vr_mkLit]; exact hv)
  have hlt : litT (modelVal s.model) (mkLit v (!s.model.getD v false)) := (model_lit (vr_mkLit _ _)).2 rfl
  have hone : ∀ l, vr l = v → Ent Φ [l] → l = mkLit v (!s.model.getD v false) := fun l hl he => (model_lit hl).1 (he.lit hM)
  have mem : ∀ l, vr l ∈ vs ++ [v] → vr l ∈ vs ∨ vr l = v := fun l hl => by simpa using hl
  unfold initialCandidate
  simp only
  split
  · next h0 =>
    have he := hf.zero hlr (by rw [vr_mkLit]; exact h0) hlt
    have h1 := h.add hM hlr he
    refine { h1 with full := fun l hl hm hel => ?_ }
    rcases mem l hl with h' | h'
    · exact h1.full l h' hm hel
    · rw [hone l h' hel]
      exact .inl (upd_self ..)
  · next h0 =>
    split
    · exact
      { map := h.map
        ent := h.ent
        arng := h.arng
        rng := fun l hl => by
          rcases List.mem_append.1 hl with hl | hl
          · exact h.rng l hl
          · rw [List.mem_singleton.1 hl]; exact hlr
        poss := fun l hl => by
          rcases List.mem_append.1 hl with hl | hl
          · exact h.poss l hl
          · rw [List.mem_singleton.1 hl]; exact ⟨_, hM, hlt⟩
        full := fun l hl hm hel => by
          rcases mem l hl with h' | h'
          · exact (h.full l h' hm hel).imp (fun h => h) fun h => List.mem_append_left _ h
          · rw [hone l h' hel]; exact .inr (by simp) }
    · next hc =>
      refine { h with full := fun l hl hm hel => ?_ }
      rcases mem l hl with h' | h'
      · exact h.full l h' hm hel
      · exfalso
        have e := hone l h' hel
        rw [e, sgn_mkLit, Bool.not_not] at hm
        rw [hm] at hc
        simp only [Bool.true_and, Bool.or_eq_true, Bool.not_eq_eq_eq_not, Bool.not_true, not_or, Bool.not_eq_false] at hc
        obtain ⟨ρ, h1, h2⟩ := hf.rotate hM hlr (by rw [vr_mkLit]; exact h0) hc.2
        rw [← e] at h2
        exact h2 (hel.lit h1)

theorem initialCandidates_ok (hf : Final Φ inc c s) (hM : Models (modelVal s.model) Φ) {t : BbType} (vars : List Nat) :
    ∀ {vs : List Nat} {b : BbState}, BbInv Φ s.nvars t vs b → (∀ v ∈ vars, v < s.nvars) → BbInv Φ s.nvars t (vs ++ vars) (initialCandidates C t s vars b) := by
  induction vars with
  | nil => intro vs b h _; rw [List.append_nil]; exact h
  | cons v vars ih =>
    intro vs b h hv
    have := ih (initialCandidate_ok (C := C) hf hM h (hv v (by simp))) fun w hw => hv w (List.mem_cons_of_mem _ hw)
    rw [List.append_assoc] at this
    exact this

/-- The candidates are refined with a new model; the literal that was just disproved has been removed. -/
theorem refineUpperBound_ok (hf : Final Φ inc c s) (hM : Models (modelVal s.model) Φ) {t : BbType} {vs : List Nat} {b : BbState} (h : BbInv Φ s.nvars t vs b) :
    BbInv Φ s.nvars t vs (refineUpperBound C s b) ∧ (refineUpperBound C s b).cands.length ≤ b.cands.length := by
  have hz : ∀ l ∈ b.cands, s.level (vr l) = some 0 → Ent Φ [l] := by
    intro l hl h0
    by_cases ht : litT (modelVal s.model) l
    · exact hf.zero (h.rng l hl) h0 ht
    · have := hf.zero (neg_lt.2 (h.rng l hl)) (by rw [vr_neg]; exact h0) (litT_neg.2 ht)
      obtain ⟨ρ, h1, h2⟩ := h.poss l hl
      exact absurd h2 (litT_neg.1 (this.lit h1))
  obtain ⟨h1, h2, h3⟩ := BbInv.adds hM (b.cands.filter fun l => s.level (vr l) == some 0) h fun l hl => by
    simp only [List.mem_filter, beq_iff_eq] at hl
    exact ⟨h.rng l hl.1, hz l hl.1 hl.2⟩
  refine ⟨?_, List.length_filter_le ..⟩
  unfold refineUpperBound
  exact
  { map := h1.map
    ent := h1.ent
    arng := h1.arng
    rng := fun l hl => h.rng l (List.mem_filter.1 hl).1
    poss := fun l hl => h.poss l (List.mem_filter.1 hl).1
    full := fun l hl hm hel => by
      rcases h1.full l hl hm hel with h' | h'
      · exact .inl h'
      · rw [h2] at h'
        by_cases h0 : s.level (vr l) = some 0
        · exact .inl (h3 l (List.mem_filter.2 ⟨h', by simp [h0]⟩))
        · right
          refine List.mem_filter.2 ⟨h', ?_⟩
          unfold keepCandidate
          have ht := hel.lit hM
          rw [litT_iff] at ht
          unfold modelVal at ht
          have hnr : isRotatable s l = false := by
            cases hr : isRotatable s l with
            | false => rfl
            | true =>
              obtain ⟨ρ, k1, k2⟩ := hf.rotate hM (h.rng l h') h0 hr
              exact absurd (hel.lit k1) k2
          rw [ht, hnr]
          simp [h0] }

end

/-- What the solver functions leave unchanged. -/
structure Kept {F : Type} (Φ : List (List Nat)) (inc : Bool) (s s' : St F) : Prop where
  ready : Ready Φ inc s'
  ext : inc = true → Ext s s'
  nvars : s'.nvars = s.nvars
  sel : s'.sel = s.sel
  ass : s'.assumptions = []
  cls : inc = true → s'.clauses = s.clauses

theorem Kept.trans {F : Type} {Φ : List (List Nat)} {inc : Bool} {s s1 s2 : St F} (h : Kept Φ inc s s1) (h' : Kept Φ inc s1 s2) : Kept Φ inc s s2 where
  ready := h'.ready
  ext hi := (h.ext hi).trans (h'.ext hi)
  nvars := h'.nvars.trans h.nvars
  sel := h'.sel.trans h.sel
  ass := h'.ass
  cls hi := (h'.cls hi).trans (h.cls hi)

section
variable {F : Type} [LinearOrder F] [Flt F] {Φ : List (List Nat)} {C : Cfg F}

theorem candidateLoop_ok (hm : C.clauseMin ≠ .none) (fuel : Nat) {ρ : Nat → Bool} (hρ : Models ρ Φ) {t : BbType} {vs : List Nat} (n : Nat) :
    ∀ {b : BbState} {s : St F}, Ready Φ C.incremental s → s.assumptions = [] → BbInv Φ s.nvars t vs b → b.cands.length ≤ n →
      match candidateLoop C fuel n b s with
      | .panic => False
      | .diverge => True
      | .ok (s', b') => Kept Φ C.incremental s s' ∧ BbInv Φ s.nvars t vs b' ∧ b'.cands = [] := by
  induction n with
  | zero =>
    intro b s hr ha h hn
    have hz := List.length_eq_zero_iff.1 (Nat.le_zero.1 hn)
    exact ⟨⟨hr, fun _ => .of_core rfl, rfl, rfl, ha, fun _ => rfl⟩, h, hz⟩
  | succ n ih =>
    intro b s hr ha h hn
    unfold candidateLoop
    cases hl : b.cands.getLast? with
    | none =>
      exact ⟨⟨hr, fun _ => .of_core rfl, rfl, rfl, ha, fun _ => rfl⟩, h, List.getLast?_eq_none_iff.1 hl⟩
    | some l =>
      simp only
      have hne : b.cands ≠ [] := fun e => by rw [e] at hl; cases hl
      have hlast : b.cands = b.cands.dropLast ++ [l] := by
        rw [List.getLast?_eq_some_getLast hne] at hl
        cases hl
        exact (List.dropLast_concat_getLast hne).symm
      have hlm : l ∈ b.cands := by rw [hlast]; simp
      have hlen : b.cands.dropLast.length ≤ n := by rw [List.length_dropLast]; omega
      have hsub : ∀ x ∈ b.cands.dropLast, x ∈ b.cands := fun x hx => by rw [hlast]; exact List.mem_append_left _ hx
      have hsol := solveWith_ok C hm fuel hr (as := b.as ++ [neg l]) fun p hp => by
        rcases List.mem_append.1 hp with hp | hp
        · exact h.arng p hp
        · rw [List.mem_singleton.1 hp]; exact neg_lt.2 (h.rng l hlm)
      have hass := solve_assumptions_eq C fuel (b.as ++ [neg l]) s
      revert hsol hass
      generalize solveWith C fuel (b.as ++ [neg l]) s = r
      intro hsol hass
      match r, hsol, hass with
      | .panic, hsol, _ => exact hsol
      | .diverge, _, _ => trivial
      | .ok (s1, true), hsol, hass =>
        simp only
        obtain ⟨c, hf⟩ := hsol.final rfl
        obtain ⟨_, _, hM, hT⟩ := hsol.sat rfl
        have hnl : ¬ Ent Φ [l] := fun he => litT_neg.1 (hT (neg l) (by simp)) (he.lit hM)
        have h1 : BbInv Φ s1.nvars t vs { b with cands := b.cands.dropLast } := by
          rw [hsol.nvars]
          exact
          { h with
            rng := fun x hx => h.rng x (hsub x hx)
            poss := fun x hx => h.poss x (hsub x hx)
            full := fun x hx hmx hex => by
              refine (h.full x hx hmx hex).imp (fun h => h) fun hx' => ?_
              rw [hlast] at hx'
              rcases List.mem_append.1 hx' with hx' | hx'
              · exact hx'
              · rw [List.mem_singleton.1 hx'] at hex; exact absurd hex hnl }
        obtain ⟨h2, h3⟩ := refineUpperBound_ok (C := C) hf hM h1
        have hk : Kept Φ C.incremental s s1 := ⟨hsol.ready, hsol.ext, hsol.nvars, hsol.sel, hass s1 true rfl, hsol.cls⟩
        have := ih (s := s1) hsol.ready (hass s1 true rfl) h2 (Nat.le_trans h3 hlen)
        revert this
        generalize candidateLoop C fuel n (refineUpperBound C s1 { b with cands := b.cands.dropLast }) s1 = r
        intro this
        match r, this with
        | .panic, this => exact this
        | .diverge, _ => trivial
        | .ok (s2, b2), this =>
          obtain ⟨k1, k2, k3⟩ := this
          exact ⟨hk.trans k1, by rw [← hsol.nvars]; exact k2, k3⟩
      | .ok (s1, false), hsol, hass =>
        simp only
        obtain ⟨he, hneg, _⟩ := hsol.unsat rfl
        have hel : Ent Φ [l] := by
          intro σ hσ
          obtain ⟨x, hx, hxt⟩ := he σ hσ
          rcases List.mem_append.1 (hneg x hx) with h' | h'
          · exact absurd hxt (litT_neg.1 ((h.ent _ h').lit hσ))
          · have : x = l := neg_inj.1 (List.mem_singleton.1 h')
            rw [← this]; exact clT_single.2 hxt
        have h1 : BbInv Φ s1.nvars t vs (({ b with cands := b.cands.dropLast } : BbState).add l) := by
          rw [hsol.nvars]
          have h2 := h.add hρ (h.rng l hlm) hel
          exact
          { h2 with
            rng := fun x hx => h.rng x (hsub x hx)
            poss := fun x hx => h.poss x (hsub x hx)
            full := fun x hx hmx hex => by
              rcases h2.full x hx hmx hex with h' | h'
              · exact .inl h'
              · have h' : x ∈ b.cands := h'
                rw [hlast] at h'
                rcases List.mem_append.1 h' with h' | h'
                · exact .inr h'
                · rw [List.mem_singleton.1 h']; exact .inl (upd_self ..) }
        have hk : Kept Φ C.incremental s s1 := ⟨hsol.ready, hsol.ext, hsol.nvars, hsol.sel, hass s1 false rfl, hsol.cls⟩
        have := ih (s := s1) hsol.ready (hass s1 false rfl) h1 hlen
        revert this
        generalize candidateLoop C fuel n (({ b with cands := b.cands.dropLast } : BbState).add l) s1 = r
        intro this
        match r, this with
        | .panic, this => exact this
        | .diverge, _ => trivial
        | .ok (s2, b2), this =>
          obtain ⟨k1, k2, k3⟩ := this
          exact ⟨hk.trans k1, by rw [← hsol.nvars]; exact k2, k3⟩

/-- The map says which literals of the variables are true in all models, for the polarities asked for. -/
structure BbExact (Φ : List (List Nat)) (t : BbType) (vars : List Nat) (m : Nat → Option Bool) : Prop where
  sound : ∀ v x, m v = some x → Ent Φ [mkLit v (!x)]
  complete : ∀ v ∈ vars, ∀ x, t.matchesPhase x = true → Ent Φ [mkLit v (!x)] → m v = some x

theorem computeBackbone_ok (hm : C.clauseMin ≠ .none) (fuel : Nat) {vars : List Nat} {t : BbType} {s : St F} (h : Ready Φ C.incremental s) (ha : s.assumptions = [])
    (hv : ∀ v ∈ vars, v < s.nvars) :
    match computeBackbone C fuel vars t s with
    | .panic => False
    | .diverge => True
    | .ok (s', r) => Kept Φ C.incremental s s' ∧
      match r with
      | none => ∀ ρ, ¬ Models ρ Φ
      | some m => (∃ ρ, Models ρ Φ) ∧ BbExact Φ t vars m := by
  unfold computeBackbone
  have hsol := solve_ok C hm fuel h
  revert hsol
  generalize solve C fuel s = r
  intro hsol
  match r, hsol with
  | .panic, hsol => exact hsol
  | .diverge, _ => trivial
  | .ok (s1, false), ⟨hsol, hass⟩ =>
    refine ⟨⟨hsol.ready, hsol.ext, hsol.nvars, hsol.sel, hass.trans ha, hsol.cls⟩, fun ρ hρ => ?_⟩
    obtain ⟨he, hn, _⟩ := hsol.unsat rfl
    obtain ⟨x, hx, _⟩ := he ρ hρ
    have := hn x hx
    rw [ha] at this
    cases this
  | .ok (s1, true), ⟨hsol, hass⟩ =>
    simp only
    obtain ⟨c, hf⟩ := hsol.final rfl
    obtain ⟨_, _, hM, _⟩ := hsol.sat rfl
    obtain ⟨s2, hs2⟩ : ∃ s2 : St F, s2 = { s1 with bb := true } := ⟨_, rfl⟩
    rw [← hs2]
    have hf2 : Final Φ C.incremental c s2 := by rw [hs2]; exact { hf with }
    have hM2 : Models (modelVal s2.model) Φ := by rw [hs2]; exact hM
    have hr2 : Ready Φ C.incremental s2 := hsol.ready.of_eq (by rw [hs2]) (by rw [hs2]) (by rw [hs2]) (by rw [hs2]) (by rw [hs2]) (by rw [hs2])
    have hn2 : s2.nvars = s.nvars := by rw [hs2]; exact hsol.nvars
    have hk2 : Kept Φ C.incremental s s2 :=
      ⟨hr2, fun hi => (hsol.ext hi).trans (.of_core (by rw [hs2])), hn2, by rw [hs2]; exact hsol.sel, by rw [hs2]; exact hass.trans ha, fun hi => by rw [hs2]; exact hsol.cls hi⟩
    have hb := initialCandidates_ok (C := C) hf2 hM2 (t := t) vars (vs := []) (b := ⟨[], [], fun _ => none⟩)
      ⟨(fun v x hx => by cases hx), (fun l hl => by cases hl), (fun l hl => by cases hl), (fun l hl => by cases hl), (fun l hl => by cases hl), (fun l hl => by cases hl)⟩
      (by rw [hn2]; exact hv)
    rw [List.nil_append] at hb
    have := candidateLoop_ok hm fuel hM2 _ hr2 hk2.ass hb (Nat.le_refl _)
    revert this
    generalize candidateLoop C fuel (initialCandidates C t s2 vars ⟨[], [], fun _ => none⟩).cands.length (initialCandidates C t s2 vars ⟨[], [], fun _ => none⟩) s2 = r
    intro this
    match r, this with
    | .panic, this => exact this
    | .diverge, _ => trivial
    | .ok (s3, b3), ⟨k1, k2, k3⟩ =>
      simp only
      have hk := hk2.trans k1
      refine ⟨⟨hk.ready.of_eq rfl rfl rfl rfl rfl rfl, fun hi => (hk.ext hi).trans (.of_core rfl), hk.nvars, hk.sel, hk.ass, hk.cls⟩, ⟨_, hM2⟩, k2.map, fun v hv' x hx he => ?_⟩
      have := k2.full (mkLit v (!x)) (by rw [vr_mkLit]; exact hv') (by rw [sgn_mkLit, Bool.not_not]; exact hx) he
      rw [vr_mkLit, sgn_mkLit, Bool.not_not, k3] at this
      simpa using this

end

end Verif.Sat
