import Verif.Dnnf.Res
/-
The steps of the compiler in terms of assignments: deciding a variable and using the cache.
-/
namespace Verif.Dnnf
open Verif.Sat Verif.Formula

variable {nm : List Var} {s s' s1 s2 : Core} {t : DTree} {K : Canon}

/-- `s'` assigns in addition exactly the literals `new`. -/
structure Adds (s s' : Core) (new : List Nat) : Prop where
  val : ∀ l, s'.value l = some true ↔ l ∈ new ∨ s.value l = some true
  free : ∀ l ∈ new, s.value l = none

namespace Adds
variable {new : List Nat} (h : Adds s s' new)
include h

theorem val_false (l : Nat) : s'.value l = some false ↔ neg l ∈ new ∨ s.value l = some false := by
  have e : ∀ c : Core, c.value l = some false ↔ c.value (neg l) = some true := fun c => by
    rw [Inv.value_neg]
    cases c.value l with
    | none => simp
    | some b => cases b <;> simp
  rw [e, e, h.val]

theorem none_of {l : Nat} (hv : s'.value l = none) : s.value l = none := by
  cases hl : s.value l with
  | none => rfl
  | some b =>
    cases b
    · rw [(h.val_false l).2 (.inr hl)] at hv; cases hv
    · rw [(h.val l).2 (.inr hl)] at hv; cases hv

theorem openL {c : Nat × List Nat} (hc : c ∈ openLeaves s' t) : c ∈ openLeaves s t := by
  obtain ⟨h1, h2⟩ := mem_openLeaves.1 hc
  exact mem_openLeaves.2 ⟨h1, fun l hl hv => h2 l hl ((h.val l).2 (.inr hv))⟩

theorem openV {v : Nat} (hv : v ∈ openVars s' t) : v ∈ openVars s t := by
  obtain ⟨c, hc, l, hl, hv, e⟩ := mem_openVars.1 hv
  exact mem_openVars.2 ⟨c, h.openL hc, l, hl, h.none_of hv, e⟩

/-- What a decision and its consequences do to the residual clauses. -/
theorem res {d : Nat} (hd : d ∈ new) {σ : Asg} (he : Res nm s t σ → T nm σ d → ∀ l ∈ new, T nm σ l) :
    (∀ l ∈ new, T nm σ l) ∧ Res nm s' t σ ↔ T nm σ d ∧ Res nm s t σ := by
  constructor
  · rintro ⟨h1, h2⟩
    refine ⟨h1 d hd, fun c hc => ?_⟩
    by_cases ho : c ∈ openLeaves s' t
    · obtain ⟨l, hl, hv, ht⟩ := h2 c ho
      exact ⟨l, hl, h.none_of hv, ht⟩
    · obtain ⟨c1, c2⟩ := mem_openLeaves.1 hc
      have : ∃ l ∈ c.2, s'.value l = some true := by
        by_contra hx
        exact ho (mem_openLeaves.2 ⟨c1, fun l hl hv => hx ⟨l, hl, hv⟩⟩)
      obtain ⟨l, hl, hv⟩ := this
      have hm := ((h.val l).1 hv).resolve_right (c2 l hl)
      exact ⟨l, hl, h.free l hm, h1 l hm⟩
  · rintro ⟨h1, h2⟩
    have hall := he h2 h1
    refine ⟨hall, fun c hc => ?_⟩
    obtain ⟨l, hl, hv, ht⟩ := h2 c (h.openL hc)
    refine ⟨l, hl, ?_, ht⟩
    cases hv' : s'.value l with
    | none => rfl
    | some b =>
      cases b
      · rcases (h.val_false l).1 hv' with hm | hm
        · exact absurd ht (T_neg.1 (hall _ hm))
        · rw [hv] at hm; cases hm
      · exact absurd hv' ((mem_openLeaves.1 hc).2 l hl)

end Adds

theorem litOf_pos (nm : List Var) (v : Nat) : litOf nm (mkLit v false) = ⟨nm.getD v default, true⟩ := by
  simp [litOf, vr_mkLit, sgn_mkLit]
theorem litOf_neg (nm : List Var) (v : Nat) : litOf nm (mkLit v true) = ⟨nm.getD v default, false⟩ := by
  simp [litOf, vr_mkLit, sgn_mkLit]

/-- The Shannon expansion of two right formulas. -/
theorem exact_shannon {v : Nat} {i1 i2 : List Nat} {g1 g2 : Formula} (h1 : Adds s s1 i1) (h2 : Adds s s2 i2) (e1 : Exact nm s1 t i1 g1) (e2 : Exact nm s2 t i2 g2)
    (m1 : mkLit v false ∈ i1) (m2 : mkLit v true ∈ i2) (v1 : ∀ l ∈ i1, vr l ∈ openVars s t) (v2 : ∀ l ∈ i2, vr l ∈ openVars s t)
    (c1 : ∀ σ, Res nm s t σ → T nm σ (mkLit v false) → ∀ l ∈ i1, T nm σ l) (c2 : ∀ σ, Res nm s t σ → T nm σ (mkLit v true) → ∀ l ∈ i2, T nm σ l) :
    Exact nm s t [] (mkOr K [mkAnd K [.lit ⟨nm.getD v default, true⟩, g1], mkAnd K [.lit (Lit.mk (nm.getD v default) true).neg, g2]]) := by
  have p1 := e1.lits _ m1
  have p2 := e2.lits _ m2
  have r1 := fun σ => (e1.eval σ).trans (h1.res m1 (c1 σ))
  have r2 := fun σ => (e2.eval σ).trans (h2.res m2 (c2 σ))
  rw [litOf_pos] at p1
  rw [litOf_neg] at p2
  have hx : (Lit.mk (nm.getD v default) true).neg = ⟨nm.getD v default, false⟩ := rfl
  rw [hx]
  have t1 : ∀ σ, (Formula.lit ⟨nm.getD v default, true⟩).eval σ = true ↔ T nm σ (mkLit v false) := fun σ => by rw [← litOf_pos]; exact eval_lit_T
  have t2 : ∀ σ, (Formula.lit ⟨nm.getD v default, false⟩).eval σ = true ↔ T nm σ (mkLit v true) := fun σ => by rw [← litOf_neg]; exact eval_lit_T
  have t12 : ∀ σ, T nm σ (mkLit v true) ↔ ¬ T nm σ (mkLit v false) := fun σ => by
    rw [← T_neg]
    have : neg (mkLit v false) = mkLit v true := by simp [neg, mkLit]
    rw [this]
  have q1 : ∀ σ, (mkAnd K [.lit ⟨nm.getD v default, true⟩, g1]).eval σ = true ↔ T nm σ (mkLit v false) ∧ Res nm s t σ := by
    intro σ
    rw [eval_mkAnd]
    simp only [List.mem_cons, List.not_mem_nil, or_false, forall_eq_or_imp, forall_eq, t1, r1]
    exact ⟨fun h => h.2, fun h => ⟨h.1, h⟩⟩
  have q2 : ∀ σ, (mkAnd K [.lit ⟨nm.getD v default, false⟩, g2]).eval σ = true ↔ T nm σ (mkLit v true) ∧ Res nm s t σ := by
    intro σ
    rw [eval_mkAnd]
    simp only [List.mem_cons, List.not_mem_nil, or_false, forall_eq_or_imp, forall_eq, t2, r2]
    exact ⟨fun h => h.2, fun h => ⟨h.1, h⟩⟩
  have n1 : ∀ f ∈ [.lit ⟨nm.getD v default, true⟩, g1], f.Norm := by simp [e1.norm, Norm.lit]
  have n2 : ∀ f ∈ [.lit ⟨nm.getD v default, false⟩, g2], f.Norm := by simp [e2.norm, Norm.lit]
  have nd : ∀ b g, (∀ f ∈ [.lit ⟨nm.getD v default, b⟩, g], f.Norm) → ∀ gs, mkAnd K [.lit ⟨nm.getD v default, b⟩, g] ≠ .nary .disj gs := by
    intro b g hn gs e
    have := parts_mkNary (K := K) (o := .conj) hn (f := .lit ⟨nm.getD v default, b⟩) (g := .lit ⟨nm.getD v default, b⟩) (by simp) (by rw [parts_of_ne (by simp)]; simp) rfl (by simp)
    rw [show mkNary K .conj _ = _ from e] at this
    rcases this with h | h
    · cases h
    · rw [parts_of_ne (by simp)] at h; simp at h
  have hev : ∀ σ, (mkOr K [mkAnd K [.lit ⟨nm.getD v default, true⟩, g1], mkAnd K [.lit ⟨nm.getD v default, false⟩, g2]]).eval σ = true ↔ Res nm s t σ := by
    intro σ
    rw [eval_mkOr]
    simp only [List.mem_cons, List.not_mem_nil, or_false, exists_eq_or_imp, exists_eq_left, q1, q2, t12]
    constructor
    · rintro (h | h) <;> exact h.2
    · intro h
      by_cases hT : T nm σ (mkLit v false)
      · exact .inl ⟨hT, h⟩
      · exact .inr ⟨hT, h⟩
  have hv : v ∈ openVars s t := by have := v1 _ m1; rwa [vr_mkLit] at this
  have ho : ∀ {i : List Nat} {s' g} (h : Adds s s' i) (_ : Exact nm s' t i g) (_ : ∀ l ∈ i, vr l ∈ openVars s t) (b : Bool), ∀ x,
      Occ x (mkAnd K [.lit ⟨nm.getD v default, b⟩, g]) → ∃ w ∈ openVars s t, x = nm.getD w default := by
    intro i s' g h e hi b x hx
    obtain ⟨f, hf, hx⟩ := occ_mkNary hx
    simp only [List.mem_cons, List.not_mem_nil, or_false] at hf
    rcases hf with hf | hf <;> rw [hf] at hx
    · exact ⟨v, hv, by simpa [eq_comm] using hx⟩
    · obtain ⟨w, hw | hw, e⟩ := e.occ x hx
      · obtain ⟨l, hl, rfl⟩ := List.mem_map.1 hw
        exact ⟨_, hi l hl, e⟩
      · exact ⟨w, h.openV hw, e⟩
  refine ⟨fun σ => by rw [hev]; simp, fun x hx => ?_, norm_mkNary _ _ ?_, ddnnf_mkOr ?_ ?_ ?_, ?_, by simp⟩
  · obtain ⟨f, hf, hx⟩ := occ_mkNary hx
    simp only [List.mem_cons, List.not_mem_nil, or_false] at hf
    rcases hf with rfl | rfl
    · obtain ⟨w, hw, e⟩ := ho h1 e1 v1 _ x hx; exact ⟨w, .inr hw, e⟩
    · obtain ⟨w, hw, e⟩ := ho h2 e2 v2 _ x hx; exact ⟨w, .inr hw, e⟩
  · simp only [List.mem_cons, List.not_mem_nil, or_false]
    rintro f (rfl | rfl)
    · exact norm_mkNary _ _ n1
    · exact norm_mkNary _ _ n2
  · simp only [List.mem_cons, List.not_mem_nil, or_false]
    rintro f (rfl | rfl)
    · exact ddnnf_mkAnd_lit e1.norm e1.ddnnf p1
    · exact ddnnf_mkAnd_lit e2.norm e2.ddnnf p2
  · simp only [List.mem_cons, List.not_mem_nil, or_false]
    rintro f (rfl | rfl)
    · exact nd _ _ n1
    · exact nd _ _ n2
  · simp only [List.pairwise_cons, List.mem_singleton, forall_eq, List.not_mem_nil, false_imp_iff, implies_true, List.Pairwise.nil, and_true]
    rintro σ ⟨a, b⟩
    exact (t12 σ).1 ((q2 σ).1 b).1 ((q1 σ).1 a).1
  · obtain ⟨σ, h⟩ := e1.sat
    exact ⟨σ, (hev σ).2 ((r1 σ).1 h).2⟩

/-! ### The cache -/

/-- Trees with the same key have the same residual clauses. -/
theorem exact_key {L : List (Nat × List Nat)} {N nc : Nat} {t' : DTree} {g : Formula} (hfun : ∀ c ∈ L, ∀ c' ∈ L, c.1 = c'.1 → c = c') (hid : ∀ c ∈ L, c.1 < nc)
    (hr : ∀ c ∈ L, ∀ l ∈ c.2, vr l < N) (hs : s.nvars = N) (hs' : s'.nvars = N) (ht : ∀ c ∈ t.leaves, c ∈ L) (ht' : ∀ c ∈ t'.leaves, c ∈ L)
    (hk : cacheKey nc s t = cacheKey nc s' t') (h : Exact nm s' t' [] g) : Exact nm s t [] g := by
  unfold cacheKey at hk
  rw [hs, hs'] at hk
  obtain ⟨k1, k2⟩ := List.append_inj hk (by simp)
  have kv : ∀ v, v < N → (v ∈ openVars s t ↔ v ∈ openVars s' t') := by
    intro v hv
    have := List.map_inj_left.1 k1 v (List.mem_range.2 hv)
    exact decide_eq_decide.1 this
  have ki : ∀ i, i < nc → (i ∈ (openLeaves s t).map Prod.fst ↔ i ∈ (openLeaves s' t').map Prod.fst) := by
    intro i hi
    have := List.map_inj_left.1 k2 i (List.mem_range.2 hi)
    exact decide_eq_decide.1 this
  have hov : ∀ {c : Core} {t : DTree}, (∀ c ∈ t.leaves, c ∈ L) → ∀ v ∈ openVars c t, v < N := by
    intro c t ht v hv
    obtain ⟨d, hd, l, hl, _, rfl⟩ := mem_openVars.1 hv
    exact hr d (ht d (mem_openLeaves.1 hd).1) l hl
  have kv' : ∀ v, v ∈ openVars s t ↔ v ∈ openVars s' t' := fun v =>
    ⟨fun h => (kv v (hov ht v h)).1 h, fun h => (kv v (hov ht' v h)).2 h⟩
  have kl : ∀ c, c ∈ openLeaves s t ↔ c ∈ openLeaves s' t' := by
    intro c
    constructor
    · intro hc
      have hcL := ht c (mem_openLeaves.1 hc).1
      obtain ⟨d, hd, e⟩ := List.mem_map.1 ((ki c.1 (hid c hcL)).1 (List.mem_map_of_mem hc))
      have := hfun d (ht' d (mem_openLeaves.1 hd).1) c hcL e
      rwa [this] at hd
    · intro hc
      have hcL := ht' c (mem_openLeaves.1 hc).1
      obtain ⟨d, hd, e⟩ := List.mem_map.1 ((ki c.1 (hid c hcL)).2 (List.mem_map_of_mem hc))
      have := hfun d (ht d (mem_openLeaves.1 hd).1) c hcL e
      rwa [this] at hd
  have kn : ∀ c ∈ openLeaves s t, ∀ l ∈ c.2, (s.value l = none ↔ s'.value l = none) := by
    intro c hc l hl
    constructor
    · intro hv
      exact value_none_iff.2 (openVars_none ((kv' _).1 (mem_openVars.2 ⟨c, hc, l, hl, hv, rfl⟩)))
    · intro hv
      exact value_none_iff.2 (openVars_none ((kv' _).2 (mem_openVars.2 ⟨c, (kl c).1 hc, l, hl, hv, rfl⟩)))
  refine ⟨fun σ => ?_, fun x hx => ?_, h.norm, h.ddnnf, h.sat, by simp⟩
  · rw [h.eval]
    refine and_congr Iff.rfl ?_
    constructor
    · intro hR c hc
      obtain ⟨l, hl, hv, ht⟩ := hR c ((kl c).1 hc)
      exact ⟨l, hl, (kn c hc l hl).2 hv, ht⟩
    · intro hR c hc
      obtain ⟨l, hl, hv, ht⟩ := hR c ((kl c).2 hc)
      exact ⟨l, hl, (kn c ((kl c).2 hc) l hl).1 hv, ht⟩
  · obtain ⟨v, hv | hv, e⟩ := h.occ x hx
    · simp at hv
    · exact ⟨v, .inr ((kv' v).2 hv), e⟩

/-! ### The choice of the variable -/

theorem lastMax_spec (f : Nat → Int) : ∀ n, match lastMax f n with
    | none => n = 0
    | some i => i < n ∧ ∀ j < n, f j ≤ f i := by
  intro n
  induction n with
  | zero => simp [lastMax]
  | succ n ih =>
    unfold lastMax
    cases h : lastMax f n with
    | none =>
      rw [h] at ih
      subst ih
      simp
    | some i =>
      rw [h] at ih
      by_cases hle : f i ≤ f n <;> simp only [hle, if_true, if_false]
      · refine ⟨Nat.lt_succ_self _, fun j hj => ?_⟩
        rcases Nat.lt_succ_iff_lt_or_eq.1 hj with hj | rfl
        · exact Int.le_trans (ih.2 j hj) hle
        · exact Int.le_refl _
      · refine ⟨by omega, fun j hj => ?_⟩
        rcases Nat.lt_succ_iff_lt_or_eq.1 hj with hj | rfl
        · exact ih.2 j hj
        · omega

theorem chooseVar_sep {v : Nat} (h : chooseVar s t = some v) (hs : separator s t ≠ []) (hr : ∀ w ∈ separator s t, w < s.nvars) : v ∈ separator s t := by
  unfold chooseVar at h
  have := lastMax_spec (occurrences s t (separator s t)) s.nvars
  rw [h] at this
  obtain ⟨w, hw⟩ := List.exists_mem_of_ne_nil _ hs
  have h1 := this.2 w (hr w hw)
  by_contra hv
  unfold occurrences at h1
  rw [if_pos hw, if_neg hv] at h1
  omega

theorem separator_open {v : Nat} (h : v ∈ separator s t) : v ∈ openVars s t := by
  cases t with
  | leaf => simp [separator] at h
  | node l r =>
    simp only [separator, List.mem_filter] at h
    exact openVars_node.2 (.inl h.1)

theorem separator_nil {l r : DTree} (h : separator s (.node l r) = []) {v : Nat} (h1 : v ∈ openVars s l) (h2 : v ∈ openVars s r) : False := by
  have : v ∈ separator s (.node l r) := by simp only [separator, List.mem_filter]; exact ⟨h1, by simpa using h2⟩
  rw [h] at this; cases this

end Verif.Dnnf
