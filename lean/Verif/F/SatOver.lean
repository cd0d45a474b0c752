import Verif.F.Anon
import Mathlib.Data.Finset.Prod
import Mathlib.Data.Finset.Union
import Mathlib.Data.Fintype.Powerset
/-
Counting satisfying assignments of Boolean functions over finite sets of variables.
-/
namespace Verif

/-- The assignments of the variables in `V` (as sets of true variables) satisfying `P` (specification). -/
def satOver (V : Finset Var) (P : Asg → Bool) : Finset (Finset Var) := V.powerset.filter fun A => P (fun v => decide (v ∈ A)) = true

theorem modelsOver_eq (V : Finset Var) (f : Formula) : modelsOver V f = satOver V f.eval := rfl

/-- `P` depends on the variables in `V` only. -/
def DepOn (V : Finset Var) (P : Asg → Bool) : Prop := ∀ σ τ : Asg, (∀ v ∈ V, σ v = τ v) → P σ = P τ

theorem DepOn.mono {V W : Finset Var} {P} (h : DepOn V P) (hs : V ⊆ W) : DepOn W P := fun σ τ e => h σ τ fun v hv => e v (hs hv)

theorem mem_satOver {V P A} : A ∈ satOver V P ↔ A ⊆ V ∧ P (fun v => decide (v ∈ A)) = true := by simp [satOver]

theorem satOver_congr {V : Finset Var} {P Q : Asg → Bool} (h : ∀ σ, P σ = Q σ) : satOver V P = satOver V Q := by
  rw [funext h]

/-- The members of `V` true under `σ`. -/
def trueIn (V : Finset Var) (σ : Asg) : Finset Var := V.filter fun v => σ v = true

theorem mem_trueIn {V σ v} : v ∈ trueIn V σ ↔ v ∈ V ∧ σ v = true := by simp [trueIn]

theorem dec_trueIn {V : Finset Var} {σ : Asg} {v} (h : v ∈ V) : decide (v ∈ trueIn V σ) = σ v := by
  cases hs : σ v <;> simp [mem_trueIn, h, hs]

theorem DepOn.trueIn {V W P} (h : DepOn V P) (hs : V ⊆ W) (σ : Asg) : P (fun v => decide (v ∈ trueIn W σ)) = P σ :=
  h _ _ fun _ hv => dec_trueIn (hs hv)

/-- Variables that do not matter double the count. -/
theorem card_satOver_free {V W : Finset Var} {P : Asg → Bool} (hd : DepOn V P) (hs : V ⊆ W) :
    (satOver W P).card = (satOver V P).card * 2 ^ (W \ V).card := by
  rw [← Finset.card_powerset, ← Finset.card_product]
  refine Finset.card_bij' (fun A _ => (A ∩ V, A \ V)) (fun p _ => p.1 ∪ p.2) ?_ ?_ ?_ ?_
  · intro A hA
    rw [mem_satOver] at hA
    rw [Finset.mem_product, mem_satOver, Finset.mem_powerset]
    refine ⟨⟨Finset.inter_subset_right, ?_⟩, Finset.sdiff_subset_sdiff hA.1 (Finset.Subset.refl _)⟩
    rw [← hA.2]
    exact hd _ _ fun v hv => by simp [hv]
  · intro p hp
    rw [Finset.mem_product, mem_satOver, Finset.mem_powerset] at hp
    rw [mem_satOver]
    refine ⟨Finset.union_subset (hp.1.1.trans hs) (hp.2.trans Finset.sdiff_subset), ?_⟩
    rw [← hp.1.2]
    refine hd _ _ fun v hv => ?_
    have : v ∉ p.2 := fun h => (Finset.mem_sdiff.1 (hp.2 h)).2 hv
    simp [this]
  · intro A _
    ext v; by_cases hv : v ∈ V <;> simp [hv]
  · intro p hp
    rw [Finset.mem_product, mem_satOver, Finset.mem_powerset] at hp
    obtain ⟨A, B⟩ := p
    have hB : ∀ v ∈ B, v ∉ V := fun v h => (Finset.mem_sdiff.1 (hp.2 h)).2
    simp only [Prod.mk.injEq]
    constructor
    · ext v
      simp only [Finset.mem_inter, Finset.mem_union]
      exact ⟨fun h => h.1.elim id fun hb => (hB v hb h.2).elim, fun h => ⟨.inl h, hp.1.1 h⟩⟩
    · ext v
      simp only [Finset.mem_sdiff, Finset.mem_union]
      exact ⟨fun h => h.1.elim (fun ha => (h.2 (hp.1.1 ha)).elim) id, fun h => ⟨.inr h, hB v h⟩⟩

/-- If every satisfying assignment of `P` over `R` extends to exactly one of `Q`, which implies `P`, both have the same
number. -/
theorem card_satOver_ext {R U : Finset Var} {P Q : Asg → Bool} (hP : DepOn R P) (hQ : DepOn U Q) (hs : ∀ σ, Q σ = true → P σ = true)
    (hc : ∀ σ, P σ = true → ∃ σ' : Asg, (∀ v ∈ R, σ' v = σ v) ∧ Q σ' = true)
    (hu : ∀ σ τ, Q σ = true → Q τ = true → (∀ v ∈ R, σ v = τ v) → ∀ v ∈ U, σ v = τ v) :
    (satOver R P).card = (satOver U Q).card * 2 ^ (R \ U).card := by
  have e : (R ∪ U) \ U = R \ U := by ext v; by_cases h : v ∈ U <;> simp [h]
  rw [← e, ← card_satOver_free hQ Finset.subset_union_right]
  symm
  refine Finset.card_bij (fun A _ => A ∩ R) ?_ ?_ ?_
  · intro A hA
    rw [mem_satOver] at hA ⊢
    refine ⟨Finset.inter_subset_right, ?_⟩
    rw [← hs _ hA.2]
    exact hP _ _ fun v hv => by simp [hv]
  · intro A hA B hB eq
    rw [mem_satOver] at hA hB
    have hag : ∀ v ∈ R, decide (v ∈ A) = decide (v ∈ B) := fun v hv => by
      have : v ∈ A ∩ R ↔ v ∈ B ∩ R := by rw [eq]
      simpa [hv] using this
    have hag' := hu _ _ hA.2 hB.2 hag
    ext v
    by_cases hv : v ∈ R ∪ U
    · rcases Finset.mem_union.1 hv with h | h
      · simpa using hag v h
      · simpa using hag' v h
    · exact ⟨fun h => (hv (hA.1 h)).elim, fun h => (hv (hB.1 h)).elim⟩
  · intro A hA
    rw [mem_satOver] at hA
    obtain ⟨σ', ag, hq⟩ := hc _ hA.2
    refine ⟨trueIn (R ∪ U) σ', mem_satOver.2 ⟨Finset.filter_subset _ _, ?_⟩, ?_⟩
    · rw [hQ.trueIn Finset.subset_union_right]; exact hq
    · ext v
      rw [Finset.mem_inter, mem_trueIn]
      constructor
      · rintro ⟨⟨_, h⟩, hv⟩
        rw [ag v hv] at h; simpa using h
      · intro h
        have hv := hA.1 h
        exact ⟨⟨Finset.mem_union_left _ hv, by rw [ag v hv]; simpa using h⟩, hv⟩

/-- Fixed variables do not change the count: `Q` is `H` together with fixed values for the variables in `B`. -/
theorem card_satOver_fixed {B V : Finset Var} {Q H : Asg → Bool} (β : Asg) (hH : DepOn V H) (hd : Disjoint B V)
    (hQ : ∀ σ, Q σ = true ↔ (∀ v ∈ B, σ v = β v) ∧ H σ = true) : (satOver (B ∪ V) Q).card = (satOver V H).card := by
  refine Finset.card_bij' (fun A _ => A \ B) (fun A _ => A ∪ trueIn B β) ?_ ?_ ?_ ?_
  · intro A hA
    rw [mem_satOver, hQ] at hA
    rw [mem_satOver]
    refine ⟨fun v hv => ?_, ?_⟩
    · rw [Finset.mem_sdiff] at hv
      exact (Finset.mem_union.1 (hA.1 hv.1)).elim (fun h => (hv.2 h).elim) id
    · rw [← hA.2.2]
      refine hH _ _ fun v hv => ?_
      have : v ∉ B := fun h => Finset.disjoint_left.1 hd h hv
      simp [this]
  · intro A hA
    rw [mem_satOver] at hA
    rw [mem_satOver, hQ]
    refine ⟨Finset.union_subset (hA.1.trans Finset.subset_union_right) ((Finset.filter_subset _ _).trans Finset.subset_union_left), fun v hv => ?_, ?_⟩
    · have : v ∉ A := fun h => Finset.disjoint_left.1 hd hv (hA.1 h)
      rw [← dec_trueIn (σ := β) hv]; simp [this]
    · rw [← hA.2]
      refine hH _ _ fun v hv => ?_
      have : v ∉ trueIn B β := fun h => Finset.disjoint_left.1 hd (mem_trueIn.1 h).1 hv
      simp [this]
  · intro A hA
    rw [mem_satOver, hQ] at hA
    ext v
    simp only [Finset.mem_union, Finset.mem_sdiff, mem_trueIn]
    by_cases hv : v ∈ B
    · rw [← hA.2.1 v hv]; simp [hv]
    · simp [hv]
  · intro A hA
    rw [mem_satOver] at hA
    ext v
    simp only [Finset.mem_union, Finset.mem_sdiff, mem_trueIn]
    constructor
    · rintro ⟨h | h, h2⟩
      · exact h
      · exact (h2 h.1).elim
    · intro h; exact ⟨.inl h, fun hb => Finset.disjoint_left.1 hd hb (hA.1 h)⟩

theorem satOver_false {V : Finset Var} {P : Asg → Bool} (h : ∀ σ, P σ = false) : satOver V P = ∅ := by
  ext A; simp [mem_satOver, h]

/-- Independent conjunctions multiply. -/
theorem card_satOver_and {V W : Finset Var} {P Q : Asg → Bool} (hP : DepOn V P) (hQ : DepOn W Q) (hd : Disjoint V W) :
    (satOver (V ∪ W) fun σ => P σ && Q σ).card = (satOver V P).card * (satOver W Q).card := by
  rw [← Finset.card_product]
  refine Finset.card_bij' (fun A _ => (A ∩ V, A ∩ W)) (fun p _ => p.1 ∪ p.2) ?_ ?_ ?_ ?_
  · intro A hA
    rw [mem_satOver, Bool.and_eq_true] at hA
    rw [Finset.mem_product, mem_satOver, mem_satOver]
    refine ⟨⟨Finset.inter_subset_right, ?_⟩, Finset.inter_subset_right, ?_⟩
    · rw [← hA.2.1]; exact hP _ _ fun v hv => by simp [hv]
    · rw [← hA.2.2]; exact hQ _ _ fun v hv => by simp [hv]
  · intro p hp
    rw [Finset.mem_product, mem_satOver, mem_satOver] at hp
    rw [mem_satOver, Bool.and_eq_true]
    refine ⟨Finset.union_subset_union hp.1.1 hp.2.1, ?_, ?_⟩
    · rw [← hp.1.2]
      refine hP _ _ fun v hv => ?_
      have : v ∉ p.2 := fun h => Finset.disjoint_left.1 hd hv (hp.2.1 h)
      simp [this]
    · rw [← hp.2.2]
      refine hQ _ _ fun v hv => ?_
      have : v ∉ p.1 := fun h => Finset.disjoint_left.1 hd (hp.1.1 h) hv
      simp [this]
  · intro A hA
    rw [mem_satOver] at hA
    ext v
    simp only [Finset.mem_union, Finset.mem_inter]
    exact ⟨fun h => h.elim (·.1) (·.1), fun h => (Finset.mem_union.1 (hA.1 h)).elim (fun k => .inl ⟨h, k⟩) fun k => .inr ⟨h, k⟩⟩
  · intro p hp
    rw [Finset.mem_product, mem_satOver, mem_satOver] at hp
    obtain ⟨A, B⟩ := p
    simp only [Prod.mk.injEq]
    constructor
    · ext v
      simp only [Finset.mem_inter, Finset.mem_union]
      exact ⟨fun h => h.1.elim id fun hb => (Finset.disjoint_left.1 hd h.2 (hp.2.1 hb)).elim, fun h => ⟨.inl h, hp.1.1 h⟩⟩
    · ext v
      simp only [Finset.mem_inter, Finset.mem_union]
      exact ⟨fun h => h.1.elim (fun ha => (Finset.disjoint_left.1 hd (hp.1.1 ha) h.2).elim) id, fun h => ⟨.inr h, hp.2.1 h⟩⟩

/-- Exclusive disjunctions add. -/
theorem card_satOver_or {V : Finset Var} {P Q : Asg → Bool} (hx : ∀ σ, ¬ (P σ = true ∧ Q σ = true)) :
    (satOver V fun σ => P σ || Q σ).card = (satOver V P).card + (satOver V Q).card := by
  rw [← Finset.card_union_of_disjoint]
  · congr 1
    ext A
    simp only [Finset.mem_union, mem_satOver, Bool.or_eq_true]
    tauto
  · rw [Finset.disjoint_left]
    intro A hA hB
    exact hx _ ⟨(mem_satOver.1 hA).2, (mem_satOver.1 hB).2⟩

theorem card_satOver_true (P : Asg → Bool) (h : ∀ σ, P σ = true) : (satOver ∅ P).card = 1 := by
  simp [satOver, h]

end Verif
