import Verif.F.Subst
import Mathlib.Data.Finset.Card
import Mathlib.Data.Finset.Image
import Mathlib.Data.Finset.Powerset

/-
Anonymization: all variables are replaced by numbered ones.
-/
namespace Verif

/-- `Anonymizer`, src/operations/transformations/anonymizer.rs:10-17.  The prefix is a
parameter `fresh` of the functions below: `fresh k` is the variable `{prefix}{k}`. -/
structure Anon where
  sub : Subst
  counter : Nat

/-- `Anonymizer::with_prefix`, anonymizer.rs:26-28. -/
def Anon.new : Anon := ⟨fun _ => none, 0⟩

/-- One round of the loop in `anonymize`, anonymizer.rs:34-38. -/
def Anon.entry (fresh : Nat → Var) (a : Anon) (v : Var) : Anon :=
  match a.sub v with
  | some _ => a
  | none => ⟨fun w => if w = v then some (.lit (fresh a.counter).p) else a.sub w, a.counter + 1⟩

/-- `anonymize`, anonymizer.rs:31-41.  `vs` are the variables of the formula in the order in
which they are iterated over; `none` is a panic of the substitution. -/
def Anon.anonymize (C : Canon) (fresh : Nat → Var) (vs : List Var) (f : Formula) (a : Anon) : Option Formula × Anon :=
  let a' := vs.foldl (Anon.entry fresh) a
  (f.subst C a'.sub, a')

/-- The states of an anonymizer: any sequence of calls. -/
inductive Anon.Reach (C : Canon) (fresh : Nat → Var) : Anon → Prop
  | new : Reach C fresh .new
  | step {a} (f : Formula) (vs : List Var) : Reach C fresh a → (∀ v, v ∈ vs ↔ Occ v f) → Reach C fresh (a.anonymize C fresh vs f).2

/-- The table is an injective renaming into the numbered variables handed out so far. -/
structure Anon.Inv (fresh : Nat → Var) (a : Anon) : Prop where
  img : ∀ v g, a.sub v = some g → ∃ k, k < a.counter ∧ g = .lit (fresh k).p
  inj : ∀ v w g, a.sub v = some g → a.sub w = some g → v = w

theorem Anon.Inv.ren {fresh} {a : Anon} (h : a.Inv fresh) : a.sub.Ren := fun v g e => by
  obtain ⟨k, _, rfl⟩ := h.img v g e; exact ⟨_, rfl⟩

theorem Anon.inv_new (fresh) : Anon.Inv fresh .new := ⟨by simp [Anon.new], by simp [Anon.new]⟩

theorem Anon.Inv.entry {fresh : Nat → Var} (hf : Function.Injective fresh) {a : Anon} (h : a.Inv fresh) (v : Var) :
    (a.entry fresh v).Inv fresh ∧ (∀ w g, a.sub w = some g → (a.entry fresh v).sub w = some g) ∧ ((a.entry fresh v).sub v).isSome := by
  unfold Anon.entry
  cases e : a.sub v with
  | some x => exact ⟨h, fun w g h => h, by rw [e]; rfl⟩
  | none =>
    have hnew : ∀ w, a.sub w ≠ some (.lit (fresh a.counter).p) := by
      intro w hw
      obtain ⟨k, hk, e2⟩ := h.img w _ hw
      simp only [Formula.lit.injEq, Var.p, Lit.mk.injEq, and_true] at e2
      have := hf e2
      omega
    refine ⟨⟨fun w g hw => ?_, fun w w' g hw hw' => ?_⟩, fun w g hw => ?_, by simp⟩
    · simp only at hw
      split at hw
      · cases hw; exact ⟨a.counter, by simp, rfl⟩
      · obtain ⟨k, hk, r⟩ := h.img w g hw; exact ⟨k, by simp only; omega, r⟩
    · simp only at hw hw'
      split at hw
      · next h1 =>
        split at hw'
        · next h2 => rw [h1, h2]
        · cases hw; exact absurd hw' (hnew w')
      · split at hw'
        · cases hw'; exact absurd hw (hnew w)
        · exact h.inj w w' g hw hw'
    · simp only
      split
      · next h1 => rw [h1, e] at hw; cases hw
      · exact hw

theorem Anon.Inv.entries {fresh : Nat → Var} (hf : Function.Injective fresh) (vs : List Var) : ∀ {a : Anon}, a.Inv fresh →
    (vs.foldl (Anon.entry fresh) a).Inv fresh ∧ (∀ w g, a.sub w = some g → (vs.foldl (Anon.entry fresh) a).sub w = some g) ∧
      ∀ v ∈ vs, ((vs.foldl (Anon.entry fresh) a).sub v).isSome := by
  induction vs with
  | nil => intro a h; exact ⟨h, fun _ _ h => h, by simp⟩
  | cons v vs ih =>
    intro a h
    obtain ⟨h1, h2, h3⟩ := h.entry hf v
    obtain ⟨k1, k2, k3⟩ := ih h1
    refine ⟨k1, fun w g hw => k2 w g (h2 w g hw), fun w hw => ?_⟩
    rcases List.mem_cons.1 hw with rfl | hw
    · obtain ⟨g, e⟩ := Option.isSome_iff_exists.1 h3
      rw [List.foldl_cons, k2 w g e]; rfl
    · exact k3 w hw

theorem Anon.Reach.inv {C : Canon} {fresh : Nat → Var} (hf : Function.Injective fresh) {a : Anon} (h : a.Reach C fresh) : a.Inv fresh := by
  induction h with
  | new => exact Anon.inv_new _
  | step f vs _ _ ih => exact (ih.entries hf vs).1

theorem Subst.Ren.simple {S : Subst} (h : S.Ren) (f : Formula) : S.Simple f := by
  induction f using Formula.ind with
  | tru => exact .tru
  | fls => exact .fls
  | lit l => exact .lit l
  | not f ih => exact .not ih
  | impl a b iha ihb => exact .impl iha ihb
  | equiv a b iha ihb => exact .equiv iha ihb
  | nary o fs ih => exact .nary ih
  | cc c => exact .cc fun v _ g e => .inr (.inr (h v g e))
  | pbc p => exact .pbc fun t _ g e => .inr (.inr (by obtain ⟨w, rfl⟩ := h _ g e; exact ⟨_, rfl⟩))

/-- The variable a formula stands for. -/
def Formula.asVar : Option Formula → Var → Var
  | some (.lit l), _ => l.v
  | _, d => d

/-- The renaming of an anonymizer. -/
def Anon.ren (a : Anon) (v : Var) : Var := Formula.asVar (a.sub v) v

theorem Anon.Inv.ren_spec {fresh} {a : Anon} (h : a.Inv fresh) {v} (hv : (a.sub v).isSome) :
    a.sub v = some (.lit (a.ren v).p) ∧ ∃ k, k < a.counter ∧ a.ren v = fresh k := by
  obtain ⟨g, e⟩ := Option.isSome_iff_exists.1 hv
  obtain ⟨k, hk, rfl⟩ := h.img v g e
  unfold Anon.ren
  rw [e]
  exact ⟨rfl, k, hk, rfl⟩

/-- What anonymization has to do. -/
theorem anonymize_ok {C : Canon} {fresh : Nat → Var} (hf : Function.Injective fresh) {a : Anon} (ha : a.Inv fresh) {f : Formula} (hn : f.Norm)
    {vs : List Var} (hvs : ∀ v, v ∈ vs ↔ Occ v f) {r : Option Formula × Anon} (hr : a.anonymize C fresh vs f = r) :
    r.2.Inv fresh ∧ (∀ w g, a.sub w = some g → r.2.sub w = some g) ∧ (∀ v, Occ v f → (r.2.sub v).isSome) ∧
    ∃ g, r.1 = some g ∧ g.Norm ∧ (∀ σ, g.eval σ = f.eval fun v => σ (r.2.ren v)) ∧ ∀ w, Occ w g → ∃ v, Occ v f ∧ w = r.2.ren v := by
  subst hr
  obtain ⟨h1, h2, h3⟩ := ha.entries hf vs
  unfold Anon.anonymize
  simp only
  obtain ⟨A, hA⟩ : ∃ A, A = vs.foldl (Anon.entry fresh) a := ⟨_, rfl⟩
  rw [← hA] at h1 h2 h3 ⊢
  have h3' : ∀ v, Occ v f → (A.sub v).isSome := fun v hv => h3 v ((hvs v).2 hv)
  obtain ⟨g, e⟩ := Option.isSome_iff_exists.1 (subst_total C (h1.ren.simple f))
  have k := rename_ok C h1.ren hn g e
  refine ⟨h1, h2, h3', g, e, k.norm, fun σ => ?_, fun w hw => ?_⟩
  · rw [k.eval]
    refine Formula.eval_congr fun v hv => ?_
    unfold Subst.asg
    rw [(h1.ren_spec (h3' v hv)).1]
    simp
  · rcases k.occ w hw with ⟨o, e⟩ | ⟨v, x, o, e, ow⟩
    · have := h3' w o; rw [e] at this; cases this
    · refine ⟨v, o, ?_⟩
      rw [(h1.ren_spec (h3' v o)).1] at e
      cases e
      rw [Formula.occ_lit] at ow
      exact ow.symm

/-- The models of `f` over the variables `V`, as sets of true variables (specification). -/
def modelsOver (V : Finset Var) (f : Formula) : Finset (Finset Var) :=
  V.powerset.filter fun A => f.eval (fun v => decide (v ∈ A)) = true

theorem card_modelsOver {f g : Formula} {V : Finset Var} {ρ : Var → Var} (hinj : Set.InjOn ρ V) (hV : ∀ v, Occ v f → v ∈ V)
    (he : ∀ σ, g.eval σ = f.eval fun v => σ (ρ v)) : (modelsOver (V.image ρ) g).card = (modelsOver V f).card := by
  symm
  refine Finset.card_bij (fun A _ => A.image ρ) ?_ ?_ ?_
  · intro A hA
    simp only [modelsOver, Finset.mem_filter, Finset.mem_powerset] at hA ⊢
    refine ⟨Finset.image_subset_image hA.1, ?_⟩
    rw [he, ← hA.2]
    refine Formula.eval_congr fun v hv => ?_
    rw [decide_eq_decide, Finset.mem_image]
    constructor
    · rintro ⟨w, hw, e⟩
      rw [← hinj (hA.1 hw) (hV v hv) e]; exact hw
    · intro h; exact ⟨v, h, rfl⟩
  · intro A hA B hB e
    simp only [modelsOver, Finset.mem_filter, Finset.mem_powerset] at hA hB
    ext v
    constructor
    · intro hv
      have : ρ v ∈ A.image ρ := Finset.mem_image_of_mem _ hv
      rw [e] at this
      obtain ⟨w, hw, e2⟩ := Finset.mem_image.1 this
      rw [← hinj (hB.1 hw) (hA.1 hv) e2]; exact hw
    · intro hv
      have : ρ v ∈ B.image ρ := Finset.mem_image_of_mem _ hv
      rw [← e] at this
      obtain ⟨w, hw, e2⟩ := Finset.mem_image.1 this
      rw [← hinj (hA.1 hw) (hB.1 hv) e2]; exact hw
  · intro B hB
    simp only [modelsOver, Finset.mem_filter, Finset.mem_powerset] at hB
    have key : (V.filter fun v => ρ v ∈ B).image ρ = B := by
      ext w
      rw [Finset.mem_image]
      constructor
      · rintro ⟨v, hv, rfl⟩; exact (Finset.mem_filter.1 hv).2
      · intro hw
        obtain ⟨v, hv, rfl⟩ := Finset.mem_image.1 (hB.1 hw)
        exact ⟨v, Finset.mem_filter.2 ⟨hv, hw⟩, rfl⟩
    refine ⟨V.filter fun v => ρ v ∈ B, ?_, key⟩
    simp only [modelsOver, Finset.mem_filter, Finset.mem_powerset]
    refine ⟨Finset.filter_subset _ _, ?_⟩
    rw [← hB.2, he]
    refine Formula.eval_congr fun v hv => ?_
    rw [decide_eq_decide]
    exact ⟨fun h => h.2, fun h => ⟨hV v hv, h⟩⟩

end Verif
