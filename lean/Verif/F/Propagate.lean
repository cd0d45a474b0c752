import Verif.F.Leaves
import Verif.F.Factor
import Verif.F.Restrict
/-
Unit propagation on CNFs that are built by `and`, `or` and restriction.  A set of
literals closed under propagation is described by the truth values of the clauses, so
that simplifications of the clauses do not matter.  No code of the repository.
-/
namespace Verif

/-- `σ` makes the literals in `S` true. -/
def LitSat (S : Lit → Prop) (σ : Asg) : Prop := ∀ k, S k → k.eval σ = true

/-- No literal is in `S` with its negation. -/
def LitCons (S : Lit → Prop) : Prop := ∀ k, S k → ¬ S k.neg

/-- What follows from `S` and the formula is in `S`. -/
def SC (S : Lit → Prop) (f : Formula) : Prop := ∀ k, (∀ σ, LitSat S σ → f.eval σ = true → k.eval σ = true) → S k

/-- `S` is closed for every clause of a CNF. -/
def SCd (S : Lit → Prop) (d : Formula) : Prop := ∀ c, OLeaf .conj c d → SC S c

/-- `S` contains the values of the variables of `f`. -/
def Sets (S : Lit → Prop) (f : Formula) (σ : Asg) : Prop := ∀ v, Occ v f → S ⟨v, σ v⟩

open Classical in
theorem LitCons.extend {S : Lit → Prop} (h : LitCons S) {k : Lit} (hk : ¬ S k) : ∃ σ, LitSat S σ ∧ k.eval σ = false := by
  refine ⟨fun v => if v = k.v then !k.pos else decide (S ⟨v, true⟩), fun l hl => ?_, ?_⟩
  · rcases l with ⟨v, p⟩
    rcases k with ⟨u, q⟩
    by_cases hv : v = u
    · subst hv
      have hpq : p ≠ q := fun e => hk (e ▸ hl)
      cases p <;> cases q <;> simp_all [Lit.eval]
    · cases p with
      | true => simp [Lit.eval, hv, hl]
      | false =>
        have : ¬ S ⟨v, true⟩ := fun ht => h _ ht hl
        simp [Lit.eval, hv, this]
  · rcases k with ⟨u, q⟩
    cases q <;> simp [Lit.eval]

theorem SC.not_fls {S : Lit → Prop} (h : LitCons S) {f : Formula} (hf : ∀ σ, LitSat S σ → f.eval σ = false) : ¬ SC S f := fun hs => by
  have all : ∀ k, S k := fun k => hs k fun σ h1 h2 => by rw [hf σ h1] at h2; exact absurd h2 (by simp)
  exact h ⟨.named 0, true⟩ (all _) (all _)

theorem SC.tru {S : Lit → Prop} (h : LitCons S) : SC S .tru := fun k hk => Classical.byContradiction fun hn => by
  obtain ⟨σ, h1, h2⟩ := h.extend hn
  rw [hk σ h1 (by simp)] at h2
  exact absurd h2 (by simp)

/-! ### Clauses of conjunctions -/

theorem addOp_mono {o f acc r} (h : Formula.addOp o f acc = some r) {c} (hc : c = f ∨ c ∈ acc) : c ∈ r ∨ c = Formula.neutral o := by
  unfold Formula.addOp at h
  split at h
  · rename_i e; subst e
    split at h
    · simp at h
    · rename_i ho
      cases h
      rcases hc with rfl | hc
      · right; cases o <;> simp_all [Formula.neutral]
      · exact .inl hc
  split at h
  · rename_i e; subst e
    split at h
    · simp at h
    · rename_i ho
      cases h
      rcases hc with rfl | hc
      · right; cases o <;> simp_all [Formula.neutral]
      · exact .inl hc
  split at h
  · simp at h
  split at h
  · rename_i hm; cases h
    rcases hc with rfl | hc
    · exact .inl hm
    · exact .inl hc
  · cases h
    rcases hc with rfl | hc
    · exact .inl (by simp)
    · exact .inl (by simp [hc])

theorem flats_leaf_of {o} {c : Formula} (fs : List Formula)
    (h : ∀ f ∈ fs, ∀ acc r, Formula.flat1 o f acc = some r → OLeaf o c f ∨ c ∈ acc → c ∈ r ∨ c = Formula.neutral o) :
    ∀ acc r, Formula.flats o fs acc = some r → (∃ f ∈ fs, OLeaf o c f) ∨ c ∈ acc → c ∈ r ∨ c = Formula.neutral o := by
  induction fs with
  | nil => intro acc r e hr; simp only [Formula.flats, Option.some.injEq] at e; subst e; exact .inl (by simpa using hr)
  | cons f fs ih =>
    intro acc r e hr
    simp only [Formula.flats] at e
    split at e
    · simp at e
    · rename_i acc' he
      rcases hr with ⟨g, hg, ho⟩ | hr
      · rcases List.mem_cons.1 hg with rfl | hg
        · rcases h g (by simp) acc acc' he (.inl ho) with h1 | h1
          · exact ih (fun g hg => h g (by simp [hg])) acc' r e (.inr h1)
          · exact .inr h1
        · exact ih (fun g hg => h g (by simp [hg])) acc' r e (.inl ⟨g, hg, ho⟩)
      · rcases h f (by simp) acc acc' he (.inr hr) with h1 | h1
        · exact ih (fun g hg => h g (by simp [hg])) acc' r e (.inr h1)
        · exact .inr h1

theorem flat1_leaf {o} {c : Formula} (f : Formula) : ∀ acc r, Formula.flat1 o f acc = some r → OLeaf o c f ∨ c ∈ acc →
    c ∈ r ∨ c = Formula.neutral o := by
  induction f using Formula.ind with
  | nary o' fs ih =>
    intro acc r e hr
    simp only [Formula.flat1] at e
    split at e
    · rename_i ho; subst ho
      refine flats_leaf_of fs ih acc r e (hr.imp (fun h => ?_) id)
      cases h with
      | self h => exact absurd rfl (h fs)
      | nary h1 h2 => exact ⟨_, h1, h2⟩
    · rename_i ho
      refine addOp_mono e (hr.imp (fun h => ?_) id)
      cases h with
      | self h => rfl
      | nary h1 h2 => exact absurd rfl ho
  | _ =>
    intro acc r e hr; simp only [Formula.flat1] at e
    refine addOp_mono e (hr.imp (fun h => ?_) id)
    cases h with
    | self h => rfl

/-- The clauses of an operand are clauses of the conjunction. -/
theorem oleaf_mkNary {C : Canon} {o fs f c} (hf : f ∈ fs) (h : OLeaf o c f) :
    OLeaf o c (Formula.mkNary C o fs) ∨ c = Formula.neutral o ∨ Formula.mkNary C o fs = Formula.absorbing o := by
  unfold Formula.mkNary
  cases e : Formula.flats o fs [] with
  | none => exact .inr (.inr rfl)
  | some r =>
    rcases flats_leaf_of fs (fun f _ => flat1_leaf f) [] r e (.inl ⟨f, hf, h⟩) with hr | hr
    · left
      have hs : OLeaf o c c := .self (Formula.OLeaf.flat h)
      rcases r with _ | ⟨a, _ | ⟨b, l⟩⟩
      · simp at hr
      · simp only [List.mem_singleton] at hr; subst hr; exact hs
      · simp only [Formula.finish]
        exact .nary ((C.ord_perm o _).mem_iff.2 hr) hs
    · exact .inr (.inl hr)

theorem SCd.op {C : Canon} {S : Lit → Prop} {fs f} (hS : LitCons S) (h : SCd S (Formula.mkAnd C fs)) (hf : f ∈ fs) : SCd S f := by
  intro c hc
  rcases oleaf_mkNary (C := C) hf hc with h1 | rfl | h1
  · exact h c h1
  · exact SC.tru hS
  · refine absurd (h .fls ?_) (SC.not_fls hS fun σ _ => by simp)
    show OLeaf .conj .fls (Formula.mkNary C .conj fs)
    rw [h1]; exact .self (by simp)

theorem IsCl.leaf {f} (h : IsCl .disj f) : OLeaf .conj f f := by
  cases h <;> exact .self (by simp)

theorem SCd.clause {S : Lit → Prop} {f} (h : SCd S f) (hc : IsCl .disj f) : SC S f := h f hc.leaf

theorem oleaf_occ {o c d v} (h : OLeaf o c d) (hv : Occ v c) : Occ v d := by
  induction h with
  | self => exact hv
  | nary hf _ ih => exact (Formula.occ_nary ..).2 ⟨_, hf, ih⟩

theorem exists_false_leaf (d : Formula) {σ : Asg} (h : d.eval σ = false) : ∃ c, OLeaf .conj c d ∧ c.eval σ = false := by
  induction d using Formula.ind with
  | nary o fs ih =>
    cases o with
    | disj => exact ⟨_, .self (by simp), h⟩
    | conj =>
      rw [Formula.eval_nary, Op.eval, List.all_eq_false] at h
      obtain ⟨f, hf, he⟩ := h
      obtain ⟨c, h1, h2⟩ := ih f hf (by simpa using he)
      exact ⟨c, .nary hf h1, h2⟩
  | _ => exact ⟨_, .self (by simp), h⟩

/-- With all variables of a CNF set, a false CNF gives a contradiction. -/
theorem SCd.eval {S : Lit → Prop} (hS : LitCons S) {d : Formula} (h : SCd S d) {σ : Asg} (hσ : Sets S d σ) : d.eval σ = true := by
  refine Classical.byContradiction fun hn => ?_
  obtain ⟨c, h1, h2⟩ := exists_false_leaf d (Bool.eq_false_iff.2 hn)
  refine SC.not_fls hS (fun τ hτ => ?_) (h c h1)
  rw [← h2]
  refine Formula.eval_congr fun v hv => ?_
  have := hτ _ (hσ v (oleaf_occ h1 hv))
  cases hs : σ v <;> simpa [Lit.eval, hs] using this

/-- Propagation from the values of the variables of `f` finds a contradiction if `f` is false. -/
def UpOk (f g : Formula) : Prop := ∀ S σ, LitCons S → SCd S g → Sets S f σ → f.eval σ = true

/-- Propagation from the values of the variables of `f` decides the variables of `g`. -/
def UpDec (f g : Formula) : Prop := ∀ S σ, LitCons S → SCd S g → Sets S f σ → ∀ v, Occ v g → S v.p ∨ S v.n

theorem Sets.dec {S : Lit → Prop} {f σ} (h : Sets S f σ) {v} (hv : Occ v f) : S v.p ∨ S v.n := by
  have := h v hv
  cases hs : σ v with
  | true => rw [hs] at this; exact .inl this
  | false => rw [hs] at this; exact .inr this

/-- A CNF without new variables. -/
theorem upOk_plain {f g : Formula} (hs : ∀ σ, g.eval σ = true → f.eval σ = true) (hv : ∀ v, Occ v g → Occ v f) : UpOk f g ∧ UpDec f g :=
  ⟨fun S σ hS hg hσ => hs σ (hg.eval hS fun v h => hσ v (hv v h)), fun S σ _ _ hσ v h => hσ.dec (hv v h)⟩

/-! ### Restriction -/

/-- Literals of a variable that does not occur can be left out. -/
theorem SC.drop {S : Lit → Prop} (hS : LitCons S) {c : Formula} (h : SC S c) {x : Var} (hx : ¬ Occ x c) : SC (fun k => S k ∧ k.v ≠ x) c := by
  intro k hk
  by_cases hkx : k.v = x
  · refine absurd h (SC.not_fls hS fun σ hσ => ?_)
    refine Bool.eq_false_iff.2 fun ht => ?_
    have := hk (fun v => if v = x then !k.pos else σ v) (fun l hl => ?_) ?_
    · rcases k with ⟨u, q⟩
      simp only at hkx; subst hkx
      cases q <;> simp [Lit.eval] at this
    · have := hσ l hl.1
      simpa [Lit.eval, hl.2] using this
    · rw [← ht]
      refine Formula.eval_congr fun v hv => ?_
      rw [if_neg]; rintro rfl; exact hx hv
  · exact ⟨h k fun σ hσ hc => hk σ (fun l hl => hσ l hl.1) hc, hkx⟩

end Verif
