import Verif.F.Norm
/-
What `and` and `or` can return: the operands with nested operators of the same kind
flattened.
-/
namespace Verif

/-- `g` is one of the operands of `f` after flattening nested `o`-nodes. -/
inductive OLeaf (o : Op) (g : Formula) : Formula → Prop
  | self : (∀ gs, g ≠ .nary o gs) → OLeaf o g g
  | nary {fs f} : f ∈ fs → OLeaf o g f → OLeaf o g (.nary o fs)

namespace Formula

theorem mem_addOp {o f acc r g} (e : addOp o f acc = some r) (hg : g ∈ r) : g ∈ acc ∨ (g = f ∧ g.isConst = false) := by
  unfold addOp at e
  split at e
  · split at e
    · simp at e
    · cases e; exact .inl hg
  split at e
  · split at e
    · simp at e
    · cases e; exact .inl hg
  split at e
  · simp at e
  split at e
  · cases e; exact .inl hg
  · rename_i h1 h2 _ _
    cases e
    rcases List.mem_append.1 hg with hg | hg
    · exact .inl hg
    · obtain rfl := List.mem_singleton.1 hg
      refine .inr ⟨rfl, ?_⟩
      cases g <;> simp_all [isConst]

theorem mem_flats_of {o} (fs : List Formula)
    (h : ∀ f ∈ fs, ∀ acc r, flat1 o f acc = some r → ∀ g ∈ r, g ∈ acc ∨ (OLeaf o g f ∧ g.isConst = false)) :
    ∀ acc r, flats o fs acc = some r → ∀ g ∈ r, g ∈ acc ∨ (∃ f ∈ fs, OLeaf o g f) ∧ g.isConst = false := by
  induction fs with
  | nil => intro acc r e g hg; simp only [flats, Option.some.injEq] at e; exact .inl (e ▸ hg)
  | cons f fs ih =>
    intro acc r e g hg
    simp only [flats] at e
    split at e
    · simp at e
    · rename_i acc' he
      rcases ih (fun g hg => h g (by simp [hg])) acc' r e g hg with hh | ⟨⟨k, hk, hl⟩, hc⟩
      · rcases h f (by simp) acc acc' he g hh with h3 | ⟨h3, h4⟩
        · exact .inl h3
        · exact .inr ⟨⟨f, by simp, h3⟩, h4⟩
      · exact .inr ⟨⟨k, by simp [hk], hl⟩, hc⟩

theorem mem_flat1 {o} (f : Formula) : ∀ acc r, flat1 o f acc = some r → ∀ g ∈ r, g ∈ acc ∨ (OLeaf o g f ∧ g.isConst = false) := by
  induction f using Formula.ind with
  | nary o' fs ih =>
    intro acc r e g hg
    simp only [flat1] at e
    split at e
    · rename_i h; subst h
      rcases mem_flats_of fs ih acc r e g hg with h | ⟨⟨k, hk, hl⟩, hc⟩
      · exact .inl h
      · exact .inr ⟨.nary hk hl, hc⟩
    · rename_i ho
      rcases mem_addOp e hg with h | ⟨rfl, hc⟩
      · exact .inl h
      · exact .inr ⟨.self (by intro gs e; injection e with e; exact ho e), hc⟩
  | _ =>
    intro acc r e g hg
    simp only [flat1] at e
    rcases mem_addOp e hg with h | ⟨rfl, hc⟩
    · exact .inl h
    · exact .inr ⟨.self (by intro gs e; cases e), hc⟩

theorem mem_flats {o fs r} (e : flats o fs [] = some r) {g} (hg : g ∈ r) : (∃ f ∈ fs, OLeaf o g f) ∧ g.isConst = false :=
  (mem_flats_of fs (fun f _ => mem_flat1 f) [] r e g hg).elim (by simp) id

theorem OLeaf.flat {o g f} (h : OLeaf o g f) : ∀ gs, g ≠ .nary o gs := by
  induction h with
  | self h => exact h
  | nary _ _ ih => exact ih

/-- The possible results of `and` and `or`. -/
theorem mkNary_cases (C : Canon) (o fs) :
    (mkNary C o fs = absorbing o ∧ flats o fs [] = none) ∨ mkNary C o fs = neutral o ∨
    (∃ f ∈ fs, OLeaf o (mkNary C o fs) f) ∨
    (∃ l, mkNary C o fs = .nary o l ∧ 2 ≤ l.length ∧ ∀ g ∈ l, (∃ f ∈ fs, OLeaf o g f) ∧ g.isConst = false) := by
  unfold mkNary
  cases e : flats o fs [] with
  | none => exact .inl ⟨rfl, rfl⟩
  | some l =>
    rcases l with _ | ⟨f, _ | ⟨g, l⟩⟩
    · exact .inr (.inl rfl)
    · exact .inr (.inr (.inl (mem_flats e (List.mem_singleton.2 rfl)).1))
    · refine .inr (.inr (.inr ⟨_, rfl, ?_, ?_⟩))
      · rw [(C.ord_perm o _).length_eq]; simp
      · intro k hk; exact mem_flats e ((C.ord_perm o _).mem_iff.1 hk)

/-- Closure principle for `and` and `or`. -/
theorem mkNary_closed {P : Formula → Prop} (C : Canon) (o) {fs : List Formula} (h1 : P .tru) (h2 : P .fls)
    (h3 : ∀ l, (∀ f ∈ l, P f) → P (.nary o l)) (h4 : ∀ l, P (.nary o l) → ∀ f ∈ l, P f) (h : ∀ f ∈ fs, P f) :
    P (mkNary C o fs) := by
  have hl : ∀ {g f}, OLeaf o g f → P f → P g := by
    intro g f hl
    induction hl with
    | self _ => exact id
    | nary hm _ ih => exact fun hp => ih (h4 _ hp _ hm)
  rcases mkNary_cases C o fs with ⟨e, _⟩ | e | ⟨f, hf, hl'⟩ | ⟨l, e, _, h5⟩
  · rw [e]; cases o <;> simpa [absorbing]
  · rw [e]; cases o <;> simpa [neutral]
  · exact hl hl' (h f hf)
  · rw [e]
    refine h3 l fun g hg => ?_
    obtain ⟨⟨f, hf, hl'⟩, _⟩ := h5 g hg
    exact hl hl' (h f hf)

end Formula
end Verif
