import Verif.F.FactoryRun

/-
The tables of variables and constraints are consistent in every reachable state, whatever
their size.
-/
namespace Verif

/-- The tables without operand handles are consistent. -/
structure Leaves (s : FF) : Prop where
  vars : CInv (fun a b => a == b) (.lit true .ff) true s.vars
  ccs : CInv (fun a b => a == b) .cc true s.ccs
  pbcs : CInv (fun a b => a == b) .pbc true s.pbcs

theorem Leaves.of_eq {s s' : FF} (h : Leaves s) (h1 : s'.vars = s.vars) (h2 : s'.ccs = s.ccs) (h3 : s'.pbcs = s.pbcs) : Leaves s' :=
  ⟨h1 ▸ h.vars, h2 ▸ h.ccs, h3 ▸ h.pbcs⟩

theorem leaves_leaf {s : FF} (h : Leaves s) {f : Formula} (hl : f.isLeaf = true) :
    Leaves (s.leaf f).1 ∧ Den (s.leaf f).1 (s.leaf f).2 f := by
  cases f <;> simp [Formula.isLeaf] at hl
  · exact ⟨h, by simp [Den, FF.leaf]⟩
  · exact ⟨h, by simp [Den, FF.leaf]⟩
  · rename_i x
    simp only [FF.leaf]
    obtain ⟨i, a, e1, e2, e3, e4, _⟩ := h.ccs.getOrInsert isEqv_beq x
    generalize s.ccs.getOrInsert (fun a b => a == b) FTy.cc true x = c at *
    rcases c with ⟨r, c⟩
    simp only at e1 e2 e3 e4 ⊢
    obtain rfl : a = x := by simpa using e3
    exact ⟨⟨h.vars, e4, h.pbcs⟩, by subst e1; simp [Den, FF.unpack, e2]⟩
  · rename_i x
    simp only [FF.leaf]
    obtain ⟨i, a, e1, e2, e3, e4, _⟩ := h.pbcs.getOrInsert isEqv_beq x
    generalize s.pbcs.getOrInsert (fun a b => a == b) FTy.pbc true x = c at *
    rcases c with ⟨r, c⟩
    simp only at e1 e2 e3 e4 ⊢
    obtain rfl : a = x := by simpa using e3
    exact ⟨⟨h.vars, h.ccs, e4⟩, by subst e1; simp [Den, FF.unpack, e2]⟩

theorem leaves_nary {fuel : Nat} {s s' : FF} {o : Op} {hs : List H} {r : H} (h : Leaves s)
    (hc : s.nary fuel o hs = some (s', r)) : Leaves s' := by
  unfold FF.nary at hc
  split at hc
  · simp at hc
  · cases hc; exact h
  · rename_i a _
    have hp : Leaves (s.pick o a).1 := by
      unfold FF.pick
      split
      · exact h
      · exact h
      · exact h
      · cases o <;> exact h.of_eq rfl rfl rfl
    generalize s.pick o a = p at hc hp
    rcases p with ⟨s1, r1⟩
    simp only [Option.some.injEq, Prod.mk.injEq] at hc
    obtain ⟨hc, -⟩ := hc
    split at hc
    · subst hc; exact hp.of_eq rfl rfl rfl
    · subst hc; exact hp

theorem leaves_insNot {s : FF} (h : Leaves s) (x : H) : Leaves (s.insNot x).1 := h.of_eq rfl rfl rfl

theorem leaves_pbc {s : FF} (h : Leaves s) (c rhs ts) : Leaves (s.pbc c rhs ts).1 :=
  (leaves_leaf h (isLeaf_mkPbc c rhs ts)).1

theorem leaves_negConstraint {fuel : Nat} {s s' : FF} {c rhs ts r} (h : Leaves s)
    (hc : s.negConstraint fuel c rhs ts = some (s', r)) : Leaves s' := by
  have key : ∀ c', some (s.pbc c' rhs ts) = some (s', r) → Leaves s' := by
    intro c' e
    have := leaves_pbc h c' rhs ts
    rw [Option.some.inj e] at this; exact this
  unfold FF.negConstraint at hc
  cases c <;> simp only at hc
  · exact leaves_nary (leaves_pbc (leaves_pbc h _ _ _) _ _ _) hc
  all_goals exact key _ hc

theorem leaves_negate {fuel : Nat} {s s' : FF} {x r} (h : Leaves s) (hc : s.negate fuel x = some (s', r)) : Leaves s' := by
  unfold FF.negate at hc
  split at hc
  · simp at hc
  · exact leaves_negConstraint h hc
  · exact leaves_negConstraint h hc
  all_goals cases hc
  · exact leaves_insNot h x
  · exact leaves_insNot h x
  · exact leaves_insNot h x
  all_goals exact h

theorem leaves_not {fuel : Nat} {s s' : FF} {x r} (h : Leaves s) (hc : s.not fuel x = some (s', r)) : Leaves s' := by
  unfold FF.not at hc
  split at hc
  · exact leaves_negate h hc
  · exact leaves_negate h hc
  · exact leaves_negate h hc
  · exact leaves_negate h hc
  · cases hc; exact leaves_insNot h x

theorem leaves_implication {fuel : Nat} {s s' : FF} {x y r} (w : Leaves s) (h : s.implication fuel x y = some (s', r)) : Leaves s' := by
  unfold FF.implication at h
  split at h
  · cases h; exact w
  split at h
  · cases h; exact w
  split at h
  · exact leaves_not w h
  split at h
  · cases h; exact w
  split at h
  · simp at h
  · rename_i s1 n hn
    split at h
    · cases h; exact leaves_negate w hn
    · cases h; exact (leaves_negate w hn).of_eq rfl rfl rfl

theorem leaves_equivalence {fuel : Nat} {s s' : FF} {x y r} (w : Leaves s) (h : s.equivalence fuel x y = some (s', r)) : Leaves s' := by
  unfold FF.equivalence at h
  split at h
  · cases h; exact w
  split at h
  · exact leaves_not w h
  split at h
  · cases h; exact w
  split at h
  · exact leaves_not w h
  split at h
  · cases h; exact w
  split at h
  · simp at h
  · rename_i s1 n hn
    split at h
    · cases h; exact leaves_negate w hn
    · cases h; exact (leaves_negate w hn).of_eq rfl rfl rfl

theorem leaves_mkVar {s : FF} (w : Leaves s) (n : String) : Leaves (s.mkVar n).1 ∧
    ∃ i, (s.mkVar n).1.vars.vec[i]? = some n ∧ (s.mkVar n).2 = ⟨.lit true .ff, i, true⟩ := by
  obtain ⟨i, a, e1, e2, e3, e4, _⟩ := w.vars.getOrInsert isEqv_beq n
  obtain rfl : a = n := by simpa using e3
  exact ⟨⟨e4, w.ccs, w.pbcs⟩, i, e2, e1⟩

theorem leaves_call {s s' : FF} {c r} (w : Leaves s) (h : s.call c = some (s', r)) : Leaves s' := by
  cases c <;> simp only [FF.call] at h
  · cases h; exact w
  · cases h; exact w
  · cases h; exact (leaves_mkVar w _).1
  · cases h; exact (leaves_mkVar w _).1
  · obtain ⟨p, hp, e⟩ := Option.map_eq_some_iff.1 h
    cases e
    unfold FF.newAux at hp
    split at hp
    · simp at hp
    · cases hp; exact w.of_eq rfl rfl rfl
  · exact leaves_nary w h
  · exact leaves_not w h
  · exact leaves_negate w h
  · exact leaves_implication w h
  · exact leaves_equivalence w h
  · unfold FF.cc at h
    obtain ⟨p, hp, e⟩ := Option.map_eq_some_iff.1 h
    have hl : p.isLeaf = true := by
      unfold Formula.mkCc at hp
      split at hp
      · cases hp; exact isLeaf_constructCc ..
      · simp at hp
    have := (leaves_leaf w hl).1
    rw [e] at this; exact this
  · have := leaves_pbc w ‹_› ‹_› ‹_›
    rw [Option.some.inj h] at this; exact this

theorem leaves_empty : Leaves FF.empty := by
  have := FF.wf_empty
  exact ⟨this.vars, this.ccs, this.pbcs⟩

theorem Run.leaves {s : FF} {pool : List H} (h : Run s pool) : Leaves s := by
  induction h with
  | start => exact leaves_empty
  | step _ _ _ hc ih => exact leaves_call ih hc

end Verif
