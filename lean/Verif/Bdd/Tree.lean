/-
Decision trees: the specification side of the BDD package.
-/
namespace Verif
namespace Bdd

/-- A decision tree over variable positions. -/
inductive BT
  | leaf (b : Bool)
  | node (v : Nat) (lo hi : BT)
deriving DecidableEq, Repr

namespace BT

/-- The Boolean function of a tree. -/
def eval (σ : Nat → Bool) : BT → Bool
  | leaf b => b
  | node v lo hi => if σ v then hi.eval σ else lo.eval σ

/-- Variables ascend from `b` and stay below `nv`. -/
def Ord (nv : Nat) : Nat → BT → Prop
  | _, leaf _ => True
  | b, node v lo hi => b ≤ v ∧ v < nv ∧ Ord nv (v + 1) lo ∧ Ord nv (v + 1) hi

/-- No redundant test. -/
def Red : BT → Prop
  | leaf _ => True
  | node _ lo hi => lo ≠ hi ∧ Red lo ∧ Red hi

def depth : BT → Nat
  | leaf _ => 0
  | node _ lo hi => 1 + max lo.depth hi.depth

/-- Reduced node. -/
def mk (v : Nat) (lo hi : BT) : BT := if lo = hi then lo else node v lo hi

/-- Position of the root variable; `nv` for constants. -/
def level (nv : Nat) : BT → Nat
  | leaf _ => nv
  | node v _ _ => v

theorem Ord.mono {nv b b' : Nat} {t : BT} (h : Ord nv b t) (hb : b' ≤ b) : Ord nv b' t := by
  cases t with
  | leaf b => trivial
  | node v lo hi => exact ⟨Nat.le_trans hb h.1, h.2.1, h.2.2.1, h.2.2.2⟩

theorem Ord.depth_le {nv : Nat} : ∀ {t : BT} {b : Nat}, Ord nv b t → b ≤ nv → t.depth ≤ nv - b
  | leaf _, _, _, _ => Nat.zero_le _
  | node v lo hi, b, h, hb => by
    obtain ⟨h1, h2, h3, h4⟩ := h
    have a1 := Ord.depth_le h3 (by omega)
    have a2 := Ord.depth_le h4 (by omega)
    simp only [depth]; omega

theorem Ord.mk {nv b v : Nat} {lo hi : BT} (h1 : b ≤ v) (h2 : v < nv) (hl : Ord nv (v + 1) lo) (hh : Ord nv (v + 1) hi) : Ord nv b (mk v lo hi) := by
  unfold BT.mk; split
  · exact hl.mono (by omega)
  · exact ⟨h1, h2, hl, hh⟩

theorem eval_mk (σ : Nat → Bool) (v : Nat) (lo hi : BT) : (mk v lo hi).eval σ = if σ v then hi.eval σ else lo.eval σ := by
  unfold BT.mk; split
  · rename_i h; subst h; split <;> rfl
  · rfl

/-- Only variables from `b` on matter. -/
theorem eval_congr {nv : Nat} {σ τ : Nat → Bool} : ∀ {t : BT} {b : Nat}, Ord nv b t → (∀ v, b ≤ v → v < nv → σ v = τ v) → t.eval σ = t.eval τ
  | leaf _, _, _, _ => rfl
  | node v lo hi, b, h, he => by
    obtain ⟨h1, h2, h3, h4⟩ := h
    have a1 := eval_congr (σ := σ) (τ := τ) h3 (fun w hw hw' => he w (by omega) hw')
    have a2 := eval_congr (σ := σ) (τ := τ) h4 (fun w hw hw' => he w (by omega) hw')
    simp only [eval, he v h1 h2, a1, a2]

/-- Set one variable. -/
def set (σ : Nat → Bool) (v : Nat) (b : Bool) : Nat → Bool := fun w => if w = v then b else σ w

theorem eval_set_lt {nv : Nat} {σ : Nat → Bool} {v : Nat} {x : Bool} {t : BT} {b : Nat} (h : Ord nv b t) (hv : v < b) : t.eval (set σ v x) = t.eval σ :=
  eval_congr h fun w hw _ => by simp only [set]; rw [if_neg (by omega)]

/-- Canonicity: reduced ordered trees of the same function are equal. -/
theorem canonical {nv : Nat} : ∀ (n : Nat) {t t' : BT} {b : Nat}, nv - b ≤ n → Ord nv b t → Ord nv b t' → Red t → Red t' → (∀ σ, t.eval σ = t'.eval σ) → t = t' := by
  intro n
  induction n with
  | zero =>
    intro t t' b hn h h' _ _ he
    cases t with
    | node v lo hi => obtain ⟨h1, h2, _⟩ := h; omega
    | leaf x =>
      cases t' with
      | node v lo hi => obtain ⟨h1, h2, _⟩ := h'; omega
      | leaf y => have := he fun _ => false; simp only [eval] at this; rw [this]
  | succ n ih =>
    intro t t' b hn h h' hr hr' he
    -- a node whose function does not depend on its variable is impossible
    have indep : ∀ {u u' : BT}, Ord nv b u → Red u → Ord nv (b + 1) u' → Red u' → (∀ σ, u.eval σ = u'.eval σ) → u = u' ∨ Ord nv (b + 1) u := by
      intro u u' hu hru hu' hru' heq
      cases u with
      | leaf x => exact .inr trivial
      | node v lo hi =>
        obtain ⟨h1, h2, h3, h4⟩ := hu
        by_cases hvb : v = b
        · subst hvb
          obtain ⟨r1, r2, r3⟩ := hru
          exfalso
          have e1 : ∀ σ, lo.eval σ = u'.eval σ := fun σ => by
            have := heq (set σ v false)
            rw [eval_set_lt hu' (by omega)] at this
            rw [← this]; simp only [eval, set, if_true]
            rw [if_neg (by simp)]; exact (eval_set_lt h3 (by omega)).symm
          have e2 : ∀ σ, hi.eval σ = u'.eval σ := fun σ => by
            have := heq (set σ v true)
            rw [eval_set_lt hu' (by omega)] at this
            rw [← this]; simp only [eval, set, if_true]
            exact (eval_set_lt h4 (by omega)).symm
          exact r1 (ih (b := v + 1) (by omega) h3 h4 r2 r3 fun σ => by rw [e1, e2])
        · exact .inr ⟨by omega, h2, h3, h4⟩
    have split : ∀ {u : BT}, Ord nv b u → Ord nv (b + 1) u ∨ ∃ lo hi, u = node b lo hi ∧ b < nv ∧ Ord nv (b + 1) lo ∧ Ord nv (b + 1) hi := by
      intro u hu
      cases u with
      | leaf x => exact .inl trivial
      | node v lo hi =>
        obtain ⟨h1, h2, h3, h4⟩ := hu
        by_cases hvb : v = b
        · subst hvb; exact .inr ⟨lo, hi, rfl, h2, h3, h4⟩
        · exact .inl ⟨by omega, h2, h3, h4⟩
    rcases split h' with hs' | ⟨lo', hi', rfl, hb, hl', hh'⟩
    · rcases indep h hr hs' hr' he with e | hs
      · exact e
      · exact ih (b := b + 1) (by omega) hs hs' hr hr' he
    · rcases split h with hs | ⟨lo, hi, rfl, _, hl, hh⟩
      · rcases indep h' hr' hs hr (fun σ => (he σ).symm) with e | hs'
        · exact e.symm
        · obtain ⟨h1, _⟩ := hs'; omega
      · have e1 : lo = lo' := ih (b := b + 1) (by omega) hl hl' hr.2.1 hr'.2.1 fun σ => by
          have := he (set σ b false)
          simpa [eval, set, eval_set_lt hl (Nat.lt_succ_self b), eval_set_lt hl' (Nat.lt_succ_self b)] using this
        have e2 : hi = hi' := ih (b := b + 1) (by omega) hh hh' hr.2.2 hr'.2.2 fun σ => by
          have := he (set σ b true)
          simpa [eval, set, eval_set_lt hh (Nat.lt_succ_self b), eval_set_lt hh' (Nat.lt_succ_self b)] using this
        rw [e1, e2]

theorem Red.mk {v : Nat} {lo hi : BT} (hl : Red lo) (hh : Red hi) : Red (mk v lo hi) := by
  unfold BT.mk; split
  · exact hl
  · rename_i h; exact ⟨h, hl, hh⟩

end BT
end Bdd
end Verif
