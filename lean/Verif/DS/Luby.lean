/-
Model of `luby`, src/solver/sat/minisat2.rs:166-180.
-/
namespace Verif

/-- The first loop, minisat2.rs:169-172. -/
def lubyGrow : Nat → Nat → Nat → Nat → Option (Nat × Nat)
  | 0, _, _, _ => none
  | fuel + 1, x, size, seq => if size < x + 1 then lubyGrow fuel x (2 * size + 1) (seq + 1) else some (size, seq)

/-- The second loop, minisat2.rs:174-178.  `none` is out of fuel or a remainder by zero. -/
def lubyShrink : Nat → Nat → Nat → Nat → Option Nat
  | 0, _, _, _ => none
  | fuel + 1, x, size, seq =>
    if size - 1 = x then some seq
    else if (size - 1) / 2 = 0 then none
    else lubyShrink fuel (x % ((size - 1) / 2)) ((size - 1) / 2) (seq - 1)

/-- `luby(y, x)`, minisat2.rs:166-180: the exponent passed to `y.powi` (floating-point power not modelled). -/
def lubyExp (x : Nat) : Option Nat :=
  match lubyGrow (x + 1) x 1 0 with
  | none => none
  | some (size, seq) => lubyShrink (seq + 1) x size seq

/-- Specification: the Luby sequence 1,1,2,1,1,2,4,… (one-based); `Luby i e` says the i-th entry is `2^e`. -/
inductive Luby : Nat → Nat → Prop
  | top (k : Nat) : Luby (2 ^ (k + 1) - 1) k
  | again (k i e : Nat) : 2 ^ k ≤ i → i < 2 ^ (k + 1) - 1 → Luby (i - 2 ^ k + 1) e → Luby i e

theorem pow_pos2 (k : Nat) : 1 ≤ 2 ^ k := Nat.one_le_two_pow

theorem lt_pow2 (k : Nat) : k < 2 ^ k := Nat.lt_two_pow_self

theorem pow2_lt {a b : Nat} (h : 2 ^ a < 2 ^ b) : a < b := (Nat.pow_lt_pow_iff_right (by decide)).1 h

theorem pow2_le {a b : Nat} (h : a ≤ b) : 2 ^ a ≤ 2 ^ b := Nat.pow_le_pow_right (by decide) h

/-- The specification determines the entry. -/
theorem Luby.unique {i e e' : Nat} (h : Luby i e) (h' : Luby i e') : e = e' := by
  induction h generalizing e' with
  | top k =>
    generalize hi : 2 ^ (k + 1) - 1 = i at h'
    have hk := pow_pos2 k
    cases h' with
    | top =>
      have h1 := pow_pos2 (k + 1); have h2 := pow_pos2 (e' + 1)
      have : 2 ^ (k + 1) = 2 ^ (e' + 1) := by omega
      have := Nat.pow_right_inj (a := 2) (by decide) |>.1 this
      omega
    | again k' i e' h1 h2 h3 =>
      subst hi
      exfalso
      have a1 : 2 ^ k' < 2 ^ (k + 1) := by have := pow_pos2 (k + 1); omega
      have a2 : 2 ^ (k + 1) < 2 ^ (k' + 1) := by omega
      have := pow2_lt a1; have := pow2_lt a2; omega
  | again k i e h1 h2 h3 ih =>
    cases h' with
    | top =>
      exfalso
      have a1 : 2 ^ k < 2 ^ (e' + 1) := by have := pow_pos2 (e' + 1); omega
      have a2 : 2 ^ (e' + 1) < 2 ^ (k + 1) := by omega
      have := pow2_lt a1; have := pow2_lt a2; omega
    | again k' i e' g1 g2 g3 =>
      have a1 : 2 ^ k < 2 ^ (k' + 1) := by omega
      have a2 : 2 ^ k' < 2 ^ (k + 1) := by omega
      have := pow2_lt a1; have := pow2_lt a2
      have : k = k' := by omega
      subst this
      exact ih g3

theorem lubyGrow_ok (fuel : Nat) : ∀ {x seq : Nat}, x + 1 ≤ fuel + seq → 0 < fuel →
    ∃ s, lubyGrow fuel x (2 ^ (seq + 1) - 1) seq = some (2 ^ (s + 1) - 1, s) ∧ x < 2 ^ (s + 1) - 1 := by
  induction fuel with
  | zero => intro x seq _ h; omega
  | succ fuel ih =>
    intro x seq h _
    unfold lubyGrow
    by_cases hc : 2 ^ (seq + 1) - 1 < x + 1
    · rw [if_pos hc]
      have h1 := lt_pow2 (seq + 1)
      have : 2 * (2 ^ (seq + 1) - 1) + 1 = 2 ^ (seq + 1 + 1) - 1 := by
        have := pow_pos2 (seq + 1); rw [Nat.pow_succ 2 (seq + 1)]; omega
      rw [this]
      by_cases hf : 0 < fuel
      · exact ih (by omega) hf
      · exfalso; omega
    · rw [if_neg hc]; exact ⟨seq, rfl, by omega⟩

theorem lubyShrink_ok (seq : Nat) : ∀ {x : Nat}, x < 2 ^ (seq + 1) - 1 →
    ∃ e, lubyShrink (seq + 1) x (2 ^ (seq + 1) - 1) seq = some e ∧ Luby (x + 1) e := by
  induction seq with
  | zero => intro x hx; have : x = 0 := by omega
            subst this; exact ⟨0, by simp [lubyShrink], Luby.top 0⟩
  | succ seq ih =>
    intro x hx
    have hp := pow_pos2 (seq + 1)
    have hp2 : 2 ^ (seq + 1 + 1) = 2 ^ (seq + 1) * 2 := Nat.pow_succ ..
    unfold lubyShrink
    by_cases hc : 2 ^ (seq + 1 + 1) - 1 - 1 = x
    · rw [if_pos hc]
      refine ⟨seq + 1, rfl, ?_⟩
      have : x + 1 = 2 ^ (seq + 1 + 1) - 1 := by omega
      rw [this]; exact .top _
    · have hhalf : (2 ^ (seq + 1 + 1) - 1 - 1) / 2 = 2 ^ (seq + 1) - 1 := by omega
      have hp1 : 2 ^ (seq + 1) = 2 ^ seq * 2 := Nat.pow_succ ..
      have hp0 := pow_pos2 seq
      rw [if_neg hc, hhalf, if_neg (by omega)]
      obtain ⟨e, he, hl⟩ := ih (x := x % (2 ^ (seq + 1) - 1)) (Nat.mod_lt _ (by omega))
      refine ⟨e, he, ?_⟩
      by_cases hlt : x < 2 ^ (seq + 1) - 1
      · rw [Nat.mod_eq_of_lt hlt] at hl; exact hl
      · rw [Nat.mod_eq_sub_mod (by omega), Nat.mod_eq_of_lt (by omega)] at hl
        refine .again (seq + 1) (x + 1) e (by omega) (by omega) ?_
        have : x + 1 - 2 ^ (seq + 1) + 1 = x - (2 ^ (seq + 1) - 1) + 1 := by omega
        rw [this]; exact hl

theorem lubyExp_ok (x : Nat) : ∃ e, lubyExp x = some e ∧ Luby (x + 1) e := by
  obtain ⟨s, hs, hx⟩ := lubyGrow_ok (x + 1) (x := x) (seq := 0) (by omega) (by omega)
  obtain ⟨e, he, hl⟩ := lubyShrink_ok s hx
  refine ⟨e, ?_, hl⟩
  have : lubyGrow (x + 1) x 1 0 = some (2 ^ (s + 1) - 1, s) := hs
  unfold lubyExp
  rw [this]; exact he

end Verif
