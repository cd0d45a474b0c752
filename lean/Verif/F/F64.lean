import Verif.F.Order
import Mathlib.Algebra.Order.Ring.Rat
import Mathlib.Algebra.Order.Field.Basic
import Mathlib.Tactic.Linarith
import Mathlib.Tactic.FieldSimp
import Mathlib.Tactic.Ring
/-
The rounding in the model of the FORCE ordering is that of IEEE 754: to the nearest number with 53 binary digits, ties to
even.
-/
namespace Verif
namespace VarOrd

/-- The mantissa of `a / b`, rounded. -/
def roundDiv (a b : Nat) : Nat := if b < 2 * (a % b) ∨ (2 * (a % b) = b ∧ a / b % 2 = 1) then a / b + 1 else a / b

theorem roundDiv_near {a b : Nat} (hb : 0 < b) : |(a : Rat) / b - roundDiv a b| ≤ 1 / 2 ∧ (|(a : Rat) / b - roundDiv a b| = 1 / 2 → roundDiv a b % 2 = 0) := by
  have hb' : (0 : Rat) < b := by exact_mod_cast hb
  have hdm : (a : Rat) = b * (a / b : Nat) + (a % b : Nat) := by exact_mod_cast (Nat.div_add_mod a b).symm
  have hlt : ((a % b : Nat) : Rat) < b := by exact_mod_cast Nat.mod_lt a hb
  have h0 : (0 : Rat) ≤ ((a % b : Nat) : Rat) := by exact_mod_cast Nat.zero_le _
  have e : (a : Rat) / b = (a / b : Nat) + ((a % b : Nat) : Rat) / b := by
    rw [div_eq_iff hb'.ne', add_mul, div_mul_cancel₀ _ hb'.ne']
    linarith
  unfold roundDiv
  split
  · rename_i h
    have h1 : (b : Rat) ≤ 2 * (a % b : Nat) := by exact_mod_cast (h.elim Nat.le_of_lt fun h => h.1.ge)
    have h2 : (1 : Rat) / 2 ≤ ((a % b : Nat) : Rat) / b := by rw [div_le_div_iff₀ (by norm_num) hb']; linarith
    have h3 : ((a % b : Nat) : Rat) / b < 1 := by rw [div_lt_one hb']; exact hlt
    have e2 : (a : Rat) / b - ((a / b + 1 : Nat) : Rat) = ((a % b : Nat) : Rat) / b - 1 := by push_cast; rw [e]; ring
    rw [e2, abs_of_nonpos (by linarith)]
    refine ⟨by linarith, fun h4 => ?_⟩
    have h5 : ((a % b : Nat) : Rat) / b = 1 / 2 := by linarith
    rw [div_eq_iff hb'.ne'] at h5
    have h6 : 2 * ((a % b : Nat) : Rat) = b := by linarith
    have h7 : 2 * (a % b) = b := by exact_mod_cast h6
    omega
  · rename_i h
    have h1 : 2 * ((a % b : Nat) : Rat) ≤ b := by exact_mod_cast (by omega : 2 * (a % b) ≤ b)
    have h2 : ((a % b : Nat) : Rat) / b ≤ 1 / 2 := by rw [div_le_div_iff₀ hb' (by norm_num)]; linarith
    have h3 : (0 : Rat) ≤ ((a % b : Nat) : Rat) / b := div_nonneg h0 hb'.le
    have e2 : (a : Rat) / b - ((a / b : Nat) : Rat) = ((a % b : Nat) : Rat) / b := by rw [e]; ring
    rw [e2, abs_of_nonneg h3]
    refine ⟨h2, fun h4 => ?_⟩
    rw [div_eq_iff hb'.ne'] at h4
    have h6 : 2 * ((a % b : Nat) : Rat) = b := by linarith
    have h7 : 2 * (a % b) = b := by exact_mod_cast h6
    omega

/-- `n * 2^s / d` as a quotient of natural numbers. -/
def scaled (n d : Nat) (s : Int) : Nat × Nat := if 0 ≤ s then (n * 2 ^ s.toNat, d) else (n, d * 2 ^ (-s).toNat)

theorem scaled_pos {n d : Nat} (hd : 0 < d) (s : Int) : 0 < (scaled n d s).2 := by
  unfold scaled
  split
  · exact hd
  · exact Nat.mul_pos hd (Nat.two_pow_pos _)

theorem scaled_eq {n d : Nat} (hd : 0 < d) (s : Int) : ((scaled n d s).1 : Rat) / (scaled n d s).2 = (n : Rat) / d * (2 : Rat) ^ s := by
  have hd' : (d : Rat) ≠ 0 := by exact_mod_cast hd.ne'
  unfold scaled
  split
  · rename_i h
    obtain ⟨k, rfl⟩ := Int.eq_ofNat_of_zero_le h
    simp only [Int.toNat_natCast, zpow_natCast]
    push_cast
    field_simp
  · rename_i h
    obtain ⟨k, hk⟩ := Int.eq_ofNat_of_zero_le (show 0 ≤ -s by omega)
    have : s = -(k : Int) := by omega
    subst this
    simp only [neg_neg, Int.toNat_natCast, zpow_neg, zpow_natCast]
    push_cast
    field_simp

theorem f64_eq {q : Rat} (h : 0 < q) : ∃ s : Int, f64 q = (roundDiv (scaled q.num.toNat q.den s).1 (scaled q.num.toNat q.den s).2 : Rat) / (2 : Rat) ^ s ∧
    (s = (52 + Nat.log2 q.den - Nat.log2 q.num.toNat : Int) ∧ 2 ^ 52 ≤ (scaled q.num.toNat q.den s).1 / (scaled q.num.toNat q.den s).2 ∨
      s = (52 + Nat.log2 q.den - Nat.log2 q.num.toNat : Int) + 1 ∧ (scaled q.num.toNat q.den (s - 1)).1 / (scaled q.num.toNat q.den (s - 1)).2 < 2 ^ 52) := by
  have hn : ¬ q.num ≤ 0 := by have := Rat.num_pos.2 h; omega
  have fin : ∀ (s : Int) (m : Nat), (if 0 ≤ s then mkRat m (2 ^ s.toNat) else mkRat (m * 2 ^ (-s).toNat) 1) = (m : Rat) / (2 : Rat) ^ s := by
    intro s m
    split
    · rename_i h
      obtain ⟨k, rfl⟩ := Int.eq_ofNat_of_zero_le h
      rw [Rat.mkRat_eq_div]
      simp
    · rename_i h
      obtain ⟨k, hk⟩ := Int.eq_ofNat_of_zero_le (show 0 ≤ -s by omega)
      have : s = -(k : Int) := by omega
      subst this
      rw [Rat.mkRat_eq_div]
      simp
  unfold f64
  rw [if_neg hn]
  simp only
  rw [fin]
  change ∃ s : Int, (roundDiv (scaled q.num.toNat q.den (if (scaled q.num.toNat q.den (52 + Nat.log2 q.den - Nat.log2 q.num.toNat : Int)).1 /
    (scaled q.num.toNat q.den (52 + Nat.log2 q.den - Nat.log2 q.num.toNat : Int)).2 < 2 ^ 52 then (52 + Nat.log2 q.den - Nat.log2 q.num.toNat : Int) + 1 else (52 + Nat.log2 q.den - Nat.log2 q.num.toNat : Int))).1 _ : Rat) / _ = _ ∧ _
  refine ⟨_, rfl, ?_⟩
  split
  · rename_i h; right; refine ⟨rfl, by simpa using h⟩
  · rename_i h; left; exact ⟨rfl, by omega⟩

theorem div_lt_cast {a b N : Nat} (hb : 0 < b) : a / b < N ↔ (a : Rat) / b < N := by
  have hb' : (0 : Rat) < b := by exact_mod_cast hb
  rw [Nat.div_lt_iff_lt_mul hb, div_lt_iff₀ hb']
  exact_mod_cast Iff.rfl

theorem log_bounds {n : Nat} (h : 0 < n) : (2 : Rat) ^ (Nat.log2 n : Int) ≤ n ∧ (n : Rat) < 2 * (2 : Rat) ^ (Nat.log2 n : Int) := by
  have h1 := Nat.log2_self_le h.ne'
  have h2 := @Nat.lt_log2_self n
  rw [Nat.pow_succ] at h2
  rw [zpow_natCast]
  constructor
  · exact_mod_cast h1
  · have : (n : Rat) < 2 ^ n.log2 * 2 := by exact_mod_cast h2
    linarith

/-- Rounding gives a number with 53 binary digits at most half a unit in the last place away; if exactly half, the last
digit is zero. -/
theorem f64_nearest {q : Rat} (h : 0 < q) : ∃ (m : Nat) (s : Int), f64 q = m / (2 : Rat) ^ s ∧ 2 ^ 52 ≤ m ∧ m ≤ 2 ^ 53 ∧
    |q - f64 q| ≤ 1 / 2 / (2 : Rat) ^ s ∧ (|q - f64 q| = 1 / 2 / (2 : Rat) ^ s → m % 2 = 0) := by
  obtain ⟨s, e, hs⟩ := f64_eq h
  have hn : 0 < q.num.toNat := by have := Rat.num_pos.2 h; omega
  have hd : 0 < q.den := q.den_pos
  have hq : (q.num.toNat : Rat) / q.den = q := by
    have h1 : ((q.num.toNat : Int) : Rat) = (q.num : Rat) := by rw [Int.toNat_of_nonneg (Rat.num_pos.2 h).le]
    have h2 : (q.num.toNat : Rat) = (q.num : Rat) := by exact_mod_cast h1
    rw [h2]; exact Rat.num_div_den q
  have hp := scaled_pos (n := q.num.toNat) hd s
  have he := scaled_eq (n := q.num.toNat) hd s
  rw [hq] at he
  have h2s : (0 : Rat) < (2 : Rat) ^ s := zpow_pos (by norm_num) s
  obtain ⟨n1, n2⟩ := roundDiv_near (a := (scaled q.num.toNat q.den s).1) hp
  have hge : ∀ a b, a / b ≤ roundDiv a b ∧ roundDiv a b ≤ a / b + 1 := fun a b => by unfold roundDiv; split <;> omega
  obtain ⟨g1, g2⟩ := hge (scaled q.num.toNat q.den s).1 (scaled q.num.toNat q.den s).2
  have key : ∀ x : Rat, |q - x / (2 : Rat) ^ s| = |q * (2 : Rat) ^ s - x| / (2 : Rat) ^ s := fun x => by
    rw [← abs_of_pos h2s, ← abs_div, abs_of_pos h2s, sub_div, mul_div_assoc, div_self h2s.ne', mul_one]
  have lo : ∀ t : Int, t = 52 + Nat.log2 q.den - Nat.log2 q.num.toNat → (2 : Rat) ^ 51 < q * (2 : Rat) ^ t ∧ q * (2 : Rat) ^ t < (2 : Rat) ^ 53 := by
    intro t ht
    obtain ⟨a1, a2⟩ := log_bounds hn
    obtain ⟨b1, b2⟩ := log_bounds hd
    have hl1 : (0 : Rat) < (2 : Rat) ^ (Nat.log2 q.num.toNat : Int) := zpow_pos (by norm_num) _
    have hl2 : (0 : Rat) < (2 : Rat) ^ (Nat.log2 q.den : Int) := zpow_pos (by norm_num) _
    have hd' : (0 : Rat) < q.den := by exact_mod_cast hd
    have et : (2 : Rat) ^ t = 2 ^ 52 * (2 : Rat) ^ (Nat.log2 q.den : Int) / (2 : Rat) ^ (Nat.log2 q.num.toNat : Int) := by
      rw [ht, zpow_sub₀ (by norm_num), zpow_add₀ (by norm_num)]
      norm_num
    rw [et]
    generalize (2 : Rat) ^ (Nat.log2 q.num.toNat : Int) = L at *
    generalize (2 : Rat) ^ (Nat.log2 q.den : Int) = M at *
    rw [← hq]
    generalize (q.num.toNat : Rat) = N at *
    generalize (q.den : Rat) = D at *
    rw [div_mul_div_comm]
    constructor
    · rw [lt_div_iff₀ (mul_pos hd' hl1)]
      nlinarith
    · rw [div_lt_iff₀ (mul_pos hd' hl1)]
      nlinarith
  refine ⟨_, s, e, ?_, ?_, ?_, ?_⟩
  · rcases hs with ⟨_, h⟩ | ⟨h1, h⟩
    · omega
    · refine Nat.le_trans (Nat.le_of_not_lt fun hlt => ?_) g1
      rw [div_lt_cast hp, he] at hlt
      have := (lo (s - 1) (by omega)).1
      rw [zpow_sub₀ (by norm_num), zpow_one] at this
      push_cast at hlt
      linarith
  · refine Nat.le_trans g2 ?_
    have : (scaled q.num.toNat q.den s).1 / (scaled q.num.toNat q.den s).2 < 2 ^ 53 := by
      rw [div_lt_cast hp, he]
      rcases hs with ⟨h1, _⟩ | ⟨h1, h⟩
      · have := (lo s h1).2
        push_cast
        exact this
      · rw [div_lt_cast (scaled_pos hd _), scaled_eq hd, hq, zpow_sub₀ (by norm_num), zpow_one] at h
        push_cast at h ⊢
        linarith
    omega
  · rw [e, key, ← he]
    exact div_le_div_of_nonneg_right n1 h2s.le
  · intro hh
    rw [e, key, ← he] at hh
    refine n2 ?_
    rw [div_left_inj' h2s.ne'] at hh
    exact hh

/-- `0.1 + 0.2 = 0.30000000000000004`. -/
example : f64 (f64 (1 / 10) + f64 (2 / 10)) = 1351079888211149 / 4503599627370496 := by decide +kernel

end VarOrd
end Verif
