import Verif.Bdd.Prime
import Mathlib.FieldTheory.Finite.Basic
import Mathlib.Data.ZMod.Units
import Mathlib.Data.Nat.Totient
import Mathlib.GroupTheory.Index
import Mathlib.NumberTheory.Bertrand
import Mathlib.Data.ZMod.QuotientRing
import Mathlib.Data.Nat.Bitwise
/-
Lemmas about the search for primes: what `is_witness` computes, that primes have
no witnesses, and that at most half of the numbers are no witnesses of a
composite number.
-/
namespace Verif.Prime
open Verif

theorem bitSet_iff (s b : Nat) : bitSet s b = true ↔ s / 2 ^ b % 2 = 1 := by
  unfold bitSet
  rw [Nat.one_shiftLeft, Nat.and_two_pow, Nat.testBit_eq_decide_div_mod_eq]
  by_cases h : s / 2 ^ b % 2 = 1 <;> simp [h]

theorem scan_lt (s : Nat) : ∀ k, s < 2 ^ k → s ≠ 0 → s < 2 ^ scan s k
  | 0, h, h0 => absurd h (by simp; exact h0)
  | b + 1, h, h0 => by
    unfold scan
    split
    · exact h
    · next hb =>
      refine scan_lt s b ?_ h0
      rw [bitSet_iff] at hb
      rw [Nat.pow_succ] at h
      have : s / 2 ^ b < 2 := Nat.div_lt_of_lt_mul h
      have : s / 2 ^ b = 0 := by generalize s / 2 ^ b = q at *; omega
      exact (Nat.div_eq_zero_iff_lt (by positivity)).1 this

theorem numBits_lt {s : Nat} (h : s < 2 ^ 31) (h0 : s ≠ 0) : s < 2 ^ numBits s := by
  unfold numBits; rw [if_neg h0]; exact scan_lt s 31 h h0

/-- What the loop finds nothing against. -/
def Silent (w n i : Nat) : Prop :=
  (w ^ ((n - 1) / 2 ^ (i + 1))) ^ 2 % n = 1 → w ^ ((n - 1) / 2 ^ (i + 1)) % n = 1 ∨ w ^ ((n - 1) / 2 ^ (i + 1)) % n = n - 1

theorem mulmod_ok {a b c : Nat} (ha : a < c) (hb : b < c) (hc : c ≤ 2 ^ 32) : mulmod a b c = some (a * b % c) := by
  unfold mulmod
  refine if_pos ⟨?_, by omega⟩
  calc a * b < c * c := Nat.mul_lt_mul'' ha hb
    _ ≤ 2 ^ 32 * 2 ^ 32 := Nat.mul_le_mul hc hc
    _ = 2 ^ 64 := rfl

theorem div_step (s i : Nat) : s / 2 ^ i = 2 * (s / 2 ^ (i + 1)) + s / 2 ^ i % 2 := by
  rw [Nat.pow_succ, ← Nat.div_div_eq_div_mul]; omega

theorem witLoop_spec {w n : Nat} (hw : w < n) (hn : 2 ≤ n) (hb : n ≤ 2 ^ 32) : ∀ k d, d = w ^ ((n - 1) / 2 ^ k) % n →
    ∃ b, witLoop w n k d = some b ∧ (b = false ↔ w ^ (n - 1) % n = 1 ∧ ∀ i < k, Silent w n i)
  | 0, d, hd => by
    refine ⟨d != 1, rfl, ?_⟩
    rw [hd]; simp
  | i + 1, d, hd => by
    have hdn : d < n := by rw [hd]; exact Nat.mod_lt _ (by omega)
    have hsq : d * d % n = (w ^ ((n - 1) / 2 ^ (i + 1))) ^ 2 % n := by rw [hd, sq, ← Nat.mul_mod]
    unfold witLoop
    rw [mulmod_ok hdn hdn hb]
    simp only [Option.bind_eq_bind, Option.bind_some]
    by_cases hc : d * d % n = 1 ∧ d ≠ 1 ∧ d ≠ n - 1
    · rw [if_pos hc]
      refine ⟨true, rfl, ⟨by simp, fun h => ?_⟩⟩
      have := h.2 i (by omega) (by rw [← hsq]; exact hc.1)
      rw [← hd] at this
      exact absurd this (by omega)
    · rw [if_neg hc]
      have hsil : Silent w n i := fun h => by
        rw [← hsq] at h
        rw [← hd]
        by_contra hne
        exact hc ⟨h, by omega, by omega⟩
      have all : ∀ {P : Prop}, (P ∧ ∀ j < i, Silent w n j) ↔ (P ∧ ∀ j < i + 1, Silent w n j) := fun {P} =>
        ⟨fun ⟨a, b⟩ => ⟨a, fun j hj => by rcases Nat.lt_succ_iff_lt_or_eq.1 hj with h | h; exact b j h; exact h ▸ hsil⟩, fun ⟨a, b⟩ => ⟨a, fun j hj => b j (by omega)⟩⟩
      have hm : d * d % n < n := Nat.mod_lt _ (by omega)
      by_cases hbit : bitSet (n - 1) i
      · rw [if_pos hbit, mulmod_ok hm hw hb]
        simp only [Option.bind_some]
        obtain ⟨b, h1, h2⟩ := witLoop_spec hw hn hb i (d * d % n * w % n) (by
          rw [bitSet_iff] at hbit
          rw [div_step (n - 1) i, hbit, pow_add, pow_one, hsq, mul_comm 2, pow_mul, Nat.mod_mul_mod])
        exact ⟨b, h1, h2.trans all⟩
      · rw [if_neg hbit]
        obtain ⟨b, h1, h2⟩ := witLoop_spec hw hn hb i (d * d % n) (by
          rw [bitSet_iff] at hbit
          rw [div_step (n - 1) i, show (n - 1) / 2 ^ i % 2 = 0 by omega, hsq, mul_comm 2, Nat.add_zero (_ * 2), pow_mul])
        exact ⟨b, h1, h2.trans all⟩

/-- `w` passes the test for `n`: its `(n-1)`-th power is 1, and none of the powers
with exponent `(n-1)/2, (n-1)/4, …` is a square root of 1 other than 1 and -1. -/
def Passes (n w : Nat) : Prop := w ^ (n - 1) % n = 1 ∧ ∀ i, Silent w n i

theorem silent_big {w n i : Nat} (hn : 2 ≤ n) (h : n - 1 < 2 ^ (i + 1)) : Silent w n i := fun _ => by
  rw [Nat.div_eq_of_lt h, pow_zero]; exact .inl (Nat.mod_eq_of_lt (by omega))

theorem isWitness_spec {w n : Nat} (hw : w < n) (hn : 2 ≤ n) (hb : n ≤ 2 ^ 31) : ∃ b, isWitness w n = some b ∧ (b = false ↔ Passes n w) := by
  unfold isWitness
  rw [if_neg (by omega)]
  have hlt := numBits_lt (s := n - 1) (by omega) (by omega)
  obtain ⟨b, h1, h2⟩ := witLoop_spec hw hn (Nat.le_trans hb (by norm_num)) (numBits (n - 1)) 1 (by
    rw [Nat.div_eq_of_lt hlt, pow_zero, Nat.mod_eq_of_lt (by omega)])
  refine ⟨b, h1, h2.trans ⟨fun ⟨a, c⟩ => ⟨a, fun i => ?_⟩, fun ⟨a, c⟩ => ⟨a, fun i _ => c i⟩⟩⟩
  by_cases hi : i < numBits (n - 1)
  · exact c i hi
  · exact silent_big hn (Nat.lt_of_lt_of_le hlt (Nat.pow_le_pow_right (by omega) (by omega)))

/-! ### In the ring of residues -/

theorem cast_pow_eq_one {n : Nat} (hn : 2 ≤ n) (a : Nat) : a % n = 1 ↔ (a : ZMod n) = 1 := by
  rw [← Nat.cast_one (R := ZMod n), ZMod.natCast_eq_natCast_iff']
  rw [Nat.mod_eq_of_lt (show 1 < n by omega)]

theorem cast_eq_neg_one {n : Nat} (hn : 2 ≤ n) (a : Nat) : a % n = n - 1 ↔ (a : ZMod n) = -1 := by
  have : (-1 : ZMod n) = ((n - 1 : Nat) : ZMod n) := by
    rw [Nat.cast_sub (by omega)]; simp
  rw [this, ZMod.natCast_eq_natCast_iff', Nat.mod_eq_of_lt (show n - 1 < n by omega)]

theorem passes_iff {n w : Nat} (hn : 2 ≤ n) : Passes n w ↔ (w : ZMod n) ^ (n - 1) = 1 ∧
    ∀ i, ((w : ZMod n) ^ ((n - 1) / 2 ^ (i + 1))) ^ 2 = 1 → (w : ZMod n) ^ ((n - 1) / 2 ^ (i + 1)) = 1 ∨ (w : ZMod n) ^ ((n - 1) / 2 ^ (i + 1)) = -1 := by
  unfold Passes Silent
  simp only [cast_pow_eq_one hn, cast_eq_neg_one hn, Nat.cast_pow]

theorem prime_passes {p w : Nat} (hp : p.Prime) (h1 : 1 ≤ w) (h2 : w < p) : Passes p w := by
  have := Fact.mk hp
  refine (passes_iff hp.two_le).2 ⟨ZMod.pow_card_sub_one_eq_one ?_, fun i h => sq_eq_one_iff.1 h⟩
  intro h
  rw [ZMod.natCast_eq_zero_iff] at h
  exact absurd (Nat.le_of_dvd (by omega) h) (by omega)
/-! ### Composite numbers -/

/-- The numbers that pass for `n`, as units. -/
theorem unit_of_pow {n : Nat} (hn : 2 ≤ n) {x : ZMod n} (h : x ^ (n - 1) = 1) : IsUnit x := by
  refine IsUnit.of_mul_eq_one (x ^ (n - 2)) ?_
  rw [← pow_succ', show n - 2 + 1 = n - 1 by omega, h]

theorem one_add_pow_of_sq_zero {R : Type} [CommRing R] {m : R} (hm : m ^ 2 = 0) : ∀ k : Nat, (1 + m) ^ k = 1 + k * m
  | 0 => by simp
  | k + 1 => by
    rw [pow_succ, one_add_pow_of_sq_zero hm k]
    push_cast
    linear_combination (k : R) * hm

/-- A number divisible by a square has a unit whose `(n-1)`-th power is not 1. -/
theorem not_squarefree {n p q : Nat} (hn : n = p * (p * q)) (hp : 2 ≤ p) (hq : 1 ≤ q) : ∃ x : (ZMod n)ˣ, x ^ (n - 1) ≠ 1 := by
  have hn2 : 2 ≤ n := by
    rw [hn]; exact Nat.le_trans hp (Nat.le_mul_of_pos_right p (Nat.mul_pos (by omega) hq))
  have hm : ((p * q : Nat) : ZMod n) ^ 2 = 0 := by
    rw [← Nat.cast_pow, ZMod.natCast_eq_zero_iff]
    exact ⟨q, by rw [hn]; ring⟩
  have hpm : (p : ZMod n) * ((p * q : Nat) : ZMod n) = 0 := by
    rw [← Nat.cast_mul, ZMod.natCast_eq_zero_iff, ← hn]
  have hne : ((p * q : Nat) : ZMod n) ≠ 0 := by
    rw [Ne, ZMod.natCast_eq_zero_iff]
    intro h
    have := Nat.le_of_dvd (by positivity) h
    rw [hn] at this
    nlinarith [Nat.mul_pos (show 0 < p by omega) hq]
  have hu : (1 + ((p * q : Nat) : ZMod n)) ^ p = 1 := by
    rw [one_add_pow_of_sq_zero hm, hpm, add_zero]
  have hunit : IsUnit (1 + ((p * q : Nat) : ZMod n)) := by
    refine IsUnit.of_mul_eq_one ((1 + ((p * q : Nat) : ZMod n)) ^ (p - 1)) ?_
    rw [← pow_succ', show p - 1 + 1 = p by omega, hu]
  obtain ⟨x, hx⟩ := hunit
  refine ⟨x, fun h => hne ?_⟩
  have h2 : (x : ZMod n) ^ (n - 1) = 1 := by rw [← Units.val_pow_eq_pow_val, h]; rfl
  rw [hx, one_add_pow_of_sq_zero hm, Nat.cast_sub (by omega), ZMod.natCast_self] at h2
  push_cast at h2 ⊢
  linear_combination -h2

theorem neg_one_ne_one {m : Nat} (h : 3 ≤ m) : (-1 : ZMod m) ≠ 1 := by
  have : Fact (2 < m) := ⟨by omega⟩
  exact ZMod.neg_one_ne_one

/-- The numbers that pass lie in a subgroup of the units that is not the whole group. -/
theorem proper {n : Nat} (hn : 3 ≤ n) (hodd : n % 2 = 1) (hc : ¬ n.Prime) :
    ∃ B : Subgroup (ZMod n)ˣ, B ≠ ⊤ ∧ ∀ x : (ZMod n)ˣ, (x : ZMod n) ^ (n - 1) = 1 →
      (∀ i, ((x : ZMod n) ^ ((n - 1) / 2 ^ (i + 1))) ^ 2 = 1 → (x : ZMod n) ^ ((n - 1) / 2 ^ (i + 1)) = 1 ∨ (x : ZMod n) ^ ((n - 1) / 2 ^ (i + 1)) = -1) → x ∈ B := by
  by_cases hall : ∃ x : (ZMod n)ˣ, x ^ (n - 1) ≠ 1
  · obtain ⟨x, hx⟩ := hall
    refine ⟨(powMonoidHom (n - 1)).ker, fun h => hx ?_, fun y hy _ => ?_⟩
    · have : x ∈ (powMonoidHom (n - 1) : (ZMod n)ˣ →* (ZMod n)ˣ).ker := by rw [h]; trivial
      exact this
    · show y ^ (n - 1) = 1
      exact Units.ext (by rw [Units.val_pow_eq_pow_val, hy]; rfl)
  have hall : ∀ x : (ZMod n)ˣ, x ^ (n - 1) = 1 := fun x => by_contra fun h => hall ⟨x, h⟩
  obtain ⟨a, b, hab, ha, hb, hco⟩ : ∃ a b, n = a * b ∧ 3 ≤ a ∧ 3 ≤ b ∧ Nat.Coprime a b := by
    have hp := Nat.minFac_prime (show n ≠ 1 by omega)
    obtain ⟨q, hq⟩ := Nat.minFac_dvd n
    have hpo : n.minFac % 2 = 1 ∧ q % 2 = 1 := by
      rw [hq] at hodd
      rcases Nat.mod_two_eq_zero_or_one n.minFac with h | h <;> rcases Nat.mod_two_eq_zero_or_one q with h' | h' <;> simp [Nat.mul_mod, h, h'] at hodd ⊢
    have h2 := hp.two_le
    have hq1 : q ≠ 1 := fun h => hc (by rw [h, Nat.mul_one] at hq; rw [hq]; exact hp)
    by_cases hd : n.minFac ∣ q
    · obtain ⟨r, hr⟩ := hd
      obtain ⟨x, hx⟩ := not_squarefree (n := n) (p := n.minFac) (q := r) (by rw [← hr]; exact hq) h2 (by
        rcases Nat.eq_zero_or_pos r with h | h
        · rw [h] at hr; omega
        · exact h)
      exact absurd (hall x) hx
    · exact ⟨n.minFac, q, hq, by omega, by omega, (Nat.Prime.coprime_iff_not_dvd hp).2 hd⟩
  obtain ⟨s, u, hu, hsu⟩ : ∃ s u, u % 2 = 1 ∧ n - 1 = 2 ^ s * u := by
    obtain ⟨s, u, h1, h2⟩ := Nat.exists_eq_two_pow_mul_odd (show n - 1 ≠ 0 by omega)
    exact ⟨s, u, Nat.odd_iff.1 h1, h2⟩
  -- the highest `j` for which -1 is a power with exponent `2^j * u`
  have hex : ∃ j, j < s ∧ (∃ v : (ZMod n)ˣ, v ^ (2 ^ j * u) = -1) ∧ ∀ i, j < i → i ≤ s → ∀ v : (ZMod n)ˣ, v ^ (2 ^ i * u) ≠ -1 := by
    have hne : (-1 : (ZMod n)ˣ) ≠ 1 := fun h => neg_one_ne_one hn (by have := congrArg Units.val h; simpa using this)
    have key : ∀ m, m ≤ s → (∃ j, j < s ∧ (∃ v : (ZMod n)ˣ, v ^ (2 ^ j * u) = -1) ∧ ∀ i, j < i → i ≤ s → ∀ v : (ZMod n)ˣ, v ^ (2 ^ i * u) ≠ -1) ∨ ∀ i, s - m ≤ i → i ≤ s → ∀ v : (ZMod n)ˣ, v ^ (2 ^ i * u) ≠ -1 := by
      intro m
      induction m with
      | zero =>
        intro _
        refine .inr fun i h1 h2 v => ?_
        rw [show i = s by omega, ← hsu, hall v]; exact hne.symm
      | succ m ih =>
        intro hm
        rcases ih (by omega) with h | h
        · exact .inl h
        · by_cases hv : ∃ v : (ZMod n)ˣ, v ^ (2 ^ (s - (m + 1)) * u) = -1
          · exact .inl ⟨s - (m + 1), by omega, hv, fun i h1 h2 => h i (by omega) h2⟩
          · refine .inr fun i h1 h2 v hv' => ?_
            by_cases he : i = s - (m + 1)
            · exact hv ⟨v, he ▸ hv'⟩
            · exact h i (by omega) h2 v hv'
    rcases key s (Nat.le_refl _) with h | h
    · exact h
    · exact absurd ((Nat.odd_iff.2 hu).neg_one_pow) (by simpa using h 0 (by omega) (by omega) (-1))
  obtain ⟨j, hjs, ⟨v, hv⟩, hmax⟩ := hex
  let B : Subgroup (ZMod n)ˣ := (Subgroup.zpowers (-1 : (ZMod n)ˣ)).comap (powMonoidHom (2 ^ j * u))
  have hB : ∀ x, x ∈ B ↔ x ^ (2 ^ j * u) = 1 ∨ x ^ (2 ^ j * u) = -1 := by
    intro x
    show x ^ (2 ^ j * u) ∈ Subgroup.zpowers (-1 : (ZMod n)ˣ) ↔ _
    rw [Subgroup.mem_zpowers_iff]
    constructor
    · rintro ⟨k, hk⟩
      rcases Int.even_or_odd k with h | h
      · rw [h.neg_one_zpow] at hk; exact .inl hk.symm
      · rw [h.neg_one_zpow] at hk; exact .inr hk.symm
    · rintro (h | h)
      · exact ⟨0, by simp [h]⟩
      · exact ⟨1, by simp [h]⟩
  refine ⟨B, fun htop => ?_, fun x h1 h2 => (hB x).2 ?_⟩
  · subst hab
    let e := ZMod.chineseRemainder hco
    let f1 : ZMod (a * b) →+* ZMod a := (RingHom.fst _ _).comp e.toRingHom
    let f2 : ZMod (a * b) →+* ZMod b := (RingHom.snd _ _).comp e.toRingHom
    let w0 : (ZMod a × ZMod b)ˣ := MulEquiv.prodUnits.symm (Units.map f1.toMonoidHom v, 1)
    let w : (ZMod (a * b))ˣ := Units.map e.symm.toRingHom.toMonoidHom w0
    have hw1 : f1 (w : ZMod (a * b)) = f1 v := by
      show (e (e.symm (w0 : ZMod a × ZMod b))).1 = _
      rw [e.apply_symm_apply]; rfl
    have hw2 : f2 (w : ZMod (a * b)) = 1 := by
      show (e (e.symm (w0 : ZMod a × ZMod b))).2 = _
      rw [e.apply_symm_apply]; rfl
    have hv1 : (f1 v) ^ (2 ^ j * u) = -1 := by
      rw [← map_pow, ← Units.val_pow_eq_pow_val, hv]; simp
    have hmem : w ∈ B := by rw [htop]; trivial
    rcases (hB w).1 hmem with h | h
    · have : f1 ((w : ZMod (a * b)) ^ (2 ^ j * u)) = 1 := by rw [← Units.val_pow_eq_pow_val, h]; simp
      rw [map_pow, hw1, hv1] at this
      exact neg_one_ne_one ha this
    · have : f2 ((w : ZMod (a * b)) ^ (2 ^ j * u)) = -1 := by rw [← Units.val_pow_eq_pow_val, h]; simp
      rw [map_pow, hw2, one_pow] at this
      exact neg_one_ne_one hb this.symm
  · have down : ∀ m, m ≤ s - j → x ^ (2 ^ (s - m) * u) = 1 ∨ x ^ (2 ^ (s - m) * u) = -1 := by
      intro m
      induction m with
      | zero => intro _; exact .inl (by rw [Nat.sub_zero, ← hsu]; exact hall x)
      | succ m ih =>
        intro hm
        have h1' : x ^ (2 ^ (s - m) * u) = 1 := by
          rcases ih (by omega) with h | h
          · exact h
          · exact absurd h (hmax (s - m) (by omega) (by omega) x)
        have hexp : (n - 1) / 2 ^ (m + 1) = 2 ^ (s - (m + 1)) * u := by
          rw [hsu]
          have : 2 ^ s = 2 ^ (m + 1) * 2 ^ (s - (m + 1)) := by rw [← pow_add]; congr 1; omega
          rw [this, Nat.mul_assoc, Nat.mul_div_cancel_left _ (by positivity)]
        have h3 := h2 m (by
          rw [hexp, ← pow_mul, show 2 ^ (s - (m + 1)) * u * 2 = 2 ^ (s - m) * u by
            rw [show s - m = s - (m + 1) + 1 by omega, pow_succ]; ring]
          rw [← Units.val_pow_eq_pow_val, h1']; rfl)
        rw [hexp] at h3
        rcases h3 with h | h
        · exact .inl (Units.ext (by rw [Units.val_pow_eq_pow_val, h]; rfl))
        · exact .inr (Units.ext (by rw [Units.val_pow_eq_pow_val, h]; simp))
    have := down (s - j) (Nat.le_refl _)
    rwa [show s - (s - j) = j by omega] at this

open Classical in
/-- At most half of the numbers from 1 to `n - 2` pass for an odd composite `n`. -/
theorem half {n : Nat} (hn : 3 ≤ n) (hodd : n % 2 = 1) (hc : ¬ n.Prime) :
    2 * ((Finset.Icc 1 (n - 2)).filter (Passes n)).card ≤ n - 2 := by
  obtain ⟨B, hB, hin⟩ := proper hn hodd hc
  have : NeZero n := ⟨by omega⟩
  have hle : ((Finset.Icc 1 (n - 2)).filter (Passes n)).card ≤ Nat.card B := by
    have hu : ∀ w, Passes n w → ∃ x : (ZMod n)ˣ, (x : ZMod n) = w ∧ x ∈ B := fun w hw => by
      obtain ⟨h1, h2⟩ := (passes_iff (by omega)).1 hw
      obtain ⟨x, hx⟩ := unit_of_pow (by omega) h1
      exact ⟨x, hx, hin x (by rw [hx]; exact h1) (by rw [hx]; exact h2)⟩
    rw [Nat.card_eq_fintype_card, ← Fintype.card_coe]
    refine Fintype.card_le_of_injective (fun w => ⟨(hu w.1 (Finset.mem_filter.1 w.2).2).choose, (hu w.1 (Finset.mem_filter.1 w.2).2).choose_spec.2⟩) fun x y hxy => ?_
    have h1 := (hu x.1 (Finset.mem_filter.1 x.2).2).choose_spec.1
    have h2 := (hu y.1 (Finset.mem_filter.1 y.2).2).choose_spec.1
    have h3 := congrArg Subtype.val hxy
    simp only at h3
    rw [← h3, h1, ZMod.natCast_eq_natCast_iff'] at h2
    have hx := Finset.mem_Icc.1 (Finset.mem_filter.1 x.2).1
    have hy := Finset.mem_Icc.1 (Finset.mem_filter.1 y.2).1
    rw [Nat.mod_eq_of_lt (by omega), Nat.mod_eq_of_lt (by omega)] at h2
    exact Subtype.ext h2
  have hcard : Nat.card B * B.index = Nat.card (ZMod n)ˣ := Subgroup.card_mul_index B
  have hidx : 2 ≤ B.index := by
    have h0 : B.index ≠ 0 := Subgroup.index_ne_zero_of_finite
    have h1 : B.index ≠ 1 := fun h => hB (Subgroup.index_eq_one.1 h)
    omega
  have htot : Nat.card (ZMod n)ˣ ≤ n - 2 := by
    rw [Nat.card_eq_fintype_card, ZMod.card_units_eq_totient]
    have h1 := Nat.totient_lt n (by omega)
    have h2 : n.totient ≠ n - 1 := fun h => hc ((Nat.totient_eq_iff_prime (by omega)).1 h)
    omega
  nlinarith

/-! ### The searches -/

theorem random_ok {n : Nat} (hn : 3 ≤ n) (r : Nat) : random r (n - 1) = some (1 + r % (n - 2)) := by
  unfold random; rw [if_pos (by omega), show n - 1 - 1 = n - 2 by omega]

theorem draw_lt {n : Nat} (hn : 3 ≤ n) (r : Nat) : 1 + r % (n - 2) < n := by
  have := Nat.mod_lt r (show n - 2 > 0 by omega); omega

theorem mrLoop_spec {n : Nat} (hn : 3 ≤ n) (hb : n ≤ 2 ^ 31) (raw : Nat → Nat) : ∀ k,
    ∃ b, mrLoop raw n k = some b ∧ (b = true ↔ ∀ j < k, Passes n (1 + raw j % (n - 2)))
  | 0 => ⟨true, rfl, by simp⟩
  | j + 1 => by
    unfold mrLoop
    rw [if_neg (by omega), random_ok hn]
    obtain ⟨c, h1, h2⟩ := isWitness_spec (draw_lt hn (raw j)) (by omega) hb
    simp only [Option.bind_eq_bind, Option.bind_some, h1]
    cases c with
    | true =>
      refine ⟨false, rfl, by simp, fun h => ?_⟩
      exact absurd (h2.2 (h j (by omega))) (by simp)
    | false =>
      obtain ⟨b, h3, h4⟩ := mrLoop_spec hn hb raw j
      refine ⟨b, by simpa using h3, h4.trans ⟨fun h i hi => ?_, fun h i hi => h i (by omega)⟩⟩
      rcases Nat.lt_succ_iff_lt_or_eq.1 hi with h' | h'
      · exact h i h'
      · exact h' ▸ h2.1 rfl

theorem prime_easy {p : Nat} (hp : p.Prime) : easyFactors p = false := by
  have key : ∀ q, q ≠ 1 → hasFactor p q = false := fun q h1 => by
    unfold hasFactor
    by_cases h : p = q
    · simp [h]
    · have : p % q ≠ 0 := fun h0 => by
        rcases (Nat.dvd_prime hp).1 (Nat.dvd_of_mod_eq_zero h0) with h' | h'
        · exact h1 h'
        · exact h h'.symm
      simp [this]
  unfold easyFactors
  simp [key]

theorem isPrime_spec {n : Nat} (hn : 3 ≤ n) (hb : n ≤ 2 ^ 31) (raw : Nat → Nat) :
    ∃ b, isPrime raw n = some b ∧ (n.Prime → b = true) ∧ (b = true → ∀ j < 20, Passes n (1 + raw j % (n - 2))) := by
  unfold isPrime
  by_cases he : easyFactors n
  · rw [if_pos he]
    exact ⟨false, rfl, fun h => by rw [prime_easy h] at he; simp at he, by simp⟩
  · rw [if_neg he]
    obtain ⟨b, h1, h2⟩ := mrLoop_spec hn hb raw checkTimes
    exact ⟨b, h1, fun h => h2.2 fun j _ => prime_passes h (by omega) (draw_lt hn _), h2.1⟩

/-- What is known of a number the search ends with. -/
def Accepted (raw : Nat → Nat → Nat) (m : Nat) : Prop := isPrime (raw m) m = some true

theorem up_spec (raw : Nat → Nat → Nat) {q : Nat} (hq : q.Prime) (hb : q ≤ 2 ^ 31) : ∀ fuel n, 3 ≤ n → n % 2 = 1 → n ≤ q → q < n + 2 * fuel →
    ∃ m, up raw fuel n = .ok m ∧ n ≤ m ∧ m ≤ q ∧ m % 2 = 1 ∧ (∀ p, p.Prime → n ≤ p → m ≤ p) ∧ Accepted raw m
  | 0, n, _, _, h1, h2 => by omega
  | f + 1, n, h3, ho, h1, h2 => by
    unfold up
    obtain ⟨b, hb1, hb2, _⟩ := isPrime_spec h3 (Nat.le_trans h1 hb) (raw n)
    rw [hb1]
    cases b with
    | true => exact ⟨n, rfl, Nat.le_refl _, h1, ho, fun p _ h => h, hb1⟩
    | false =>
      have hnp : ¬ n.Prime := fun h => by simpa using hb2 h
      have hodd : ∀ p, p.Prime → n ≤ p → n + 2 ≤ p := fun p hp hle => by
        have h' : p ≠ n := fun h => hnp (h ▸ hp)
        have : p % 2 = 1 := hp.eq_two_or_odd.resolve_left (by omega)
        omega
      have hq2 := hodd q hq h1
      obtain ⟨m, r1, r2, r3, r4, r5, r6⟩ := up_spec raw hq hb f (n + 2) (by omega) (by omega) hq2 (by omega)
      refine ⟨m, ?_, by omega, r3, r4, fun p hp hle => r5 p hp (hodd p hp hle), r6⟩
      have : n + 2 < 2 ^ 64 := Nat.lt_of_le_of_lt (Nat.le_trans hq2 hb) (by norm_num)
      simp only [if_pos this, r1]

theorem down_spec (raw : Nat → Nat → Nat) : ∀ fuel n, 3 ≤ n → n % 2 = 1 → n ≤ 2 ^ 31 → n < 2 * fuel + 3 →
    ∃ m, down raw fuel n = .ok m ∧ 3 ≤ m ∧ m ≤ n ∧ m % 2 = 1 ∧ (∀ p, p.Prime → p ≤ n → p ≤ m) ∧ Accepted raw m
  | 0, n, h3, _, _, h2 => by omega
  | f + 1, n, h3, ho, hn, h2 => by
    unfold down
    obtain ⟨b, hb1, hb2, _⟩ := isPrime_spec h3 hn (raw n)
    rw [hb1]
    cases b with
    | true => exact ⟨n, rfl, h3, Nat.le_refl _, ho, fun p _ h => h, hb1⟩
    | false =>
      have hnp : ¬ n.Prime := fun h => by simpa using hb2 h
      have h5 : 5 ≤ n := by
        have : n ≠ 3 := fun h => hnp (h ▸ Nat.prime_three)
        omega
      obtain ⟨m, r1, r2, r3, r4, r5, r6⟩ := down_spec raw f (n - 2) (by omega) (by omega) (by omega) (by omega)
      refine ⟨m, ?_, r2, by omega, r4, fun p hp hle => ?_, r6⟩
      · simp only [if_pos (show 2 ≤ n by omega), r1]
      · by_cases h22 : p = 2
        · omega
        · have h' : p ≠ n := fun h => hnp (h ▸ hp)
          have : p % 2 = 1 := hp.eq_two_or_odd.resolve_left h22
          exact r5 p hp (by omega)

theorem isEven_iff (n : Nat) : isEven n = true ↔ n % 2 = 0 := by
  unfold isEven; rw [Nat.and_one_is_mod]; simp

end Verif.Prime
