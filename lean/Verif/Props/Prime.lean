import Verif.Bdd.PrimeOk
import Verif.Bdd.PrimeGap
/-
C69: the sizes of the tables of a BDD kernel are primes (bdd_prime.rs).
-/
namespace Verif.Prime
open Verif

/-- **C69 (partial), upwards.**  Whatever the random numbers: for `3 ≤ n ≤ 2^30`
the search ends without a panic at a number from `n` to `2n`, and there is no
prime from `n` to below the result.  Missing: that the result is a prime (see
`C69_chance` for how likely it is not, `C69_unlucky_wrong` for a case). -/
theorem C69_gte_partial (raw : Nat → Nat → Nat) {n : Nat} (h3 : 3 ≤ n) (hb : n ≤ 2 ^ 30) :
    ∃ m, (∀ fuel, n ≤ fuel → primeGte raw fuel n = .ok m) ∧ n ≤ m ∧ m ≤ 2 * n ∧ m % 2 = 1 ∧ (∀ p, p.Prime → n ≤ p → m ≤ p) ∧
      ∀ j < 20, Passes m (1 + raw m j % (m - 2)) := by
  obtain ⟨q, hq, hq1, hq2⟩ := Nat.exists_prime_lt_and_le_two_mul n (by omega)
  have hodd : q % 2 = 1 := hq.eq_two_or_odd.resolve_left (by omega)
  let s := if isEven n then n + 1 else n
  have hs : n ≤ s ∧ s ≤ n + 1 ∧ s % 2 = 1 := by
    show n ≤ (if isEven n then n + 1 else n) ∧ (if isEven n then n + 1 else n) ≤ n + 1 ∧ (if isEven n then n + 1 else n) % 2 = 1
    by_cases h : isEven n
    · rw [if_pos h]; rw [isEven_iff] at h; omega
    · rw [if_neg h]; rw [isEven_iff] at h; omega
  have hskip : ∀ p, p.Prime → n ≤ p → s ≤ p := fun p hp hle => by
    have : p % 2 = 1 := hp.eq_two_or_odd.resolve_left (by omega)
    by_cases h : p = n
    · have he : ¬ isEven n := by rw [isEven_iff]; omega
      show (if isEven n then n + 1 else n) ≤ p
      rw [if_neg he]; exact hle
    · omega
  obtain ⟨m, r1, r2, r3, r4, r5, r6⟩ := up_spec raw hq (by omega) n s (by omega) hs.2.2 (by omega) (by omega)
  refine ⟨m, fun fuel hf => ?_, by omega, by omega, r4, fun p hp hle => r5 p hp (hskip p hp hle), ?_⟩
  · obtain ⟨m', r1', r2', r3', r4', r5', r6'⟩ := up_spec raw hq (by omega) fuel s (by omega) hs.2.2 (by omega) (by omega)
    have hmono : ∀ f k n' x, up raw f n' = .ok x → up raw (f + k) n' = .ok x := by
      intro f
      induction f with
      | zero => intro k n' x h; simp [up] at h
      | succ f ih =>
        intro k n' x h
        rw [show f + 1 + k = f + k + 1 by omega]
        unfold up at h ⊢
        revert h
        cases isPrime (raw n') n' with
        | none => simp
        | some b =>
          cases b with
          | true => exact id
          | false =>
            simp only
            split
            · exact ih k _ x
            · simp
    obtain ⟨k, hk⟩ := Nat.exists_eq_add_of_le hf
    show up raw fuel s = .ok m
    rw [hk]; exact hmono n k s m r1
  · obtain ⟨b, hb1, _, hb2⟩ := isPrime_spec (n := m) (by omega) (by omega) (raw m)
    rw [show isPrime (raw m) m = some true from r6, Option.some.injEq] at hb1
    exact hb2 hb1.symm

example : ∃ m, primeGte (fun n j => n * j) 100 100 = .ok m ∧ 100 ≤ m ∧ m ≤ 101 := by
  obtain ⟨m, h1, h2, _, _, h3, _⟩ := C69_gte_partial (fun n j => n * j) (n := 100) (by omega) (by omega)
  exact ⟨m, h1 100 (by omega), h2, h3 101 (by norm_num) (by omega)⟩

/-- **C69 (partial), downwards.**  Whatever the random numbers: for `3 ≤ n ≤ 2^31`
the search ends without a panic at an odd number from 3 to `n`, and there is no
prime above the result up to `n`. -/
theorem C69_lte_partial (raw : Nat → Nat → Nat) {n : Nat} (h3 : 3 ≤ n) (hb : n ≤ 2 ^ 31) {fuel : Nat} (hf : n ≤ fuel) :
    ∃ m, primeLte raw fuel n = .ok m ∧ 3 ≤ m ∧ m ≤ n ∧ m % 2 = 1 ∧ (∀ p, p.Prime → p ≤ n → p ≤ m) ∧
      ∀ j < 20, Passes m (1 + raw m j % (m - 2)) := by
  unfold primeLte
  have fin : ∀ m, Accepted raw m → 3 ≤ m → m ≤ n → ∀ j < 20, Passes m (1 + raw m j % (m - 2)) := fun m hm h3 hle => by
    obtain ⟨b, hb1, _, hb2⟩ := isPrime_spec h3 (by omega) (raw m)
    rw [show isPrime (raw m) m = some true from hm, Option.some.injEq] at hb1
    exact hb2 hb1.symm
  by_cases he : isEven n
  · rw [if_pos he, if_neg (by omega)]
    rw [isEven_iff] at he
    obtain ⟨m, r1, r2, r3, r4, r5, r6⟩ := down_spec raw fuel (n - 1) (by omega) (by omega) (by omega) (by omega)
    refine ⟨m, r1, r2, by omega, r4, fun p hp hle => ?_, fin m r6 r2 (by omega)⟩
    rcases hp.eq_two_or_odd with h | h
    · omega
    · exact r5 p hp (by omega)
  · rw [if_neg he]
    rw [isEven_iff] at he
    obtain ⟨m, r1, r2, r3, r4, r5, r6⟩ := down_spec raw fuel n h3 (by omega) hb (by omega)
    exact ⟨m, r1, r2, r3, r4, r5, fin m r6 r2 r3⟩

example : ∃ m, primeLte (fun _ j => 7 * j + 3) 1000 1000 = .ok m ∧ 997 ≤ m ∧ m ≤ 1000 := by
  obtain ⟨m, h1, _, h2, _, h3, _⟩ := C69_lte_partial (fun _ j => 7 * j + 3) (n := 1000) (fuel := 1000) (by omega) (by omega) (by omega)
  exact ⟨m, h1, h3 997 (by norm_num) (by omega), h2⟩

/-- The draws given by a table of 20 numbers. -/
def rawOf {n : Nat} (r : Fin 20 → Fin n) (j : Nat) : Nat := if h : j < 20 then (r ⟨j, h⟩).1 else 0

open Classical in
/-- **C69 (chance of a composite number).**  Of the `(n-2)^20` equally likely
sequences of random numbers with which an odd composite number `n` is tested, at
most the `2^20`-th part makes the test accept `n`. -/
theorem C69_chance {n : Nat} (h3 : 3 ≤ n) (hb : n ≤ 2 ^ 31) (hodd : n % 2 = 1) (hc : ¬ n.Prime) :
    2 ^ 20 * (Finset.univ.filter fun r : Fin 20 → Fin (n - 2) => isPrime (rawOf r) n = some true).card ≤ Fintype.card (Fin 20 → Fin (n - 2)) := by
  let L : Finset (Fin (n - 2)) := Finset.univ.filter fun r => Passes n (1 + r.1)
  have hsub : (Finset.univ.filter fun r : Fin 20 → Fin (n - 2) => isPrime (rawOf r) n = some true) ⊆ Fintype.piFinset fun _ => L := by
    intro r hr
    rw [Finset.mem_filter] at hr
    rw [Fintype.mem_piFinset]
    intro j
    obtain ⟨b, hb1, _, hb2⟩ := isPrime_spec h3 hb (rawOf r)
    rw [hr.2, Option.some.injEq] at hb1
    have := hb2 hb1.symm j.1 j.2
    rw [Finset.mem_filter]
    refine ⟨Finset.mem_univ _, ?_⟩
    unfold rawOf at this
    rw [dif_pos j.2, Nat.mod_eq_of_lt (r j).2] at this
    exact this
  have hL : 2 * L.card ≤ n - 2 := by
    refine Nat.le_trans (Nat.mul_le_mul_left 2 ?_) (half h3 hodd hc)
    refine Finset.card_le_card_of_injOn (fun r => 1 + r.1) (fun r hr => ?_) fun a _ b _ h => ?_
    · have hr := Finset.mem_coe.1 hr
      rw [Finset.mem_filter] at hr
      refine Finset.mem_coe.2 (Finset.mem_filter.2 ⟨Finset.mem_Icc.2 ⟨by simp, ?_⟩, hr.2⟩)
      have := r.2
      show 1 + r.1 ≤ n - 2
      omega
    · exact Fin.ext (by simpa using h)
  calc 2 ^ 20 * _ ≤ 2 ^ 20 * (Fintype.piFinset fun _ : Fin 20 => L).card := Nat.mul_le_mul_left _ (Finset.card_le_card hsub)
    _ = (2 * L.card) ^ 20 := by rw [Fintype.card_piFinset]; simp [mul_pow]
    _ ≤ (n - 2) ^ 20 := Nat.pow_le_pow_left hL 20
    _ = Fintype.card (Fin 20 → Fin (n - 2)) := by simp

/-- A Carmichael number, which the test of Fermat would always accept. -/
example : 2 ^ 20 * (Finset.univ.filter fun r : Fin 20 → Fin (294409 - 2) => isPrime (rawOf r) 294409 = some true).card ≤ Fintype.card (Fin 20 → Fin (294409 - 2)) := by
  classical
  convert C69_chance (n := 294409) (by norm_num) (by norm_num) (by norm_num) (by norm_num)

/-- **C69 (tables grow).**  The table of nodes gets larger with every call of
`node_resize`, whatever the random numbers: up to 2^30 nodes there is always a
prime between the old size and the size asked for. -/
theorem C69_grows (raw : Nat → Nat → Nat) {old fuel : Nat} (h3 : 3 ≤ old) (hb : old ≤ 2 ^ 30) (hf : wanted old ≤ fuel) :
    ∃ m, primeLte raw fuel (wanted old) = .ok m ∧ old < m ∧ m ≤ wanted old := by
  have hw : 3 ≤ wanted old ∧ wanted old ≤ 2 ^ 31 ∧ ∃ p, p.Prime ∧ old < p ∧ p ≤ wanted old := by
    unfold wanted
    by_cases h : 2 * old > old + 50000
    · rw [if_pos h]
      exact ⟨by omega, by omega, prime_gap (by omega) hb⟩
    · rw [if_neg h]
      exact ⟨by omega, by omega, Nat.exists_prime_lt_and_le_two_mul old (by omega)⟩
  obtain ⟨m, r1, _, r3, _, r5, _⟩ := C69_lte_partial raw hw.1 hw.2.1 hf
  obtain ⟨p, hp, hlt, hle⟩ := hw.2.2
  exact ⟨m, r1, Nat.lt_of_lt_of_le hlt (r5 p hp hle), r3⟩

example : ∃ m, primeLte (fun _ _ => 0) 40022 (wanted 20011) = .ok m ∧ 20011 < m := by
  obtain ⟨m, h1, h2, _⟩ := C69_grows (fun _ _ => 0) (old := 20011) (fuel := 40022) (by omega) (by omega) (by decide)
  exact ⟨m, h1, h2⟩

example : ∃ m, primeLte (fun n j => n / (j + 2)) 1000050000 (wanted 1000000000) = .ok m ∧ 1000000000 < m := by
  obtain ⟨m, h1, h2, _⟩ := C69_grows (fun n j => n / (j + 2)) (old := 1000000000) (fuel := 1000050000) (by omega) (by omega) (by decide)
  exact ⟨m, h1, h2⟩

/-- **C69 fails for unlucky random numbers.**  If 1 is drawn 20 times, `prime_gte`
and `prime_lte` return the composite number 289. -/
theorem C69_unlucky_wrong : ∃ raw, primeGte raw 1 289 = .ok 289 ∧ primeLte raw 1 289 = .ok 289 ∧ ¬ (289).Prime := by
  have h : isPrime (fun _ => 0) 289 = some true := by decide +kernel
  exact ⟨fun _ _ => 0, by simp [primeGte, up, isEven, h], by simp [primeLte, down, isEven, h], by norm_num⟩

/-- No divisor of `p` among the `2^k` numbers from `lo` on. -/
def noDiv (p : Nat) : Nat → Nat → Bool
  | 0, lo => p % lo != 0
  | k + 1, lo => noDiv p k lo && noDiv p k (lo + 2 ^ k)

theorem noDiv_ok {p : Nat} : ∀ k lo, noDiv p k lo = true → ∀ d, lo ≤ d → d < lo + 2 ^ k → ¬ d ∣ p
  | 0, lo, h, d, h1, h2, hd => by
    simp only [noDiv, bne_iff_ne] at h
    rw [Nat.pow_zero] at h2
    exact h (Nat.mod_eq_zero_of_dvd (show lo = d by omega ▸ hd))
  | k + 1, lo, h, d, h1, h2, hd => by
    simp only [noDiv, Bool.and_eq_true] at h
    by_cases hlt : d < lo + 2 ^ k
    · exact noDiv_ok k lo h.1 d h1 hlt hd
    · exact noDiv_ok k (lo + 2 ^ k) h.2 d (by omega) (by rw [pow_succ] at h2; omega) hd

/-- **C69 fails from `2^31` on.**  Only 31 bits of the exponent are used, so that
primes are rejected: the prime 2147483659 for all draws of the number 2. -/
theorem C69_large_wrong : (2147483659).Prime ∧ isPrime (fun _ => 1) 2147483659 = some false := by
  refine ⟨Nat.prime_def_le_sqrt.2 ⟨by omega, fun d h1 h2 => ?_⟩, by decide +kernel⟩
  refine noDiv_ok 16 2 (by decide +kernel) d h1 (Nat.lt_of_le_of_lt h2 ?_)
  exact Nat.lt_of_lt_of_le (Nat.sqrt_lt.2 (show 2147483659 < 46341 * 46341 by omega)) (by omega)

/-- **C69 fails below 3.**  `prime_gte(2)` is 3, and `prime_lte` panics below 3
(an empty range for random numbers; an underflow). -/
theorem C69_small_wrong (raw : Nat → Nat → Nat) (fuel : Nat) : primeGte raw (fuel + 1) 2 = .ok 3 ∧ primeLte raw (fuel + 1) 2 = .panic ∧
    primeLte raw (fuel + 1) 1 = .panic ∧ primeLte raw (fuel + 1) 0 = .panic := by
  refine ⟨?_, rfl, rfl, rfl⟩
  obtain ⟨b, h1, h2, _⟩ := isPrime_spec (n := 3) (by omega) (by omega) (raw 3)
  rw [h2 Nat.prime_three] at h1
  show up raw (fuel + 1) 3 = _
  unfold up
  rw [h1]

end Verif.Prime
