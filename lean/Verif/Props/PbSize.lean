import Verif.Enc.PbSize
import Verif.Props.Pb
/-
C80: sizes of two encodings of pseudo-Boolean constraints `c₁l₁ + ... + cₙlₙ ≤ k`.
-/
namespace Verif
open ER

/-- C80: the weighted counter takes exactly `n·k` new variables and `c₁ + (n - 1)(2k + 1)`
clauses. -/
theorem C80_swc {t : Lit × Nat} {ts : List (Lit × Nat)} {k : Nat} {s s' : ER} (e : encodeSwc (t :: ts) k s = some s') :
    s'.cnt .pb = s.cnt .pb + (ts.length + 1) * k ∧ (∀ u, u ≠ .pb → s'.cnt u = s.cnt u) ∧
    s'.clauses.length = s.clauses.length + t.2 + ts.length * (2 * k + 1) :=
  ⟨(encodeSwc_size e).2.1, (encodeSwc_size e).2.2, (encodeSwc_size e).1⟩

/-- C80: adder networks take at most `2·n·b` new variables and `20·n·b` clauses, where `b` is
the number of bits of `k`. -/
theorem C80_adder {ts : List (Lit × Nat)} {k b : Nat} {s s' : ER} (hb : k < 2 ^ b) (e : encodeAdder ts k s = some s') :
    AddsPb s s' (20 * (ts.length * b)) (2 * (ts.length * b)) :=
  encodeAdder_size hb e

/-- C80: the same for the dispatcher, with coefficients of any size. -/
theorem C80_adder_internal {cfg : PbCfg} {ts : List (Lit × Int)} {k : Int} {b : Nat} {s s' : ER} (ha : cfg.alg = .adder)
    (hk : 0 < k) (hb : k < 2 ^ b) (e : encodeInternal cfg ts k s = some s') :
    AddsPb s s' (20 * (ts.length * b)) (2 * (ts.length * b)) := by
  unfold encodeInternal at e
  rw [if_neg (by omega), if_neg (by omega)] at e
  simp only [ha] at e
  have hl : (ts.filter fun t => decide (t.2 ≤ k)).length + (ts.filter fun t => !decide (t.2 ≤ k)).length = ts.length := by
    rw [← List.countP_eq_length_filter, ← List.countP_eq_length_filter]
    have := List.length_eq_countP_add_countP (fun t : Lit × Int => decide (t.2 ≤ k)) (l := ts)
    rw [this]
    congr 1
    exact List.countP_congr fun t _ => by simp
  have hb' : k.toNat < 2 ^ b := by
    have : ((k.toNat : Nat) : Int) < ((2 ^ b : Nat) : Int) := by push_cast; omega
    exact_mod_cast this
  have hb1 : 1 ≤ b := by
    rcases b with _ | b
    · simp at hb; omega
    · omega
  generalize hK : (ts.filter fun t => decide (t.2 ≤ k)) = K at e hl
  generalize hD : (ts.filter fun t => !decide (t.2 ≤ k)) = D at e hl
  have m1 : K.length * b ≤ ts.length * b := Nat.mul_le_mul_right _ (by omega)
  have m2 : D.length ≤ D.length * b := Nat.le_mul_of_pos_right _ hb1
  have m3 : K.length * b + D.length * b = ts.length * b := by rw [← Nat.add_mul, hl]
  by_cases h : K.length > 1
  · rw [if_pos h] at e
    obtain ⟨x1, x2, x3⟩ := encodeAdder_size hb' e
    simp only [ER.addClauses, List.length_append, List.length_map] at x1 x2 x3
    exact ⟨by omega, by omega, x3⟩
  · rw [if_neg h] at e
    simp only [Option.some.injEq] at e
    subst e
    refine ⟨?_, by simp [ER.addClauses], fun _ _ => rfl⟩
    simp only [ER.addClauses, List.length_append, List.length_map]
    omega

private abbrev u : Var := .named 0
private abbrev v : Var := .named 1
private abbrev w : Var := .named 2

/-- `2^m u + 2^m v + 2^m w ≤ 2^m` -/
def powTerms (m : Nat) : List (Lit × Int) := [(u.p, 2 ^ m), (v.p, 2 ^ m), (w.p, 2 ^ m)]

/-- C80: `Best` always is the weighted counter: constraints on three variables with
coefficients of `m + 1` bits take more than `2^m` variables and clauses, but at most `60(m + 1)`
clauses with adder networks. -/
theorem C80_best_exponential (bm : BmCfg) (m : Nat) (s : ER) :
    (∃ s', encodeInternal ⟨.best, bm⟩ (powTerms m) (2 ^ m) s = some s' ∧ s'.cnt .pb = s.cnt .pb + 3 * 2 ^ m ∧
      s'.clauses.length = s.clauses.length + 5 * 2 ^ m + 2) ∧
    ∀ s', encodeInternal ⟨.adder, bm⟩ (powTerms m) (2 ^ m) s = some s' → AddsPb s s' (60 * (m + 1)) (6 * (m + 1)) := by
  have hp : (0 : Int) < 2 ^ m := Int.pow_pos (by omega)
  constructor
  · have hf : (powTerms m).filter (fun t => decide (t.2 ≤ (2 : Int) ^ m)) = powTerms m := by simp [powTerms]
    have hg : (powTerms m).filter (fun t => !decide (t.2 ≤ (2 : Int) ^ m)) = [] := by simp [powTerms]
    have ht : ((2 : Int) ^ m).toNat = 2 ^ m := by
      have : ((2 : Int) ^ m) = ((2 ^ m : Nat) : Int) := by push_cast; rfl
      rw [this, Int.toNat_natCast]
    have he : encodeInternal ⟨.best, bm⟩ (powTerms m) (2 ^ m) s = encodeSwc [(u.p, 2 ^ m), (v.p, 2 ^ m), (w.p, 2 ^ m)] (2 ^ m) s := by
      unfold encodeInternal
      rw [if_neg (by omega), if_neg (by omega), hf, hg]
      simp [powTerms, ht, ER.addClauses]
    rw [he]
    have : ∃ s', encodeSwc [(u.p, 2 ^ m), (v.p, 2 ^ m), (w.p, 2 ^ m)] (2 ^ m) s = some s' := by
      unfold encodeSwc
      rw [if_neg (by simp)]
      exact ⟨_, rfl⟩
    obtain ⟨s', e⟩ := this
    obtain ⟨h1, _, h3⟩ := C80_swc e
    simp only [List.length_cons, List.length_nil] at h1 h3
    exact ⟨s', e, by omega, by omega⟩
  · intro s' e
    have hlt : (2 : Int) ^ m < 2 ^ (m + 1) := by rw [Int.pow_succ]; omega
    obtain ⟨h1, h2, h3⟩ := C80_adder_internal rfl hp hlt e
    simp only [powTerms, List.length_cons, List.length_nil] at h1 h2
    exact ⟨by omega, by omega, h3⟩

/-- Case: `3u + 5v + 6w ≤ 7` has 21 variables and 33 clauses with the counter; adder networks
need at most 18 variables, here 6, and 180 clauses, here 48. -/
example : ∃ s', encodeSwc [(u.p, 3), (v.p, 5), (w.p, 6)] 7 ⟨fun _ => 0, []⟩ = some s' ∧ s'.cnt .pb = 21 ∧ s'.clauses.length = 33 :=
  ⟨_, rfl, by decide +kernel, by decide +kernel⟩

example : ((encodeAdder [(u.p, 3), (v.p, 5), (w.p, 6)] 7 ⟨fun _ => 0, []⟩).map fun s => (s.cnt .pb, s.clauses.length)) = some (6, 48) ∧
    7 < 2 ^ 3 ∧ 2 * (3 * 3) = 18 := by decide +kernel

end Verif
