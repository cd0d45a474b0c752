import Verif.F.Formula

/-
The bit layout of formula handles (src/formulas/formula_cache/formula_encoding.rs).
`u32`/`u64` values are natural numbers; every operation that can lose bits says so.
-/
namespace Verif

/-- `VarType`, src/formulas/variable.rs. -/
inductive VTy
  | ff
  | aux (t : AuxTy)
  deriving DecidableEq, Repr

/-- `FormulaType`, src/formulas/formula.rs. -/
inductive FTy
  | pbc | cc | equiv | impl | or | and | not | lit (pos : Bool) (t : VTy) | tru | fls
  deriving DecidableEq, Repr

namespace Enc

/-- The type codes, formula_encoding.rs:8-24; `none` is the panic for temporary
auxiliary variables (89-91 and 177-179). -/
def code : FTy → Option Nat
  | .tru => some 0x01
  | .fls => some 0x02
  | .lit true .ff => some 0x03
  | .lit true (.aux .cnf) => some 0x04
  | .lit true (.aux .cc) => some 0x05
  | .lit true (.aux .pb) => some 0x06
  | .lit false .ff => some 0x07
  | .lit false (.aux .cnf) => some 0x08
  | .lit false (.aux .cc) => some 0x09
  | .lit false (.aux .pb) => some 0x0A
  | .and => some 0x0B
  | .or => some 0x0C
  | .not => some 0x0D
  | .impl => some 0x0E
  | .equiv => some 0x0F
  | .cc => some 0x10
  | .pbc => some 0x11
  | .lit _ (.aux .tmp) => none

/-- `header`, formula_encoding.rs:28-30. -/
def header (ty : Nat) (large : Bool) : Nat := if large then 0x20 ||| ty else ty

/-- `index_64`, formula_encoding.rs:37-39: the shift drops the bits above 64. -/
def index64 (n : Nat) : Nat := (n <<< 6) % 2 ^ 64

/-- `index_32`, formula_encoding.rs:33-35: truncate to 32 bits, then shift. -/
def index32 (n : Nat) : Nat := ((n % 2 ^ 32) <<< 6) % 2 ^ 32

/-- Constants are encoded without an index, formula_encoding.rs:72-73 and 160-161. -/
def isConstTy : FTy → Bool
  | .tru => true
  | .fls => true
  | _ => false

/-- `FormulaEncoding::encode`, formula_encoding.rs:157-182. -/
def encode64 (index : Nat) (ty : FTy) (large : Bool) : Option Nat :=
  match code ty with
  | none => none
  | some c => some (if isConstTy ty then header c large else header c large ||| index64 index)

/-- `SmallFormulaEncoding::encode`, formula_encoding.rs:67-94; the `debug_assert` is the
hypothesis of the theorems. -/
def encode32 (index : Nat) (ty : FTy) (large : Bool) : Option Nat :=
  match code ty with
  | none => none
  | some c => some (if isConstTy ty then header c large else header c large ||| index32 index)

/-- `index`, formula_encoding.rs:102-104 and 188-190. -/
def index (e : Nat) : Nat := e >>> 6

/-- `is_large_cache`, formula_encoding.rs:107-109 and 193-195. -/
def isLargeCache (e : Nat) : Bool := (e % 2 ^ 8) &&& 0x20 != 0

/-- `formula_type`, formula_encoding.rs:112-133 and 198-219; `none` is the panic. -/
def formulaType (e : Nat) : Option FTy :=
  match (e % 2 ^ 8) &&& 0x1f with
  | 0x01 => some .tru
  | 0x02 => some .fls
  | 0x03 => some (.lit true .ff)
  | 0x04 => some (.lit true (.aux .cnf))
  | 0x05 => some (.lit true (.aux .cc))
  | 0x06 => some (.lit true (.aux .pb))
  | 0x07 => some (.lit false .ff)
  | 0x08 => some (.lit false (.aux .cnf))
  | 0x09 => some (.lit false (.aux .cc))
  | 0x0A => some (.lit false (.aux .pb))
  | 0x0B => some .and
  | 0x0C => some .or
  | 0x0D => some .not
  | 0x0E => some .impl
  | 0x0F => some .equiv
  | 0x10 => some .cc
  | 0x11 => some .pbc
  | _ => none

/-- `is_64_index`, formula_encoding.rs:222-224, with `LARGES_32_INDEX` (6). -/
def is64Index (n : Nat) : Bool := decide (n > (2 ^ 32 - 1) >>> 6)

/-- `FormulaEncoding::is_large`, formula_encoding.rs:142-144. -/
def isLarge (e : Nat) : Bool := is64Index (e >>> 6)

/-- `truncate_64` (`as_32`), formula_encoding.rs:146-148 and 231-233. -/
def truncate64 (e : Nat) : Nat := e % 2 ^ 32

/-- `extend_32` (`as_64`), formula_encoding.rs:56-58 and 226-228. -/
def extend32 (e : Nat) : Nat := e

/-! ### Lemmas -/

theorem code_lt {ty c} (h : code ty = some c) : c < 32 := by
  unfold code at h; split at h <;> simp at h <;> omega

theorem header_eq {c : Nat} (h : c < 32) (large) : header c large = c + (if large then 32 else 0) := by
  cases large
  · simp [header]
  · have := Nat.two_pow_add_eq_or_of_lt (i := 5) (b := c) (by omega) 1
    simp only [header, if_true]
    simp at this; omega

theorem header_lt {c : Nat} (h : c < 32) (large) : header c large < 64 := by
  rw [header_eq h]; split <;> omega

theorem or_index {h : Nat} (hh : h < 64) (n : Nat) (hn : n < 2 ^ 58) : h ||| index64 n = 64 * n + h := by
  have e : index64 n = 2 ^ 6 * n := by
    unfold index64; rw [Nat.shiftLeft_eq]; omega
  rw [e, Nat.or_comm]
  exact (Nat.two_pow_add_eq_or_of_lt (i := 6) hh n).symm

theorem or_index32 {h : Nat} (hh : h < 64) (n : Nat) (hn : n < 2 ^ 26) : h ||| index32 n = 64 * n + h := by
  have e : index32 n = 2 ^ 6 * n := by
    unfold index32; rw [Nat.shiftLeft_eq]; omega
  rw [e, Nat.or_comm]
  exact (Nat.two_pow_add_eq_or_of_lt (i := 6) hh n).symm

theorem encode64_eq {n ty large e} (hn : n < 2 ^ 58) (h : encode64 n ty large = some e) :
    ∃ c, code ty = some c ∧ e = 64 * (if isConstTy ty then 0 else n) + c + (if large then 32 else 0) := by
  unfold encode64 at h
  split at h
  · simp at h
  · rename_i c hc
    refine ⟨c, hc, ?_⟩
    have hl := header_lt (code_lt hc) large
    have he := header_eq (code_lt hc) large
    have ho := or_index hl n hn
    have := Option.some.inj h
    generalize (if large = true then 32 else 0) = w at *
    cases hk : isConstTy ty <;> simp only [hk, if_true, if_false, Bool.false_eq_true] at this ⊢ <;> omega

theorem formulaType_of {e c : Nat} {ty n : _} {large : Bool} (hc : code ty = some c)
    (he : e = 64 * n + c + (if large then 32 else 0)) : formulaType e = some ty := by
  have hlt := code_lt hc
  have : (e % 2 ^ 8) &&& 0x1f = c := by
    have : (0x1f : Nat) = 2 ^ 5 - 1 := rfl
    rw [this, Nat.and_two_pow_sub_one_eq_mod]
    subst he; split <;> omega
  unfold formulaType; rw [this]
  unfold code at hc
  split at hc <;> simp at hc <;> subst hc <;> rfl

theorem isLargeCache_of {e c n : Nat} {large : Bool} (hc : c < 32)
    (he : e = 64 * n + c + (if large then 32 else 0)) : isLargeCache e = large := by
  have h1 : (e % 2 ^ 8) &&& 0x20 = if large then 32 else 0 := by
    have h2 : (e % 2 ^ 8) &&& 0x20 = (e % 64) &&& 0x20 := by
      apply Nat.eq_of_testBit_eq
      intro i
      simp only [Nat.testBit_and, Nat.testBit_mod_two_pow, show (64 : Nat) = 2 ^ 6 from rfl]
      by_cases hi : i = 5
      · subst hi; simp
      · have : Nat.testBit 0x20 i = false := by
          rw [show (0x20 : Nat) = 2 ^ 5 from rfl, Nat.testBit_two_pow]; simp; omega
        simp [this]
    rw [h2]
    have h3 : e % 64 = c + if large then 32 else 0 := by subst he; split <;> omega
    rw [h3]
    cases large
    · simp only [Bool.false_eq_true, if_false, Nat.add_zero]
      apply Nat.eq_of_testBit_eq
      intro i
      rw [Nat.testBit_and, show (0x20 : Nat) = 2 ^ 5 from rfl, Nat.testBit_two_pow]
      by_cases hi : 5 = i
      · subst hi; rw [Nat.testBit_lt_two_pow (by omega)]; simp
      · simp [hi]
    · simp only [if_true]
      have h4 : c + 32 = 2 ^ 5 * 1 ||| c := by
        rw [← Nat.two_pow_add_eq_or_of_lt (i := 5) (by omega) 1]; omega
      rw [h4]
      apply Nat.eq_of_testBit_eq
      intro i
      rw [Nat.testBit_and, Nat.testBit_or]
      have : (32 : Nat) = 2 ^ 5 * 1 := rfl
      by_cases hi : 5 = i
      · subst hi; simp [Nat.testBit_lt_two_pow (show c < 2 ^ 5 by omega)]
      · have : Nat.testBit 0x20 i = false := by
          rw [show (0x20 : Nat) = 2 ^ 5 from rfl, Nat.testBit_two_pow]; simp [hi]
        simp [this]
  unfold isLargeCache
  rw [h1]; cases large <;> simp

end Enc
end Verif
