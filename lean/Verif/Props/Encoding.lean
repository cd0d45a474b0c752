import Verif.F.Encoding

/-! C01: formula handles decode to what was encoded. -/
namespace Verif
open Enc

/-- **C01.** Decoding the 64-bit handle of a formula type, an index below 2^58 and a cache
flag gives back the type, the flag and (constants carry no index) the index.  The handle
fits in 64 bits. -/
theorem C01_round_trip (n : Nat) (ty : FTy) (large : Bool) (e : Nat) (hn : n < 2 ^ 58)
    (h : encode64 n ty large = some e) :
    formulaType e = some ty ∧ isLargeCache e = large ∧ (isConstTy ty = false → index e = n) ∧ e < 2 ^ 64 := by
  obtain ⟨c, hc, he⟩ := encode64_eq hn h
  refine ⟨formulaType_of hc he, isLargeCache_of (code_lt hc) he, ?_, ?_⟩
  · intro hk
    have hlt := code_lt hc
    simp only [hk, Bool.false_eq_true, if_false] at he
    unfold index; rw [Nat.shiftRight_eq_div_pow]
    split at he <;> omega
  · have hlt := code_lt hc
    cases hk : isConstTy ty <;> simp only [hk, if_true, if_false, Bool.false_eq_true] at he <;> split at he <;> omega

/-- **C01.** Encoding is defined for every type except literals of temporary variables. -/
theorem C01_defined (n : Nat) (ty : FTy) (large : Bool) :
    (∃ e, encode64 n ty large = some e) ↔ ∀ p, ty ≠ .lit p (.aux .tmp) := by
  constructor
  · rintro ⟨e, h⟩ p rfl; simp [encode64, code] at h
  · intro h
    unfold encode64
    rcases ty with _ | _ | _ | _ | _ | _ | _ | ⟨p, t⟩ | _ | _ <;> try simp [code]
    cases t with
    | ff => cases p <;> simp
    | aux a => cases a <;> cases p <;> simp <;> exact absurd rfl (h _)

/-- **C01.** Different triples never share a handle. -/
theorem C01_injective (n n' : Nat) (ty ty' : FTy) (large large' : Bool) (e : Nat) (hn : n < 2 ^ 58) (hn' : n' < 2 ^ 58)
    (h : encode64 n ty large = some e) (h' : encode64 n' ty' large' = some e) :
    ty = ty' ∧ large = large' ∧ (isConstTy ty = false → n = n') := by
  obtain ⟨a, b, c, _⟩ := C01_round_trip n ty large e hn h
  obtain ⟨a', b', c', _⟩ := C01_round_trip n' ty' large' e hn' h'
  have ht : ty = ty' := Option.some.inj (a.symm.trans a')
  exact ⟨ht, b.symm.trans b', fun hk => (c hk).symm.trans (c' (ht ▸ hk))⟩

/-- **C01.** A handle counts as large exactly if its index needs more than 26 bits; all
other handles survive the conversion to 32 bits and back. -/
theorem C01_small (n : Nat) (ty : FTy) (large : Bool) (e : Nat) (hn : n < 2 ^ 58) (hk : isConstTy ty = false)
    (h : encode64 n ty large = some e) :
    (isLarge e = true ↔ 2 ^ 26 ≤ n) ∧
    (n < 2 ^ 26 → extend32 (truncate64 e) = e ∧ encode32 n ty large = some (truncate64 e)) := by
  obtain ⟨c, hc, he⟩ := encode64_eq hn h
  have hlt := code_lt hc
  have hi := (C01_round_trip n ty large e hn h).2.2.1 hk
  simp only [hk, Bool.false_eq_true, if_false] at he
  constructor
  · unfold isLarge is64Index; unfold index at hi; rw [hi]; simp; omega
  · intro hs
    have ht : truncate64 e = e := by unfold truncate64; split at he <;> omega
    refine ⟨by unfold extend32; exact ht, ?_⟩
    rw [ht]
    unfold encode32; rw [hc]
    simp only [hk, Bool.false_eq_true, if_false]
    rw [or_index32 (header_lt hlt large) n hs, header_eq hlt, he]; simp; omega

/-- Above 2^58 indices the encoding loses bits: the bound in `C01_round_trip` is needed. -/
theorem C01_index_overflow_collides : encode64 (2 ^ 58) .and false = encode64 0 .and false := by decide

/-- Handles that differ by 2^26 in the index become equal when cut to 32 bits (used by
`filter_flatten` for large handles, formula_factory.rs:1385). -/
theorem C01_truncation_aliases :
    ∃ a b, encode64 0 (.lit true .ff) true = some a ∧ encode64 (2 ^ 26) (.lit true .ff) true = some b ∧
      a ≠ b ∧ truncate64 a = truncate64 b := by
  refine ⟨35, 4294967331, by decide, by decide, by decide, by decide⟩

example : encode64 5 .or false = some 0x14C ∧ formulaType 0x14C = some .or ∧ index 0x14C = 5 := by decide
example : encode64 3 (.lit false (.aux .cc)) true = some 233 ∧ encode32 3 (.lit false (.aux .cc)) true = some 233 := by
  decide

end Verif
