import Verif.F.PrintOk

/-
C45: printing and parsing.
-/
namespace Verif

open Formula

/-- A factory with identifier `AB1` and variables `x0`, `x1`, …. -/
def demoNames : Names := ⟨"AB1".toList, fun i => 'x' :: digits i, fun s => readNat (s.drop 1)⟩

theorem not_looksAux {N : Names} {s : List Char} {c} (h : s.head? = some c) (hc : c ≠ '@') : ¬ LooksAux N s := by
  intro h1
  obtain ⟨t, ds, h2⟩ := h1
  rw [h2.2.2.2] at h
  exact hc (Option.some.inj h).symm

theorem demoNames_named (i) : NameOk demoNames (.named i) := by
  have h1 : demoNames.name i = 'x' :: digits i := rfl
  have h2 : ∀ s, demoNames.intern s = readNat (s.drop 1) := fun _ => rfl
  have h3 : (digits i).all isNameChar = true := by
    have := digits_all i
    rw [List.all_eq_true] at this ⊢
    exact fun c hc => isDigit_nameChar (this c hc)
  simp only [NameOk]
  rw [h1, h2]
  refine ⟨⟨'x', digits i, rfl, .inl (by decide), h3⟩, ?_, ?_⟩
  · rw [List.drop_succ_cons, List.drop_zero, readNat_digits]
  · exact not_looksAux rfl (by decide)

theorem demoNames_aux {t i} (h : t ≠ .tmp) (hi : i < 2 ^ 64) : NameOk demoNames (.aux t i) :=
  ⟨h, by decide, hi⟩

/-! ### C45 -/

/-- **C45 (round trip, partial).**  The printed form of a formula of the factory is accepted
by the parser, without a panic, and the result is equivalent to the formula.

Missing: formulas in which the left operand of an implication is itself an implication; for
these the claim is false (`C45_left_implication`).  `NameOk` requires that names are
identifiers of the grammar and are not taken for other variables; for auxiliary variables
the claim is false without it (`C45_foreign_auxiliary`). -/
theorem C45_round_trip_partial (C : Canon) (N : Names) {f : Formula} (hn : f.Norm) (hl : NoLeft f)
    (hv : ∀ v, Occ v f → NameOk N v) :
    ∃ g, parse C N (f.text N) = .ok g ∧ g.Norm ∧ ∀ σ, g.eval σ = f.eval σ :=
  parse_text C N hn hl fun v h => (hv v h).readable

/-- `(x0 & ~x1 | ~(x2 => x3 => x0)) <=> (2*x0 + -3*~x1 <= 4) <=> x4`, nested to the left. -/
def demoText : Formula :=
  .equiv
    (.equiv
      (.nary .disj [.nary .conj [.lit ⟨.named 0, true⟩, .lit ⟨.named 1, false⟩],
        .not (.impl (.lit ⟨.named 2, true⟩) (.impl (.lit ⟨.named 3, true⟩) (.lit ⟨.named 0, true⟩)))])
      (.pbc ⟨[(⟨.named 0, true⟩, 2), (⟨.named 1, false⟩, -3)], .le, 4⟩))
    (.lit ⟨.aux .cc 4, true⟩)

theorem demoText_norm : demoText.Norm := by
  refine .equiv (.equiv (.nary (by decide) ?_ ?_) (.pbc ?_) (by decide) (by decide) (by decide)) (.lit _) (by decide) (by decide) (by decide)
  · intro f hf
    simp only [List.mem_cons, List.not_mem_nil, or_false] at hf
    rcases hf with rfl | rfl
    · refine .nary (by decide) ?_ ⟨by decide, by decide, ?_, ?_, ?_⟩
      · intro f hf
        simp only [List.mem_cons, List.not_mem_nil, or_false] at hf
        rcases hf with rfl | rfl <;> exact .lit _
      · intro f hf gs e
        subst e; simp at hf
      · intro l hl
        simp only [List.mem_cons, List.not_mem_nil, or_false, Formula.lit.injEq] at hl
        rcases hl with rfl | rfl <;> decide
      · intro f hf; simp at hf
    · exact .not (.impl (.lit _) (.impl (.lit _) (.lit _) (by decide) (by decide) (by decide)) (by decide) (by decide) (by decide)) (by decide) (by decide) (by decide)
  · refine ⟨by decide, by decide, ?_, ?_, ?_⟩
    · intro f hf gs e
      subst e; simp at hf
    · intro l hl; simp at hl
    · intro f hf
      simp only [List.mem_cons, List.not_mem_nil, or_false, reduceCtorEq, false_or, Formula.not.injEq] at hf
      subst hf; decide
  · refine ⟨by decide, by decide, by simp [I64], ?_⟩
    intro t ht
    simp only [List.mem_cons, List.not_mem_nil, or_false] at ht
    rcases ht with rfl | rfl <;> simp [I64]

example : demoText.text demoNames =
    "x0 & ~x1 | ~(x2 => x3 => x0) <=> (2*x0 + -3*~x1 <= 4) <=> @RESERVED_AB1_CC_4".toList := by decide +kernel

example (C : Canon) : ∃ g, parse C demoNames (demoText.text demoNames) = .ok g ∧ g.Norm ∧ ∀ σ, g.eval σ = demoText.eval σ := by
  refine C45_round_trip_partial C demoNames demoText_norm ?_ ?_
  · refine .equiv (.equiv (.nary ?_) (.pbc _)) (.lit _)
    intro f hf
    simp only [List.mem_cons, List.not_mem_nil, or_false] at hf
    rcases hf with rfl | rfl
    · refine .nary ?_
      intro f hf
      simp only [List.mem_cons, List.not_mem_nil, or_false] at hf
      rcases hf with rfl | rfl <;> exact .lit _
    · exact .not (.impl (.lit _) (.impl (.lit _) (.lit _) (by simp)) (by simp))
  · intro v hv
    cases v with
    | named i => exact demoNames_named i
    | aux t i =>
      simp only [demoText, occ_equiv, occ_nary, occ_pbc, occ_lit, List.mem_cons, List.not_mem_nil, or_false, exists_eq_or_imp,
        exists_eq_left, occ_not, occ_impl] at hv
      simp at hv
      obtain ⟨rfl, rfl⟩ := hv
      exact demoNames_aux (by decide) (by omega)

/-- **C45 is false for implications nested to the left**: `(a => b) => c` is printed without
parentheses and parsed as `a => (b => c)`. -/
theorem C45_left_implication (C : Canon) (N : Names) {a b c : Var} (ha : NameOk N a) (hb : NameOk N b) (hc : NameOk N c)
    (hab : a ≠ b) (hac : a ≠ c) (hbc : b ≠ c) :
    ∃ f, f.Norm ∧ (∀ v, Occ v f → NameOk N v) ∧
      ∃ g, parse C N (f.text N) = .ok g ∧ ∃ σ, g.eval σ ≠ f.eval σ := by
  have hcb : c ≠ b := Ne.symm hbc
  have hca : c ≠ a := Ne.symm hac
  obtain ⟨g, h1, -, h2⟩ := C45_round_trip_partial C N (f := .impl (.lit ⟨a, true⟩) (.impl (.lit ⟨b, true⟩) (.lit ⟨c, true⟩)))
    (.impl (.lit _) (.impl (.lit _) (.lit _) rfl rfl (by simp [hbc])) rfl rfl (by simp))
    (.impl (.lit _) (.impl (.lit _) (.lit _) (by simp)) (by simp))
    (by
      intro v hv
      simp only [occ_impl, occ_lit] at hv
      rcases hv with rfl | rfl | rfl <;> assumption)
  refine ⟨.impl (.impl (.lit ⟨a, true⟩) (.lit ⟨b, true⟩)) (.lit ⟨c, true⟩), ?_, ?_, g, ?_, fun _ => false, ?_⟩
  · exact .impl (.impl (.lit _) (.lit _) rfl rfl (by simp [hab])) (.lit _) rfl rfl (by simp)
  · intro v hv
    simp only [occ_impl, occ_lit] at hv
    rcases hv with (rfl | rfl) | rfl <;> assumption
  · refine Eq.trans (congrArg _ ?_) h1
    simp [Formula.text, Verif.paren, Formula.prec]
  · rw [h2]; simp [Formula.eval, Lit.eval]

example : ∃ f, f.Norm ∧ (∀ v, Occ v f → NameOk demoNames v) ∧
    ∃ g, parse ⟨fun _ l => l, fun _ _ => .refl _, fun _ _ => false⟩ demoNames (f.text demoNames) = .ok g ∧ ∃ σ, g.eval σ ≠ f.eval σ :=
  C45_left_implication _ _ (demoNames_named 0) (demoNames_named 1) (demoNames_named 2) (by simp) (by simp) (by simp)

/-- **C45 is false for some auxiliary variables**: those of the type `TMP`, and all those of a
factory whose identifier contains a character other than digits and capital letters (which
`with_id` allows), are read as user variables. -/
theorem C45_foreign_auxiliary (C : Canon) (N : Names) {t i} (hid : N.id.all isNameChar = true)
    (h : t = .tmp ∨ N.id.all (fun c => c.isDigit || c.isUpper) = false) :
    ∃ g, parse C N ((Formula.lit ⟨.aux t i, true⟩).text N) = .ok g ∧ ∃ σ, g.eval σ ≠ (Formula.lit ⟨.aux t i, true⟩).eval σ := by
  obtain ⟨g, h1, -, h2⟩ := (TT.litAs C N (innerOf ((Formula.lit ⟨.aux t i, true⟩).text N).length) ⟨.aux t i, true⟩
    (ident_aux hid t i) (read_foreign h)).parse (by omega)
  refine ⟨g, h1, fun v => decide (v = .aux t i), ?_⟩
  rw [h2]
  simp [Formula.eval, Lit.eval]

/-- The identifier in the documentation of `with_id`, formula_factory.rs:1248. -/
example : ("MyFactory".toList.all isNameChar = true) ∧ "MyFactory".toList.all (fun c => c.isDigit || c.isUpper) = false := by
  decide

/-- **C45 (the bound on nesting in the model).**  The nesting bound of the model of the
recursive rule plays no role. -/
theorem C45_nesting (cs : List Char) (n : Nat) (h : cs.length ≤ n) : pEqv n cs = pEqv cs.length cs :=
  pEqv_fuel cs.length n cs.length h (Nat.le_refl _) cs (Nat.le_refl _)

/-- Spacing, repeated negation and subtraction. -/
example : (match parse ⟨fun _ l => l, fun _ _ => .refl _, fun _ _ => false⟩ demoNames " ~ ~x1&( x2|$false)".toList with
    | .ok g => decide (g = .nary .conj [.lit ⟨.named 1, true⟩, .lit ⟨.named 2, true⟩])
    | _ => false) = true := by decide +kernel

example : (match parse ⟨fun _ l => l, fun _ _ => .refl _, fun _ _ => false⟩ demoNames "2 * x1 - 3*~x2>=-1".toList with
    | .ok g => decide (g = .pbc ⟨[(⟨.named 1, true⟩, 2), (⟨.named 2, false⟩, -3)], .ge, -1⟩)
    | _ => false) = true := by decide +kernel

example : (match parse ⟨fun _ l => l, fun _ _ => .refl _, fun _ _ => false⟩ demoNames "x1 & & x2".toList with
    | .error => true
    | _ => false) = true := by decide +kernel

end Verif
