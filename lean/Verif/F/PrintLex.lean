import Verif.F.Print
import Verif.F.Vars

/-
Reading back the printed names, numbers, literals and constraints.
-/
namespace Verif

/-! ### Characters -/

theorem takeWhile_app {p : Char → Bool} {t r : List Char} (h : t.all p = true) (hr : ∀ c ∈ r.head?, p c = false) :
    (t ++ r).takeWhile p = t := by
  induction t with
  | nil =>
    cases r with
    | nil => rfl
    | cons c r => simp [List.takeWhile, hr c (by simp)]
  | cons c t ih =>
    simp only [List.all_cons, Bool.and_eq_true] at h
    simp [List.takeWhile, h.1, ih h.2]

theorem dropWhile_app {p : Char → Bool} {t r : List Char} (h : t.all p = true) (hr : ∀ c ∈ r.head?, p c = false) :
    (t ++ r).dropWhile p = r := by
  induction t with
  | nil =>
    cases r with
    | nil => rfl
    | cons c r => simp [List.dropWhile, hr c (by simp)]
  | cons c t ih =>
    simp only [List.all_cons, Bool.and_eq_true] at h
    simp [List.dropWhile, h.1, ih h.2]

theorem all_of_dropWhile {p : Char → Bool} {t : List Char} (h : t.dropWhile p = []) : t.all p = true := by
  induction t with
  | nil => rfl
  | cons c t ih =>
    by_cases hc : p c = true
    · simp only [List.dropWhile, hc] at h; simp [hc, ih h]
    · simp [List.dropWhile, hc] at h

theorem skip_idem (cs) : skip (skip cs) = skip cs := by
  induction cs with
  | nil => rfl
  | cons c cs ih =>
    simp only [skip] at ih ⊢
    by_cases h : isWs c = true
    · simp [List.dropWhile, h, ih]
    · simp [List.dropWhile, h]

theorem skip_of_head {cs : List Char} (h : ∀ c ∈ cs.head?, isWs c = false) : skip cs = cs := by
  cases cs with
  | nil => rfl
  | cons c cs => simp [skip, List.dropWhile, h c (by simp)]

@[simp] theorem skip_space (cs) : skip (' ' :: cs) = skip cs := by simp [skip, List.dropWhile, isWs]

theorem skip_len (cs) : (skip cs).length ≤ cs.length := by
  induction cs with
  | nil => exact Nat.le_refl _
  | cons c cs ih =>
    simp only [skip] at ih ⊢
    by_cases h : isWs c = true
    · simp only [List.dropWhile, h, List.length_cons]; omega
    · simp [List.dropWhile, h]

theorem skip_head {cs : List Char} {c r} (h : skip cs = c :: r) : isWs c = false := by
  induction cs with
  | nil => simp [skip] at h
  | cons d cs ih =>
    simp only [skip] at ih h
    by_cases hd : isWs d = true
    · simp only [List.dropWhile, hd] at h; exact ih h
    · simp only [List.dropWhile, hd] at h
      injection h with h1 _
      subst h1
      simpa using hd

theorem str_app (s r) : str s (s ++ r) = some r := by
  induction s with
  | nil => rfl
  | cons a s ih => simp [str, ih]

theorem str_len {s cs r} (h : str s cs = some r) : r.length + s.length = cs.length := by
  induction s generalizing cs with
  | nil => simp [str] at h; subst h; simp
  | cons a s ih =>
    cases cs with
    | nil => simp [str] at h
    | cons c cs =>
      simp only [str] at h
      split at h
      · have := ih h; simp; omega
      · simp at h

/-! ### Parsers do not lengthen the input -/

/-- What is left is not longer than the input. -/
def Shrinks {α} (p : Pars α) : Prop := ∀ cs x r, p cs = some (x, r) → r.length ≤ cs.length

theorem dropWhile_len (p : Char → Bool) (cs : List Char) : (cs.dropWhile p).length ≤ cs.length :=
  (List.dropWhile_sublist p).length_le

theorem shrinks_name : Shrinks pName := by
  intro cs x r h
  cases cs with
  | nil => simp [pName] at h
  | cons c cs =>
    simp only [pName] at h
    split at h
    · obtain ⟨-, rfl⟩ := Prod.mk.inj (Option.some.inj h)
      have := dropWhile_len isNameChar cs
      simp; omega
    · simp at h

theorem shrinks_literal : Shrinks pLiteral := by
  intro cs x r h
  unfold pLiteral at h
  split at h
  · rename_i cs'
    cases e : pName cs' with
    | none => rw [e] at h; simp at h
    | some w =>
      rw [e] at h; simp at h
      have := shrinks_name cs' w.1 w.2 (by rw [e])
      obtain ⟨-, rfl⟩ := h
      simp; omega
  · cases e : pName cs with
    | none => rw [e] at h; simp at h
    | some w =>
      rw [e] at h; simp at h
      obtain ⟨-, rfl⟩ := h
      exact shrinks_name cs w.1 w.2 (by rw [e])

theorem shrinks_digits : Shrinks pDigits := by
  intro cs x r h
  unfold pDigits at h
  split at h
  · simp at h
  · obtain ⟨-, rfl⟩ := Prod.mk.inj (Option.some.inj h)
    exact dropWhile_len _ _

theorem shrinks_number : Shrinks pNumber := by
  intro cs x r h
  unfold pNumber at h
  split at h
  · rename_i cs'
    cases e : pDigits cs' with
    | none => rw [e] at h; simp at h
    | some w =>
      rw [e] at h; simp at h
      have := shrinks_digits cs' w.1 w.2 (by rw [e])
      obtain ⟨-, rfl⟩ := h
      simp; omega
  · cases e : pDigits cs with
    | none => rw [e] at h; simp at h
    | some w =>
      rw [e] at h; simp at h
      obtain ⟨-, rfl⟩ := h
      exact shrinks_digits cs w.1 w.2 (by rw [e])

theorem shrinks_coef : Shrinks pCoef := by
  intro cs x r h
  unfold pCoef at h
  split at h
  · simp at h
  · rename_i k q e
    have h1 := shrinks_number cs k q e
    have h2 := skip_len q
    split at h
    · rename_i q' e'
      obtain ⟨-, rfl⟩ := Prod.mk.inj (Option.some.inj h)
      rw [e'] at h2; simp at h2; omega
    · simp at h

theorem shrinks_mul (b) : Shrinks (pMul b) := by
  intro cs x r h
  unfold pMul at h
  split at h
  · rename_i k q e
    have h1 := shrinks_coef cs k q e
    have h2 := skip_len q
    cases e2 : pLiteral (skip q) with
    | none => rw [e2] at h; simp at h
    | some w =>
      rw [e2] at h; simp at h
      have := shrinks_literal _ w.1 w.2 (by rw [e2])
      obtain ⟨-, rfl⟩ := h
      omega
  · have h2 := skip_len cs
    cases e2 : pLiteral (skip cs) with
    | none => rw [e2] at h; simp at h
    | some w =>
      rw [e2] at h; simp at h
      have := shrinks_literal _ w.1 w.2 (by rw [e2])
      obtain ⟨-, rfl⟩ := h
      omega

theorem muls_len (n cs) : (pMuls n cs).2.length ≤ cs.length := by
  induction n generalizing cs with
  | zero => exact Nat.le_refl _
  | succ n ih =>
    have h0 := skip_len cs
    simp only [pMuls]
    split
    · rename_i r e
      rw [e] at h0; simp at h0
      have h1 := skip_len r
      split
      · rename_i t q e2
        have := shrinks_mul _ _ t q e2
        have := ih q
        simp only; omega
      · exact Nat.le_refl _
    · rename_i r e
      rw [e] at h0; simp at h0
      have h1 := skip_len r
      split
      · rename_i t q e2
        have := shrinks_mul _ _ t q e2
        have := ih q
        simp only; omega
      · exact Nat.le_refl _
    · exact Nat.le_refl _

theorem shrinks_cmpTy : Shrinks pCmpTy := by
  intro cs x r h
  unfold pCmpTy at h
  split at h <;> first | (obtain ⟨-, rfl⟩ := Prod.mk.inj (Option.some.inj h); simp <;> omega) | simp at h

theorem shrinks_comparison : Shrinks pComparison := by
  intro cs x r h
  unfold pComparison at h
  split at h
  · simp at h
  · rename_i t q e
    have h1 := shrinks_mul _ _ t q e
    have h2 := skip_len q
    have h3 := muls_len q.length (skip q)
    have h4 := skip_len (pMuls q.length (skip q)).2
    split at h
    · simp at h
    · rename_i c q1 e1
      have h5 := shrinks_cmpTy _ c q1 e1
      have h6 := skip_len q1
      split at h
      · simp at h
      · rename_i k q2 e2
        have h7 := shrinks_number _ k q2 e2
        obtain ⟨-, rfl⟩ := Prod.mk.inj (Option.some.inj h)
        omega

theorem nots_len (n cs) : (pNots n cs).2.length ≤ cs.length := by
  induction n generalizing cs with
  | zero => exact Nat.le_refl _
  | succ n ih =>
    have h0 := skip_len cs
    simp only [pNots]
    split
    · rename_i r e
      rw [e] at h0; simp at h0
      have := ih r
      simp only; omega
    · exact Nat.le_refl _

theorem shrinks_const : Shrinks pConst := by
  intro cs x r h
  unfold pConst at h
  split at h
  · rename_i q e
    have := str_len e
    obtain ⟨-, rfl⟩ := Prod.mk.inj (Option.some.inj h); omega
  · cases e : str "$false".toList cs with
    | none => rw [e] at h; simp at h
    | some w =>
      rw [e] at h; simp at h
      have := str_len e
      obtain ⟨-, rfl⟩ := h; omega

theorem shrinks_paren {inner} (hi : Shrinks inner) : Shrinks (pParen inner) := by
  intro cs x r h
  unfold pParen at h
  split at h
  · rename_i cs
    have h0 := skip_len cs
    split at h
    · simp at h
    · rename_i y q e
      have h1 := hi _ y q e
      have h2 := skip_len q
      split at h
      · rename_i q' e'
        obtain ⟨-, rfl⟩ := Prod.mk.inj (Option.some.inj h)
        rw [e'] at h2; simp at h2 ⊢; omega
      · simp at h
  · simp at h

theorem shrinks_atom {inner} (hi : Shrinks inner) : Shrinks (pAtom inner) := by
  intro cs x r h
  unfold pAtom at h
  split at h
  · rename_i l q e
    obtain ⟨-, rfl⟩ := Prod.mk.inj (Option.some.inj h)
    exact shrinks_literal _ l q e
  · split at h
    · rename_i b q e
      obtain ⟨-, rfl⟩ := Prod.mk.inj (Option.some.inj h)
      exact shrinks_const _ b q e
    · exact shrinks_paren hi _ _ _ h

theorem shrinks_simp {inner} (hi : Shrinks inner) : Shrinks (pSimp inner) := by
  intro cs x r h
  unfold pSimp at h
  cases e : pAtom inner (skip (pNots cs.length cs).2) with
  | none => rw [e] at h; simp at h
  | some w =>
    rw [e] at h; simp at h
    have h1 := shrinks_atom hi _ w.1 w.2 (by rw [e])
    have h2 := skip_len (pNots cs.length cs).2
    have h3 := nots_len cs.length cs
    obtain ⟨-, rfl⟩ := h; omega

theorem shrinks_lit {inner} (hi : Shrinks inner) : Shrinks (pLit inner) := by
  intro cs x r h
  unfold pLit at h
  split at h
  · rename_i w e
    rw [Option.some.inj h] at e
    exact shrinks_comparison _ x r e
  · exact shrinks_simp hi _ _ _ h

theorem rep_len {op p} (hp : Shrinks p) (n cs) : (pRep op p n cs).2.length ≤ cs.length := by
  induction n generalizing cs with
  | zero => exact Nat.le_refl _
  | succ n ih =>
    have h0 := skip_len cs
    simp only [pRep]
    split
    · exact Nat.le_refl _
    · rename_i r e
      have h1 := str_len e
      have h2 := skip_len r
      split
      · exact Nat.le_refl _
      · rename_i y q e2
        have := hp _ y q e2
        have := ih q
        simp only; omega

theorem shrinks_chain {mk op p} (hp : Shrinks p) : Shrinks (pChain mk op p) := by
  intro cs x r h
  unfold pChain at h
  split at h
  · simp at h
  · rename_i y q e
    have h1 := hp _ y q e
    have h2 := skip_len q
    have h3 := rep_len (op := op) hp q.length (skip q)
    obtain ⟨-, rfl⟩ := Prod.mk.inj (Option.some.inj h); omega

theorem shrinks_eqvOf {inner} (hi : Shrinks inner) : Shrinks (pEqvOf inner) :=
  shrinks_chain (shrinks_chain (shrinks_chain (shrinks_chain (shrinks_lit hi))))

theorem shrinks_eqv (n) : Shrinks (pEqv n) := by
  induction n with
  | zero => exact shrinks_eqvOf (fun _ _ _ h => nomatch h)
  | succ n ih => exact shrinks_eqvOf ih

/-! ### Numbers -/

theorem digit_spec : ∀ d < 10, (digit d).isDigit = true ∧ (digit d).toNat - 48 = d := by decide

theorem digits_ne (n) : digits n ≠ [] := by
  rw [digits]; split <;> simp

theorem digits_all (n) : (digits n).all Char.isDigit = true := by
  induction n using Nat.strongRecOn with
  | ind n ih =>
    rw [digits]
    split
    · simp [(digit_spec n ‹_›).1]
    · rw [List.all_append, ih (n / 10) (by omega)]
      simp [(digit_spec (n % 10) (by omega)).1]

theorem readNat_digits (n) : readNat (digits n) = n := by
  induction n using Nat.strongRecOn with
  | ind n ih =>
    rw [digits]
    split
    · simp [readNat, (digit_spec n ‹_›).2]
    · have := ih (n / 10) (by omega)
      unfold readNat at this ⊢
      rw [List.foldl_append, this]
      simp only [List.foldl_cons, List.foldl_nil, (digit_spec (n % 10) (by omega)).2]
      omega

theorem isDigit_nameChar {c : Char} (h : c.isDigit = true) : isNameChar c = true := by
  simp [isNameChar, Char.isAlphanum, h]

theorem isUpper_nameChar {c : Char} (h : c.isUpper = true) : isNameChar c = true := by
  simp [isNameChar, Char.isAlphanum, Char.isAlpha, h]

theorem isDigit_ws {c : Char} (h : c.isDigit = true) : isWs c = false := by
  simp only [isWs, Bool.or_eq_false_iff, beq_eq_false_iff_ne]
  refine ⟨⟨⟨?_, ?_⟩, ?_⟩, ?_⟩ <;> (rintro rfl; revert h; decide)

theorem isNameChar_ws {c : Char} (h : isNameChar c = true) : isWs c = false := by
  simp only [isWs, Bool.or_eq_false_iff, beq_eq_false_iff_ne]
  refine ⟨⟨⟨?_, ?_⟩, ?_⟩, ?_⟩ <;> (rintro rfl; revert h; decide)

theorem pDigits_digits (n : Nat) {r : List Char} (hr : ∀ c ∈ r.head?, c.isDigit = false) :
    pDigits (digits n ++ r) = some (n, r) := by
  unfold pDigits
  rw [takeWhile_app (digits_all n) hr, dropWhile_app (digits_all n) hr, if_neg (digits_ne n), readNat_digits]

theorem digits_cons (n) : ∃ c t, digits n = c :: t ∧ c.isDigit = true := by
  have h1 := digits_ne n
  have h2 := digits_all n
  cases e : digits n with
  | nil => exact absurd e h1
  | cons c t => rw [e] at h2; simp at h2; exact ⟨c, t, rfl, h2.1⟩

theorem pNumber_showInt (x : Int) {r : List Char} (hr : ∀ c ∈ r.head?, c.isDigit = false) :
    pNumber (showInt x ++ r) = some (x, r) := by
  unfold showInt
  split
  · simp only [List.cons_append, pNumber, pDigits_digits _ hr, Option.map_some]
    congr 2; omega
  · obtain ⟨c, t, e, hc⟩ := digits_cons x.natAbs
    have h1 : c ≠ '-' := by rintro rfl; revert hc; decide
    have h2 := pDigits_digits x.natAbs hr
    rw [e] at h2 ⊢
    simp only [List.cons_append] at h2 ⊢
    unfold pNumber
    split
    · rename_i cs h; injection h with h _; exact absurd h h1
    · rw [h2]; simp only [Option.map_some]; congr 2; omega

theorem showInt_head (x : Int) (r : List Char) : skip (showInt x ++ r) = showInt x ++ r := by
  refine skip_of_head fun c hc => ?_
  unfold showInt at hc
  split at hc
  · simp at hc; subst hc; decide
  · obtain ⟨d, t, e, hd⟩ := digits_cons x.natAbs
    rw [e] at hc; simp at hc; subst hc; exact isDigit_ws hd

/-! ### Names and literals -/

/-- Identifiers of the grammar (specification). -/
def IsIdent (s : List Char) : Prop := ∃ c t, s = c :: t ∧ (isNameChar c = true ∨ c = '@') ∧ t.all isNameChar = true

theorem IsIdent.head {s} (h : IsIdent s) (r : List Char) : skip (s ++ r) = s ++ r := by
  obtain ⟨c, t, rfl, hc, _⟩ := h
  refine skip_of_head fun d hd => ?_
  simp at hd; subst hd
  rcases hc with hc | rfl
  · exact isNameChar_ws hc
  · decide

theorem pName_app {s r} (h : IsIdent s) (hr : ∀ c ∈ r.head?, isNameChar c = false) :
    pName (s ++ r) = some (s, r) := by
  obtain ⟨c, t, rfl, hc, ht⟩ := h
  simp only [List.cons_append, pName]
  rw [if_pos (by simpa using hc), takeWhile_app ht hr, dropWhile_app ht hr]

theorem pLiteral_lit (N : Names) (l : Lit) (h : IsIdent (N.var l.v)) {r} (hr : ∀ c ∈ r.head?, isNameChar c = false) :
    pLiteral (N.lit l ++ r) = some ((!l.pos, N.var l.v), r) := by
  unfold Names.lit
  cases hp : l.pos with
  | false => simp [pLiteral, pName_app h hr]
  | true =>
    rw [if_pos rfl]
    have h1 := pName_app h hr
    obtain ⟨c, t, e, hc, ht⟩ := h
    rw [e] at h1 ⊢
    simp only [List.cons_append] at h1 ⊢
    have h2 : c ≠ '~' := by
      rintro rfl; rcases hc with hc | hc
      · revert hc; decide
      · revert hc; decide
    unfold pLiteral
    split
    · rename_i cs h; injection h with h _; exact absurd h h2
    · rw [h1]; simp

theorem lit_head (N : Names) (l : Lit) (h : IsIdent (N.var l.v)) (r) : skip (N.lit l ++ r) = N.lit l ++ r := by
  unfold Names.lit
  split
  · exact h.head r
  · exact skip_of_head (by simp [isWs])

/-- What may follow a summand: no character of a name, and no `*` after white space. -/
structure AfterLit (r : List Char) : Prop where
  name : ∀ c ∈ r.head?, isNameChar c = false
  star : ∀ c ∈ (skip r).head?, c ≠ '*'

theorem pDigits_ident {s r} (h : IsIdent s) (hr : AfterLit r) {k q} (e : pDigits (s ++ r) = some (k, q)) :
    ∀ c ∈ (skip q).head?, c ≠ '*' := by
  obtain ⟨c, t, rfl, hc, ht⟩ := h
  unfold pDigits at e
  split at e
  · simp at e
  · rename_i h0
    obtain ⟨-, rfl⟩ := Prod.mk.inj (Option.some.inj e)
    clear e
    have hall : (c :: t).dropWhile Char.isDigit = [] ∨ ∃ d u, (c :: t).dropWhile Char.isDigit = d :: u ∧ isNameChar d = true := by
      cases e1 : (c :: t).dropWhile Char.isDigit with
      | nil => exact .inl rfl
      | cons d u =>
        refine .inr ⟨d, u, rfl, ?_⟩
        by_cases hd : c.isDigit = true
        · have : d ∈ t := by
            have h2 : d :: u = t.dropWhile Char.isDigit := by rw [← e1]; simp [List.dropWhile, hd]
            have : d ∈ t.dropWhile Char.isDigit := by rw [← h2]; simp
            exact (List.dropWhile_sublist _).subset this
          exact List.all_eq_true.1 ht d this
        · simp [List.takeWhile, hd] at h0
    rcases hall with h1 | ⟨d, u, h1, hd⟩
    · have : (c :: t ++ r).dropWhile Char.isDigit = r := by
        refine dropWhile_app ?_ fun x hx => ?_
        · exact all_of_dropWhile h1
        · by_contra hne
          exact absurd (isDigit_nameChar (by simpa using hne)) (by simp [hr.name x hx])
      rw [this]; exact hr.star
    · have : (c :: t ++ r).dropWhile Char.isDigit = d :: (u ++ r) := by
        rw [List.dropWhile_append, h1]; simp
      rw [this, skip_of_head (by simpa using isNameChar_ws hd)]
      simp
      rintro rfl; revert hd; decide

theorem pCoef_none {s r} (N : Names) (l : Lit) (hs : s = N.lit l) (h : IsIdent (N.var l.v)) (hr : AfterLit r) :
    pCoef (s ++ r) = none := by
  subst hs
  unfold pCoef
  have key : ∀ k q, pNumber (N.lit l ++ r) = some (k, q) → ∀ c ∈ (skip q).head?, c ≠ '*' := by
    intro k q e
    unfold Names.lit at e
    cases hp : l.pos with
    | false =>
      simp [hp, pNumber, pDigits, List.takeWhile] at e
    | true =>
      rw [hp, if_pos rfl] at e
      have h3 := h
      obtain ⟨c, t, e1, hc, ht⟩ := h
      have h2 : c ≠ '-' := by
        rintro rfl; rcases hc with hc | hc
        · revert hc; decide
        · revert hc; decide
      unfold pNumber at e
      split at e
      · rename_i cs he; rw [e1] at he; injection he with he _; exact absurd he h2
      · cases e4 : pDigits (N.var l.v ++ r) with
        | none => rw [e4] at e; simp at e
        | some w =>
          rw [e4] at e; simp at e
          obtain ⟨-, rfl⟩ := e
          exact pDigits_ident h3 hr (by rw [e4])
  cases e : pNumber (N.lit l ++ r) with
  | none => rfl
  | some w =>
    obtain ⟨k, q⟩ := w
    have := key k q e
    simp only
    split
    · rename_i q' hq; rw [hq] at this; exact absurd rfl (this '*' (by simp))
    · rfl

theorem pMul_lit (N : Names) (b) (l : Lit) (h : IsIdent (N.var l.v)) {r} (hr : AfterLit r) :
    pMul b (N.lit l ++ r) = some (⟨b, 1, !l.pos, N.var l.v⟩, r) := by
  unfold pMul
  rw [pCoef_none N l rfl h hr]
  simp only
  rw [lit_head N l h, pLiteral_lit N l h hr.name]
  rfl

theorem pMul_term (N : Names) (b) (t : Lit × Int) (h : IsIdent (N.var t.1.v)) {r} (hr : AfterLit r) :
    pMul b (N.term t ++ r) = some (⟨b, t.2, !t.1.pos, N.var t.1.v⟩, r) := by
  unfold Names.term
  split
  · rename_i h1; rw [pMul_lit N b t.1 h hr, h1]
  · unfold pMul pCoef
    rw [List.append_assoc, pNumber_showInt t.2 (by simp)]
    simp only [List.cons_append]
    rw [skip_of_head (by simp [isWs])]
    simp only
    rw [lit_head N t.1 h, pLiteral_lit N t.1 h hr.name]
    rfl

theorem term_head (N : Names) (t : Lit × Int) (h : IsIdent (N.var t.1.v)) (r) : skip (N.term t ++ r) = N.term t ++ r := by
  unfold Names.term
  split
  · exact lit_head N _ h r
  · rw [List.append_assoc]; exact showInt_head _ _

/-! ### Constraints -/

theorem afterLit_plus (r) : AfterLit (" + ".toList ++ r) := by
  constructor
  · simp; decide
  · show ∀ c ∈ (skip (' ' :: '+' :: _)).head?, _
    rw [skip_space, skip_of_head (by simp [isWs])]; simp

theorem afterLit_cmp (c : Cmp) (r) : AfterLit (' ' :: c.text ++ r) := by
  constructor
  · simp; decide
  · cases c <;> simp [Cmp.text, skip, List.dropWhile, isWs]

theorem pMuls_join (N : Names) {tl : List Char} (ht : ∃ c r, tl = ' ' :: Cmp.text c ++ r) :
    ∀ (t : Lit × Int) (ts : List (Lit × Int)), (∀ t' ∈ t :: ts, IsIdent (N.var t'.1.v)) →
    ∃ q, pMul false (joinWith " + ".toList ((t :: ts).map N.term) ++ tl) = some (⟨false, t.2, !t.1.pos, N.var t.1.v⟩, q) ∧
      ts.length ≤ q.length ∧
      ∀ n, ts.length ≤ n → ∀ q', (q' = q ∨ q' = skip q) → ∃ q'', pMuls n q' = (ts.map fun t => ⟨false, t.2, !t.1.pos, N.var t.1.v⟩, q'') ∧ skip q'' = skip tl := by
  intro t ts
  induction ts generalizing t with
  | nil =>
    intro h
    obtain ⟨c, r, rfl⟩ := ht
    refine ⟨' ' :: c.text ++ r, ?_, by simp, ?_⟩
    · simpa [joinWith] using pMul_term N false t (h t (by simp)) (afterLit_cmp c r)
    · intro n _ q' hq
      refine ⟨q', ?_, by rcases hq with rfl | rfl <;> simp [skip_idem]⟩
      cases n with
      | zero => rfl
      | succ n =>
        have hs : skip q' = c.text ++ r := by
          rcases hq with rfl | rfl
          · cases c <;> simp [Cmp.text, skip, List.dropWhile, isWs]
          · rw [skip_idem]; cases c <;> simp [Cmp.text, skip, List.dropWhile, isWs]
        simp only [pMuls, hs]
        cases c <;> simp [Cmp.text]
  | cons u us ih =>
    intro h
    obtain ⟨q, h1, h2, h3⟩ := ih u fun t' ht' => h t' (by simp [List.mem_cons] at ht' ⊢; right; exact ht')
    refine ⟨" + ".toList ++ (joinWith " + ".toList ((u :: us).map N.term) ++ tl), ?_, ?_, ?_⟩
    · have := pMul_term N false t (h t (by simp)) (afterLit_plus (joinWith " + ".toList ((u :: us).map N.term) ++ tl))
      simpa [joinWith, List.append_assoc] using this
    · have hq : q.length ≤ (joinWith " + ".toList ((u :: us).map N.term) ++ tl).length := by
        exact shrinks_mul _ _ _ _ h1
      simp only [List.length_append, List.length_cons] at hq ⊢
      have : (" + ".toList).length = 3 := rfl
      omega
    · intro n hn q' hq
      cases n with
      | zero => simp at hn
      | succ n =>
        have hs : skip q' = '+' :: ' ' :: (joinWith " + ".toList ((u :: us).map N.term) ++ tl) := by
          have : skip (" + ".toList ++ (joinWith " + ".toList ((u :: us).map N.term) ++ tl)) = '+' :: ' ' :: (joinWith " + ".toList ((u :: us).map N.term) ++ tl) := by
            show skip (' ' :: '+' :: ' ' :: _) = _
            rw [skip_space, skip_of_head (by simp [isWs])]; rfl
          rcases hq with rfl | rfl
          · exact this
          · rw [skip_idem]; exact this
        have hh : skip (joinWith " + ".toList ((u :: us).map N.term) ++ tl) = joinWith " + ".toList ((u :: us).map N.term) ++ tl := by
          cases us with
          | nil => simpa [joinWith] using term_head N u (h u (by simp)) tl
          | cons w ws => simpa [joinWith, List.append_assoc] using term_head N u (h u (by simp)) _
        obtain ⟨q'', h4, h5⟩ := h3 n (by simp at hn; omega) q (.inl rfl)
        refine ⟨q'', ?_, h5⟩
        simp only [pMuls, hs, skip_space, hh, h1, h4]
        rfl

end Verif
