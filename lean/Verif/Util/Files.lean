import Verif.Props.Text
import Verif.F.Funcs
import Mathlib.Data.List.TakeWhile
/-
Reading and writing files: src/io/readers and src/io/writers.  A file is its sequence of characters; errors of the operating system are left out.
-/
namespace Verif.Files

/-! ### Model -/

/-- `\r` at the end of a line that ended with `\n` belongs to the end of the line; lines are held in reverse here. -/
def dropCr : List Char → List Char
  | '\r' :: l => l
  | l => l

/-- `BufRead::lines` of the standard library: `acc` is the line being read, in reverse. -/
def linesFrom (acc : List Char) : List Char → List (List Char)
  | [] => if acc = [] then [] else [acc.reverse]
  | c :: cs => if c = '\n' then (dropCr acc).reverse :: linesFrom [] cs else linesFrom (c :: acc) cs

/-- The lines of a file. -/
def linesOf (s : List Char) : List (List Char) := linesFrom [] s

/-- `[ \t]`, dimacs_reader.rs:57. -/
def isBlank (c : Char) : Bool := c == ' ' || c == '\t'

/-- `split_regex.split`, dimacs_reader.rs:61: `sep` says that the last character was part of a separator, `acc` is the token being read, in reverse. -/
def splitFrom (sep : Bool) (acc : List Char) : List Char → List (List Char)
  | [] => [acc.reverse]
  | c :: cs =>
    if isBlank c then
      if sep then splitFrom true [] cs else acc.reverse :: splitFrom true [] cs
    else splitFrom false (c :: acc) cs

/-- `str::trim`; `ws` is `char::is_whitespace`. -/
def trim (ws : Char → Bool) (s : List Char) : List Char := ((s.dropWhile ws).reverse.dropWhile ws).reverse

/-- One literal, dimacs_reader.rs:64-65. -/
def litOf (N : Names) (pre : List Char) : List Char → Lit
  | '-' :: r => ⟨.named (N.intern (pre ++ r)), false⟩
  | s => ⟨.named (N.intern (pre ++ s)), true⟩

/-- Lines that are not looked at, dimacs_reader.rs:60. -/
def skipped (ws : Char → Bool) (line : List Char) : Bool := line.head? == some 'c' || line.head? == some 'p' || (trim ws line).isEmpty

/-- One line with a clause, dimacs_reader.rs:61-67; `none` is the panic of the assertion. -/
def readClause (ws : Char → Bool) (C : Canon) (N : Names) (pre : List Char) (line : List Char) : Option Formula :=
  let split := splitFrom false [] line
  if split.getLast? = some ['0'] then
    some (Formula.mkOr C ((((split.take (split.length - 1)).map (trim ws)).filter fun s => !s.isEmpty).map fun s => .lit (litOf N pre s)))
  else none

/-- `read_cnf_with_prefix`, dimacs_reader.rs:52-71, on the contents of the file; `none` is a panic.  `read_cnf`, 10-12, is the case that `pre` is `v`. -/
def readCnf (ws : Char → Bool) (C : Canon) (N : Names) (pre : List Char) (file : List Char) : Option (List Formula) :=
  ((linesOf file).filter fun l => !skipped ws l).mapM (readClause ws C N pre)

/-- `f.parse(&line?).unwrap()`, formula_reader.rs:34. -/
def readLine (C : Canon) (N : Names) (l : List Char) : Option Formula :=
  match parse C N l with
  | .ok f => some f
  | _ => none

/-- `read_formula`, formula_reader.rs:30-38, on the contents of the file; `none` is a panic (of `unwrap`, or in the parser). -/
def readFormula (C : Canon) (N : Names) (file : List Char) : Option Formula := ((linesOf file).mapM (readLine C N)).map (Formula.mkAnd C)

/-- `write_formula`, formula_writer.rs:32-44: the contents of the file. -/
def writeFormula (N : Names) : Formula → List Char
  | .nary .conj fs => fs.flatMap fun f => f.text N ++ ['\n']
  | f => f.text N

/-! ### Lines -/

theorem linesFrom_line {s : List Char} (h : '\n' ∉ s) (acc r : List Char) :
    linesFrom acc (s ++ '\n' :: r) = (dropCr (s.reverse ++ acc)).reverse :: linesFrom [] r := by
  induction s generalizing acc with
  | nil => simp [linesFrom]
  | cons c s ih =>
    simp only [List.mem_cons, not_or] at h
    simp only [List.cons_append, linesFrom, if_neg (Ne.symm h.1), ih h.2, List.reverse_cons, List.append_assoc, List.nil_append]

theorem linesFrom_last {s : List Char} (h : '\n' ∉ s) (acc : List Char) : linesFrom acc s = if s.reverse ++ acc = [] then [] else [(s.reverse ++ acc).reverse] := by
  induction s generalizing acc with
  | nil => rfl
  | cons c s ih =>
    simp only [List.mem_cons, not_or] at h
    simp only [linesFrom, if_neg (Ne.symm h.1), ih h.2, List.reverse_cons, List.append_assoc, List.cons_append, List.nil_append]

theorem dropCr_of {s : List Char} (h : s.head? ≠ some '\r') : dropCr s = s := by
  unfold dropCr
  split
  · simp at h
  · rfl

/-! ### The text of a formula is one line -/

/-- Not at the end of a line. -/
def plain (c : Char) : Bool := c != '\n' && c != '\r'

theorem plain_name {c : Char} (h : isNameChar c = true) : plain c = true := by
  unfold plain
  rw [Bool.and_eq_true, bne_iff_ne, bne_iff_ne]
  constructor <;> (rintro rfl; exact absurd h (by decide))

theorem plain_digit {c : Char} (h : c.isDigit = true) : plain c = true := by
  unfold plain
  rw [Bool.and_eq_true, bne_iff_ne, bne_iff_ne]
  constructor <;> (rintro rfl; exact absurd h (by decide))

theorem plain_ident {s : List Char} (h : IsIdent s) : s.all plain = true := by
  obtain ⟨c, t, rfl, hc, ht⟩ := h
  rw [List.all_cons, Bool.and_eq_true]
  refine ⟨?_, List.all_eq_true.2 fun d hd => plain_name (List.all_eq_true.1 ht d hd)⟩
  rcases hc with hc | rfl
  · exact plain_name hc
  · rfl

theorem plain_digits (n : Nat) : (digits n).all plain = true := List.all_eq_true.2 fun d hd => plain_digit (List.all_eq_true.1 (digits_all n) d hd)

theorem plain_int (x : Int) : (showInt x).all plain = true := by
  unfold showInt
  split
  · rw [List.all_cons, plain_digits]; rfl
  · exact plain_digits _

theorem plain_join {s : List Char} (hs : s.all plain = true) {l : List (List Char)} (h : ∀ x ∈ l, x.all plain = true) : (joinWith s l).all plain = true := by
  induction l with
  | nil => rfl
  | cons x l ih =>
    cases l with
    | nil => exact h x (by simp)
    | cons y l =>
      simp only [joinWith, List.all_append, Bool.and_eq_true]
      exact ⟨⟨h x (by simp), hs⟩, ih fun z hz => h z (List.mem_cons_of_mem _ hz)⟩

theorem plain_paren {k j : Nat} {s : List Char} (h : s.all plain = true) : (paren k j s).all plain = true := by
  unfold paren
  split
  · simp only [List.cons_append, List.all_cons, List.all_append, h]; rfl
  · exact h

theorem plain_cmp (c : Cmp) : c.text.all plain = true := by cases c <;> rfl

theorem plain_lit {N : Names} {l : Lit} (h : (N.var l.v).all plain = true) : (N.lit l).all plain = true := by
  unfold Names.lit
  split
  · exact h
  · rw [List.all_cons, h]; rfl

theorem plain_text {N : Names} (f : Formula) (h : ∀ v, Occ v f → (N.var v).all plain = true) : (f.text N).all plain = true := by
  induction f using ind_operands with
  | h f ih =>
    cases f with
    | tru => rfl
    | fls => rfl
    | lit l => exact plain_lit (h _ (by simp))
    | not f =>
      simp only [Formula.text, List.cons_append, List.all_cons, List.all_append, ih f (by simp [Formula.operands]) fun v hv => h v (by simp [hv])]
      rfl
    | impl a b =>
      simp only [Formula.text, List.all_append, plain_paren (ih a (by simp [Formula.operands]) fun v hv => h v (by simp [hv])),
        plain_paren (ih b (by simp [Formula.operands]) fun v hv => h v (by simp [hv]))]
      rfl
    | equiv a b =>
      simp only [Formula.text, List.all_append, plain_paren (ih a (by simp [Formula.operands]) fun v hv => h v (by simp [hv])),
        plain_paren (ih b (by simp [Formula.operands]) fun v hv => h v (by simp [hv]))]
      rfl
    | nary o fs =>
      have h1 : ∀ k, ∀ x ∈ Formula.texts N k fs, x.all plain = true := by
        intro k x hx
        rw [Formula.texts_eq, List.mem_map] at hx
        obtain ⟨f, hf, rfl⟩ := hx
        exact plain_paren (ih f (by simpa [Formula.operands] using hf) fun v hv => h v (.nary hf hv))
      cases o with
      | conj => exact plain_join (by decide) (h1 _)
      | disj => exact plain_join (by decide) (h1 _)
    | cc c =>
      simp only [Formula.text, Names.cc, List.cons_append, List.all_append, List.all_cons, plain_cmp, plain_digits]
      rw [plain_join (by decide)]
      · rfl
      · intro x hx
        obtain ⟨v, hv, rfl⟩ := List.mem_map.1 hx
        exact h v (.cc hv)
    | pbc p =>
      simp only [Formula.text, Names.pbc, List.cons_append, List.all_append, List.all_cons, plain_cmp, plain_int]
      rw [plain_join (by decide)]
      · rfl
      · intro x hx
        obtain ⟨t, ht, rfl⟩ := List.mem_map.1 hx
        have := plain_lit (h t.1.v (.pbc ht rfl))
        unfold Names.term
        split
        · exact this
        · simp only [List.all_append, List.all_cons, plain_int, this]; rfl

theorem plain_nl {s : List Char} (h : s.all plain = true) : '\n' ∉ s := fun hm => absurd (List.all_eq_true.1 h _ hm) (by decide)

theorem plain_cr {s : List Char} (h : s.all plain = true) : '\r' ∉ s := fun hm => absurd (List.all_eq_true.1 h _ hm) (by decide)

theorem linesFrom_plain {s : List Char} (h : s.all plain = true) (r : List Char) : linesFrom [] (s ++ '\n' :: r) = s :: linesFrom [] r := by
  rw [linesFrom_line (plain_nl h), List.append_nil, dropCr_of, List.reverse_reverse]
  intro e
  exact plain_cr h (List.mem_reverse.1 (List.mem_of_mem_head? e))

theorem lines_ops {N : Names} {fs : List Formula} (h : ∀ f ∈ fs, (f.text N).all plain = true) :
    linesOf (fs.flatMap fun f => f.text N ++ ['\n']) = fs.map (Formula.text N) := by
  unfold linesOf
  induction fs with
  | nil => rfl
  | cons f fs ih =>
    rw [List.flatMap_cons, List.append_assoc, List.singleton_append, linesFrom_plain (h f (by simp)), ih fun g hg => h g (List.mem_cons_of_mem _ hg)]
    rfl

/-! ### Splitting a line -/

/-- Blanks. -/
def Sep (s : List Char) : Prop := s ≠ [] ∧ s.all isBlank = true

theorem split_blanks {s : List Char} (h : s.all isBlank = true) (r : List Char) : splitFrom true [] (s ++ r) = splitFrom true [] r := by
  induction s with
  | nil => rfl
  | cons c s ih =>
    rw [List.all_cons, Bool.and_eq_true] at h
    rw [List.cons_append, splitFrom, if_pos h.1, if_pos rfl, ih h.2]

theorem split_sep {s : List Char} (h : Sep s) (acc r : List Char) : splitFrom false acc (s ++ r) = acc.reverse :: splitFrom true [] r := by
  obtain ⟨h1, h2⟩ := h
  cases s with
  | nil => exact absurd rfl h1
  | cons c s =>
    rw [List.all_cons, Bool.and_eq_true] at h2
    rw [List.cons_append, splitFrom, if_pos h2.1, if_neg (by simp), split_blanks h2.2]

theorem split_acc {s : List Char} (h : s.all (fun c => !isBlank c) = true) (acc r : List Char) : splitFrom false acc (s ++ r) = splitFrom false (s.reverse ++ acc) r := by
  induction s generalizing acc with
  | nil => rfl
  | cons c s ih =>
    rw [List.all_cons, Bool.and_eq_true, Bool.not_eq_true'] at h
    rw [List.cons_append, splitFrom, if_neg (by simp [h.1]), ih h.2, List.reverse_cons, List.append_assoc, List.singleton_append]

theorem split_word {s : List Char} (h0 : s ≠ []) (h : s.all (fun c => !isBlank c) = true) (b : Bool) (r : List Char) :
    splitFrom b [] (s ++ r) = splitFrom false s.reverse r := by
  cases s with
  | nil => exact absurd rfl h0
  | cons c s =>
    have h' := h
    rw [List.all_cons, Bool.and_eq_true, Bool.not_eq_true'] at h
    rw [List.cons_append, splitFrom, if_neg (by simp [h.1]), split_acc h.2, List.reverse_cons]

/-- Words with blanks after each, then a last word. -/
theorem split_words {ws : List (List Char × List Char)} (h : ∀ x ∈ ws, x.1 ≠ [] ∧ x.1.all (fun c => !isBlank c) = true ∧ Sep x.2) {z : List Char} (hz : z ≠ [])
    (hz' : z.all (fun c => !isBlank c) = true) (b : Bool) : splitFrom b [] ((ws.flatMap fun x => x.1 ++ x.2) ++ z) = ws.map Prod.fst ++ [z] := by
  induction ws generalizing b with
  | nil =>
    have := split_word hz hz' b []
    rw [List.append_nil] at this
    rw [List.flatMap_nil, List.nil_append, this]
    simp [splitFrom]
  | cons x ws ih =>
    obtain ⟨h1, h2, h3⟩ := h x (by simp)
    rw [List.flatMap_cons, List.append_assoc, List.append_assoc, split_word h1 h2, split_sep h3, List.reverse_reverse, ih fun y hy => h y (List.mem_cons_of_mem _ hy)]
    rfl

theorem trim_id {ws : Char → Bool} {s : List Char} (h : ∀ c ∈ s, ws c = false) : trim ws s = s := by
  have k : ∀ t : List Char, (∀ c ∈ t, ws c = false) → t.dropWhile ws = t := by
    intro t ht
    cases t with
    | nil => rfl
    | cons c t => rw [List.dropWhile_cons, ht c (by simp)]; rfl
  unfold trim
  rw [k s h, k s.reverse fun c hc => h c (List.mem_reverse.1 hc), List.reverse_reverse]

theorem trim_ws {ws : Char → Bool} {s : List Char} (h : s.all ws = true) : trim ws s = [] := by
  unfold trim
  have : s.dropWhile ws = [] := by rw [List.dropWhile_eq_nil_iff]; exact List.all_eq_true.1 h
  rw [this]; rfl

theorem trim_ne {ws : Char → Bool} {s : List Char} {c : Char} (hc : c ∈ s) (h : ws c = false) : trim ws s ≠ [] := by
  unfold trim
  intro e
  rw [List.reverse_eq_nil_iff, List.dropWhile_eq_nil_iff] at e
  have h1 : c ∈ s.dropWhile ws := by
    have := List.takeWhile_append_dropWhile (p := ws) (l := s)
    rw [← this, List.mem_append] at hc
    rcases hc with hc | hc
    · exact absurd (List.mem_takeWhile_imp hc) (by simp [h])
    · exact hc
  have := e c (List.mem_reverse.2 h1)
  rw [h] at this
  cases this

end Verif.Files
