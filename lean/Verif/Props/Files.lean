import Verif.Util.Files
/-
Property C65: files.  A formula written to a file is read back as an equivalent formula; a DIMACS file is read as its clauses.
-/
namespace Verif.Files

variable {C : Canon} {N : Names} {ws : Char → Bool}

/-! ### Formulas -/

/-- C65 for formulas, partially: `read_formula` gives back a formula that was written with `write_formula`, up to equivalence.  As for C45, missing are formulas with an implication as the
left operand of an implication, and names that are no identifiers. -/
theorem C65_write_read_partial {f : Formula} (hn : f.Norm) (hl : NoLeft f) (hv : ∀ v, Occ v f → NameOk N v) :
    ∃ g, readFormula C N (writeFormula N f) = some g ∧ g.Norm ∧ ∀ σ, g.eval σ = f.eval σ := by
  have hp : ∀ {g}, (∀ v, Occ v g → NameOk N v) → (g.text N).all plain = true := fun h => plain_text _ fun v hv => plain_ident (h v hv).readable.ident
  have one : ∀ {f : Formula}, f.Norm → NoLeft f → (∀ v, Occ v f → NameOk N v) → ∃ g, readFormula C N (f.text N) = some g ∧ g.Norm ∧ ∀ σ, g.eval σ = f.eval σ := by
    intro f hn hl hv
    obtain ⟨g, h1, h2, h3⟩ := C45_round_trip_partial C N hn hl hv
    unfold readFormula linesOf
    rw [linesFrom_last (plain_nl (hp hv)), List.append_nil]
    split
    · rename_i e
      rw [List.reverse_eq_nil_iff] at e
      rw [e] at h1
      injection h1 with h1
      refine ⟨Formula.mkAnd C [], rfl, Formula.norm_mkNary C _ (by simp), fun σ => ?_⟩
      rw [← h3 σ, ← h1, Formula.eval_mkAnd]
      rfl
    · rw [List.reverse_reverse]
      refine ⟨Formula.mkAnd C [g], by simp [readLine, h1], Formula.norm_mkNary C _ (by simpa using h2), fun σ => ?_⟩
      rw [Formula.eval_mkAnd]
      simpa using h3 σ
  cases f with
  | nary o fs =>
    cases o with
    | disj => exact one hn hl hv
    | conj =>
      have hls : ∀ f ∈ fs, NoLeft f := by cases hl; assumption
      have hns : ∀ f ∈ fs, f.Norm := by cases hn; assumption
      have hvs : ∀ f ∈ fs, ∀ v, Occ v f → NameOk N v := fun f hf v ho => hv v (.nary hf ho)
      have h1 : ∀ f ∈ fs, ∃ g, parse C N (f.text N) = .ok g ∧ g.Norm ∧ ∀ σ, g.eval σ = f.eval σ := fun f hf => C45_round_trip_partial C N (hns f hf) (hls f hf) (hvs f hf)
      have h2 : ∃ gs, (fs.map (Formula.text N)).mapM (readLine C N) = some gs ∧ (∀ g ∈ gs, g.Norm) ∧ ∀ σ, gs.all (Formula.eval σ) = fs.all (Formula.eval σ) := by
        clear hn hv hls hns hl
        induction fs with
        | nil => exact ⟨[], rfl, by simp, fun _ => rfl⟩
        | cons f fs ih =>
          obtain ⟨g, e1, e2, e3⟩ := h1 f (by simp)
          obtain ⟨gs, e4, e5, e6⟩ := ih (fun f hf => hvs f (List.mem_cons_of_mem _ hf)) fun f hf => h1 f (List.mem_cons_of_mem _ hf)
          refine ⟨g :: gs, ?_, by simpa using ⟨e2, e5⟩, fun σ => ?_⟩
          · rw [List.map_cons, List.mapM_cons, e4, readLine, e1]
            rfl
          · rw [List.all_cons, List.all_cons, e3, e6]
      obtain ⟨gs, e1, e2, e3⟩ := h2
      refine ⟨Formula.mkAnd C gs, ?_, Formula.norm_mkNary C _ e2, fun σ => ?_⟩
      · unfold readFormula writeFormula
        rw [lines_ops fun f hf => hp (hvs f hf), e1]
        rfl
      · rw [Formula.eval_mkAnd, e3, Formula.eval_nary]
        rfl
  | _ => exact one hn hl hv

/-! ### DIMACS files (specification) -/

/-- A literal of a DIMACS file: number and sign. -/
abbrev DLit := Nat × Bool

/-- How a literal is written. -/
def DLit.text (l : DLit) : List Char := if l.2 then digits l.1 else '-' :: digits l.1

/-- Spaces and tabs. -/
def Blanks (s : List Char) : Prop := ∀ c ∈ s, c = ' ' ∨ c = '\t'

/-- A line of a DIMACS file: one without a clause, or a clause with the blanks at the beginning and after each literal. -/
inductive DLine
  | other (s : List Char)
  | clause (lead : List Char) (ls : List (DLit × List Char))

namespace DLine

/-- The characters of the line. -/
def text : DLine → List Char
  | other s => s
  | clause lead ls => lead ++ ((ls.flatMap fun x => x.1.text ++ x.2) ++ ['0'])

/-- A line without a clause is a comment, the header, or has only white space; clauses are separated by blanks. -/
def Ok (ws : Char → Bool) : DLine → Prop
  | other s => '\n' ∉ s ∧ ((∃ t, s = 'c' :: t ∨ s = 'p' :: t) ∨ s.all ws = true)
  | clause lead ls => Blanks lead ∧ ∀ x ∈ ls, x.2 ≠ [] ∧ Blanks x.2

/-- The clause of the line. -/
def lits? : DLine → Option (List DLit)
  | other _ => none
  | clause _ ls => some (ls.map Prod.fst)

end DLine

/-- A DIMACS file: lines with their ends, and perhaps a last line without. -/
structure DFile where
  lines : List (DLine × Bool)
  last : Option DLine

namespace DFile

/-- The characters of the file; lines end with `\r\n` or `\n`. -/
def text (F : DFile) : List Char := (F.lines.flatMap fun x => x.1.text ++ if x.2 then ['\r', '\n'] else ['\n']) ++ (F.last.elim [] DLine.text)

def Ok (ws : Char → Bool) (F : DFile) : Prop := (∀ x ∈ F.lines, x.1.Ok ws) ∧ ∀ l, F.last = some l → l.Ok ws

/-- The clauses of the file. -/
def clauses (F : DFile) : List (List DLit) := (F.lines.map Prod.fst ++ F.last.toList).filterMap DLine.lits?

end DFile

/-- Digits and the minus sign are no white space. -/
def WsOk (ws : Char → Bool) : Prop := ∀ c, c.isDigit = true ∨ c = '-' → ws c = false

/-! ### Reading -/

theorem Blanks.all {s : List Char} (h : Blanks s) : s.all isBlank = true :=
  List.all_eq_true.2 fun c hc => by rcases h c hc with rfl | rfl <;> rfl

theorem Blanks.sep {s : List Char} (h : s ≠ [] ∧ Blanks s) : Sep s := ⟨h.1, h.2.all⟩

theorem dtext_ne (l : DLit) : l.text ≠ [] := by
  unfold DLit.text
  split
  · exact digits_ne _
  · simp

theorem dtext_chars (l : DLit) : ∀ c ∈ l.text, c.isDigit = true ∨ c = '-' := by
  unfold DLit.text
  have := List.all_eq_true.1 (digits_all l.1)
  intro c hc
  split at hc
  · exact .inl (this c hc)
  · rcases List.mem_cons.1 hc with h | h
    · exact .inr h
    · exact .inl (this c h)

theorem chars_not_blank {c : Char} (h : c.isDigit = true ∨ c = '-') : (!isBlank c) = true := by
  rw [Bool.not_eq_true', ← Bool.not_eq_true]
  intro hb
  unfold isBlank at hb
  rw [Bool.or_eq_true, beq_iff_eq, beq_iff_eq] at hb
  rcases hb with rfl | rfl <;> rcases h with h | h <;> exact absurd h (by decide)

/-- The literal of the factory. -/
def dlit (N : Names) (pre : List Char) (l : DLit) : Lit := ⟨.named (N.intern (pre ++ digits l.1)), l.2⟩

theorem litOf_text (pre : List Char) (l : DLit) : litOf N pre l.text = dlit N pre l := by
  unfold DLit.text dlit
  rcases l with ⟨k, b⟩
  cases b with
  | true =>
    simp only [if_true]
    obtain ⟨c, t, e, hc⟩ := digits_cons k
    rw [e]
    unfold litOf
    split
    · rename_i h
      injection h with h _
      subst h
      exact absurd hc (by decide)
    · rfl
  | false => rfl

theorem readClause_ok (hw : WsOk ws) (pre : List Char) {lead : List Char} {ls : List (DLit × List Char)} (h : (DLine.clause lead ls).Ok ws) :
    readClause ws C N pre (DLine.clause lead ls).text = some (Formula.mkOr C (ls.map fun x => .lit (dlit N pre x.1))) := by
  obtain ⟨h1, h2⟩ := h
  have hz : (['0'] : List Char) ≠ [] := by simp
  have hz' : (['0'] : List Char).all (fun c => !isBlank c) = true := by decide
  have hwd : ∀ x ∈ ls.map (fun x : DLit × List Char => (x.1.text, x.2)), x.1 ≠ [] ∧ x.1.all (fun c => !isBlank c) = true ∧ Sep x.2 := by
    intro x hx
    obtain ⟨y, hy, rfl⟩ := List.mem_map.1 hx
    exact ⟨dtext_ne _, List.all_eq_true.2 fun c hc => chars_not_blank (dtext_chars _ c hc), Blanks.sep (h2 y hy)⟩
  have e0 : (ls.flatMap fun x => x.1.text ++ x.2) = (ls.map (fun x : DLit × List Char => (x.1.text, x.2))).flatMap fun x => x.1 ++ x.2 := by
    rw [List.flatMap_map]
  have key : ∃ z : List (List Char), (∀ t ∈ z, t = []) ∧ splitFrom false [] (DLine.clause lead ls).text = (z ++ ls.map fun x => x.1.text) ++ [['0']] := by
    show ∃ z : List (List Char), (∀ t ∈ z, t = []) ∧ splitFrom false [] (lead ++ ((ls.flatMap fun x => x.1.text ++ x.2) ++ ['0'])) = _
    rw [e0]
    cases hl : lead with
    | nil =>
      refine ⟨[], by simp, ?_⟩
      rw [List.nil_append, split_words hwd hz hz', List.map_map, List.nil_append]
      rfl
    | cons c t =>
      rw [← hl, split_sep ⟨by simp [hl], h1.all⟩, split_words hwd hz hz', List.map_map]
      exact ⟨[[]], by simp, rfl⟩
  obtain ⟨z, hz0, e⟩ := key
  unfold readClause
  simp only [e, List.getLast?_concat, if_true]
  rw [List.length_append, List.length_singleton, Nat.add_sub_cancel, List.take_left, List.map_append, List.filter_append]
  have f1 : (z.map (trim ws)).filter (fun s => !s.isEmpty) = [] := by
    rw [List.filter_eq_nil_iff]
    intro s hs
    obtain ⟨t, ht, rfl⟩ := List.mem_map.1 hs
    rw [hz0 t ht]
    simp [trim]
  have f2 : ((ls.map fun x => x.1.text).map (trim ws)).filter (fun s => !s.isEmpty) = ls.map fun x => x.1.text := by
    rw [List.map_map]
    have : (trim ws ∘ fun x : DLit × List Char => x.1.text) = fun x => x.1.text := by
      funext x
      exact trim_id fun c hc => hw c (dtext_chars _ c hc)
    rw [this, List.filter_eq_self]
    intro s hs
    obtain ⟨x, _, rfl⟩ := List.mem_map.1 hs
    simp [dtext_ne]
  rw [f1, f2, List.nil_append, List.map_map]
  congr 2
  refine List.map_congr_left fun x _ => ?_
  simp [litOf_text]

theorem clause_not_skipped (hw : WsOk ws) {lead : List Char} {ls : List (DLit × List Char)} (h : (DLine.clause lead ls).Ok ws) :
    skipped ws (DLine.clause lead ls).text = false := by
  have h0 : (trim ws (DLine.clause lead ls).text).isEmpty = false := by
    rw [← Bool.not_eq_true, List.isEmpty_iff]
    exact trim_ne (c := '0') (by simp [DLine.text]) (hw _ (.inl (by decide)))
  have h1 : ∀ c, (DLine.clause lead ls).text.head? = some c → isBlank c = true ∨ c.isDigit = true ∨ c = '-' := by
    intro c hc
    change (lead ++ ((ls.flatMap fun x => x.1.text ++ x.2) ++ ['0'])).head? = some c at hc
    cases hl : lead with
    | cons d t =>
      rw [hl] at hc
      injection hc with hc
      subst hc
      exact .inl (List.all_eq_true.1 h.1.all _ (by simp [hl]))
    | nil =>
      rw [hl, List.nil_append] at hc
      cases ls with
      | nil =>
        injection hc with hc
        subst hc
        exact .inr (.inl (by decide))
      | cons x ls =>
        rw [List.flatMap_cons, List.append_assoc, List.append_assoc] at hc
        cases hx : x.1.text with
        | nil => exact absurd hx (dtext_ne _)
        | cons d t =>
          rw [hx] at hc
          injection hc with hc
          subst hc
          exact .inr (dtext_chars x.1 _ (by simp [hx]))
  unfold skipped
  rw [h0, Bool.or_false, Bool.or_eq_false_iff, beq_eq_false_iff_ne, beq_eq_false_iff_ne]
  constructor <;> (intro e; rcases h1 _ e with h | h | h <;> exact absurd h (by decide))

theorem other_skipped {s : List Char} (h : (∃ t, s = 'c' :: t ∨ s = 'p' :: t) ∨ s.all ws = true) : skipped ws s = true := by
  unfold skipped
  rcases h with ⟨t, rfl | rfl⟩ | h
  · simp
  · simp
  · simp [trim_ws h]

theorem text_nl {l : DLine} (h : l.Ok ws) : '\n' ∉ l.text := by
  cases l with
  | other s => exact h.1
  | clause lead ls =>
    intro hm
    unfold DLine.text at hm
    rw [List.mem_append, List.mem_append] at hm
    rcases hm with hm | hm | hm
    · exact absurd (h.1 _ hm) (by decide)
    · obtain ⟨x, hx, hm⟩ := List.mem_flatMap.1 hm
      rcases List.mem_append.1 hm with hm | hm
      · exact absurd (dtext_chars _ _ hm) (by decide)
      · exact absurd ((h.2 x hx).2 _ hm) (by decide)
    · exact absurd hm (by decide)

/-- A line without its end. -/
def cut (s : List Char) : List Char := (dropCr s.reverse).reverse

theorem cut_clause {lead : List Char} {ls : List (DLit × List Char)} (b : Bool) :
    cut ((DLine.clause lead ls).text ++ if b then ['\r'] else []) = (DLine.clause lead ls).text := by
  have e : (DLine.clause lead ls).text.reverse = '0' :: (lead ++ ls.flatMap fun x => x.1.text ++ x.2).reverse := by
    show (lead ++ ((ls.flatMap fun x => x.1.text ++ x.2) ++ ['0'])).reverse = _
    rw [← List.append_assoc, List.reverse_append]
    rfl
  unfold cut
  cases b with
  | true =>
    rw [if_pos rfl, List.reverse_append]
    show (DLine.clause lead ls).text.reverse.reverse = _
    rw [List.reverse_reverse]
  | false =>
    rw [if_neg (by simp), List.append_nil, dropCr_of, List.reverse_reverse]
    rw [e]
    simp

theorem cut_cases (s : List Char) : cut s = s ∨ s = cut s ++ ['\r'] := by
  unfold cut dropCr
  split
  · rename_i l e
    right
    have := congrArg List.reverse e
    rwa [List.reverse_reverse, List.reverse_cons] at this
  · left
    rw [List.reverse_reverse]

theorem cut_other {s : List Char} (b : Bool) (hr : ws '\r' = true) (h : (∃ t, s = 'c' :: t ∨ s = 'p' :: t) ∨ s.all ws = true) :
    skipped ws (cut (s ++ if b then ['\r'] else [])) = true := by
  have k : ∀ u, (∃ t, u = 'c' :: t ∨ u = 'p' :: t) ∨ u.all ws = true → skipped ws (cut u) = true := by
    intro u hu
    rcases cut_cases u with e | e
    · rw [e]
      exact other_skipped hu
    · refine other_skipped ?_
      rcases hu with ⟨t, hu⟩ | hu
      · left
        cases hc : cut u with
        | nil =>
          rw [e, hc] at hu
          rcases hu with hu | hu <;> (injection hu with hu _; exact absurd hu (by decide))
        | cons d v =>
          rw [e, hc] at hu
          refine ⟨v, hu.imp ?_ ?_⟩ <;> (intro hu; injection hu with hu _; rw [hu])
      · right
        rw [e, List.all_append, Bool.and_eq_true] at hu
        exact hu.1
  refine k _ ?_
  rcases h with ⟨t, h⟩ | h
  · exact .inl ⟨t ++ if b then ['\r'] else [], by rcases h with rfl | rfl <;> simp⟩
  · right
    rw [List.all_append, h]
    cases b <;> simp [hr]

/-- The formula of a clause. -/
def dformula (C : Canon) (N : Names) (pre : List Char) (c : List DLit) : Formula := Formula.mkOr C (c.map fun l => .lit (dlit N pre l))

/-- What is read for the lines `ss` of a file are the clauses `cs`. -/
def Reads (ws : Char → Bool) (C : Canon) (N : Names) (pre : List Char) (ss : List (List Char)) (cs : List (List DLit)) : Prop :=
  (ss.filter fun l => !skipped ws l).mapM (readClause ws C N pre) = some (cs.map (dformula C N pre))

theorem Reads.skip {pre s ss cs} (h : skipped ws s = true) (r : Reads ws C N pre ss cs) : Reads ws C N pre (s :: ss) cs := by
  unfold Reads
  rw [List.filter_cons_of_neg (by simp [h])]
  exact r

theorem Reads.clause (hw : WsOk ws) {pre lead ls ss cs} (h : (DLine.clause lead ls).Ok ws) (r : Reads ws C N pre ss cs) :
    Reads ws C N pre ((DLine.clause lead ls).text :: ss) (ls.map Prod.fst :: cs) := by
  unfold Reads at r ⊢
  rw [List.filter_cons_of_pos (by simp [clause_not_skipped hw h]), List.mapM_cons, readClause_ok hw pre h, r, List.map_cons, dformula, List.map_map]
  rfl

theorem lines_last {l : DLine} (h : l.Ok ws) : linesFrom [] l.text = if l.text = [] then [] else [l.text] := by
  rw [linesFrom_last (text_nl h), List.append_nil, List.reverse_reverse]
  simp only [List.reverse_eq_nil_iff]

theorem file_reads (hw : WsOk ws) (hr : ws '\r' = true) (pre : List Char) {F : DFile} (h : F.Ok ws) : Reads ws C N pre (linesOf F.text) F.clauses := by
  rcases F with ⟨ls, last⟩
  unfold linesOf DFile.clauses DFile.text
  simp only
  induction ls with
  | nil =>
    simp only [List.flatMap_nil, List.nil_append, List.map_nil]
    cases last with
    | none => exact rfl
    | some l =>
      have ho := h.2 l rfl
      simp only [Option.elim, Option.toList_some]
      rw [lines_last ho]
      cases l with
      | other s =>
        split
        · exact rfl
        · exact Reads.skip (other_skipped ho.2) rfl
      | clause lead cs =>
        rw [if_neg (by simp [DLine.text])]
        exact Reads.clause hw ho rfl
  | cons x ls ih =>
    have ih := ih ⟨fun y hy => h.1 y (List.mem_cons_of_mem _ hy), h.2⟩
    have ho := h.1 x (by simp)
    obtain ⟨l, b⟩ := x
    simp only at ho
    have e : ∀ r : List Char, linesFrom [] ((l.text ++ if b = true then ['\r', '\n'] else ['\n']) ++ r) =
        cut (l.text ++ if b = true then ['\r'] else []) :: linesFrom [] r := by
      intro r
      have e1 : ((l.text ++ if b = true then ['\r', '\n'] else ['\n']) ++ r) = (l.text ++ if b = true then ['\r'] else []) ++ '\n' :: r := by cases b <;> simp
      rw [e1, linesFrom_line, List.append_nil]
      · rfl
      · rw [List.mem_append]
        rintro (hm | hm)
        · exact text_nl ho hm
        · revert hm; cases b <;> decide
    rw [List.flatMap_cons, List.append_assoc, e]
    cases l with
    | other s => exact Reads.skip (cut_other b hr ho.2) ih
    | clause lead cs =>
      rw [cut_clause]
      exact Reads.clause hw ho ih

/-! ### Results -/

/-- A clause of a DIMACS file is satisfied by an assignment of the numbers. -/
def DSat (τ : Nat → Bool) (c : List DLit) : Bool := c.any fun l => τ l.1 == l.2

/-- C65 for DIMACS files: no panic, one formula for each clause, in normal form, and satisfied by the assignments that satisfy the clause, where the number `k` is the variable with the
prefix and the number as its name. -/
theorem C65_dimacs (hw : WsOk ws) (hr : ws '\r' = true) (pre : List Char) {F : DFile} (h : F.Ok ws) :
    ∃ gs, readCnf ws C N pre F.text = some gs ∧ gs.length = F.clauses.length ∧ (∀ g ∈ gs, g.Norm) ∧
      ∀ σ : Asg, gs.map (Formula.eval σ) = F.clauses.map (DSat fun k => σ (.named (N.intern (pre ++ digits k)))) := by
  refine ⟨_, file_reads hw hr pre h, by simp, fun g hg => ?_, fun σ => ?_⟩
  · obtain ⟨c, _, rfl⟩ := List.mem_map.1 hg
    refine Formula.norm_mkNary C _ fun g hg => ?_
    obtain ⟨l, _, rfl⟩ := List.mem_map.1 hg
    exact .lit _
  · rw [List.map_map]
    refine List.map_congr_left fun c _ => ?_
    show Formula.eval σ (dformula C N pre c) = _
    unfold dformula DSat
    rw [Formula.eval_mkOr, List.any_map]
    refine congrArg (fun p => c.any p) (funext fun l => ?_)
    rcases l with ⟨k, b⟩
    cases b <;> simp [dlit, Formula.eval, Lit.eval]

/-- C65 for DIMACS files, as a statement about satisfiability: different names are different variables. -/
theorem C65_dimacs_satisfiable (hw : WsOk ws) (hr : ws '\r' = true) (pre : List Char) (hi : ∀ s t, N.intern s = N.intern t → s = t) {F : DFile} (h : F.Ok ws) :
    ∃ gs, readCnf ws C N pre F.text = some gs ∧ ((∃ σ, ∀ g ∈ gs, Formula.eval σ g = true) ↔ ∃ τ, ∀ c ∈ F.clauses, DSat τ c = true) := by
  obtain ⟨gs, h1, _, _, h2⟩ := C65_dimacs (C := C) (N := N) hw hr pre h
  have k : ∀ σ : Asg, (∀ g ∈ gs, Formula.eval σ g = true) ↔ ∀ c ∈ F.clauses, DSat (fun k => σ (.named (N.intern (pre ++ digits k)))) c = true := by
    intro σ
    rw [← List.forall_mem_map (f := Formula.eval σ) (P := fun b => b = true), h2, List.forall_mem_map]
  refine ⟨gs, h1, fun ⟨σ, hσ⟩ => ⟨_, (k σ).1 hσ⟩, fun ⟨τ, hτ⟩ => ?_⟩
  classical
  refine ⟨fun v => decide (∃ j, v = .named (N.intern (pre ++ digits j)) ∧ τ j = true), (k _).2 fun c hc => ?_⟩
  have e : (fun k => decide (∃ j, Var.named (N.intern (pre ++ digits k)) = .named (N.intern (pre ++ digits j)) ∧ τ j = true)) = τ := by
    funext i
    rw [Bool.eq_iff_iff, decide_eq_true_iff]
    refine ⟨?_, fun hi => ⟨i, rfl, hi⟩⟩
    rintro ⟨j, e, hj⟩
    injection e with e
    have := congrArg readNat (List.append_cancel_left (hi _ _ e))
    rw [readNat_digits, readNat_digits] at this
    rw [this]
    exact hj
  rw [e]
  exact hτ c hc

theorem split_trailing (s : List Char) {sp : List Char} (hs : Sep sp) (b : Bool) (acc : List Char) : (splitFrom b acc (s ++ sp)).getLast? = some [] := by
  have ne : ∀ (u : List Char) (b : Bool) (acc : List Char), splitFrom b acc u ≠ [] := by
    intro u
    induction u with
    | nil => simp [splitFrom]
    | cons c u ih =>
      intro b acc
      unfold splitFrom
      split
      · split
        · exact ih _ _
        · simp
      · exact ih _ _
  have hb : splitFrom true [] sp = [[]] := by
    have := split_blanks hs.2 []
    rw [List.append_nil] at this
    rw [this]
    rfl
  induction s generalizing b acc with
  | nil =>
    rw [List.nil_append]
    cases b with
    | false =>
      have := split_sep hs acc []
      rw [List.append_nil] at this
      rw [this]
      rfl
    | true =>
      obtain ⟨h1, h2⟩ := hs
      cases sp with
      | nil => exact absurd rfl h1
      | cons c sp =>
        rw [List.all_cons, Bool.and_eq_true] at h2
        rw [splitFrom, if_pos h2.1, if_pos rfl] at hb ⊢
        rw [hb]
        rfl
  | cons c s ih =>
    rw [List.cons_append, splitFrom]
    split
    · split
      · exact ih _ _
      · rw [List.getLast?_cons, ih]
        rfl
    · exact ih _ _

/-- C65 for DIMACS files does not extend to clauses with blanks at the end of the line: `assert_eq!` panics, whatever comes after. -/
theorem C65_trailing_blank_panics (hw : WsOk ws) (pre : List Char) {lead ls} (h : (DLine.clause lead ls).Ok ws) {sp : List Char} (hs : sp ≠ [] ∧ Blanks sp) (r : List Char) :
    readCnf ws C N pre (((DLine.clause lead ls).text ++ sp) ++ '\n' :: r) = none := by
  have h1 : '\n' ∉ (DLine.clause lead ls).text ++ sp := by
    rw [List.mem_append]
    rintro (hm | hm)
    · exact text_nl h hm
    · exact absurd (hs.2 _ hm) (by decide)
  have h2 : skipped ws ((DLine.clause lead ls).text ++ sp) = false := by
    have k := clause_not_skipped hw h
    unfold skipped at k ⊢
    have e : ((DLine.clause lead ls).text ++ sp).head? = (DLine.clause lead ls).text.head? := by
      rw [List.head?_append]
      cases ht : (DLine.clause lead ls).text with
      | nil => exact absurd ht (by simp [DLine.text])
      | cons c t => rfl
    have e2 : (trim ws ((DLine.clause lead ls).text ++ sp)).isEmpty = false := by
      rw [← Bool.not_eq_true, List.isEmpty_iff]
      exact trim_ne (c := '0') (by simp [DLine.text]) (hw _ (.inl (by decide)))
    rw [Bool.or_eq_false_iff] at k ⊢
    rw [e]
    exact ⟨k.1, e2⟩
  have h3 : dropCr ((DLine.clause lead ls).text ++ sp).reverse = ((DLine.clause lead ls).text ++ sp).reverse := by
    refine dropCr_of ?_
    rw [List.reverse_append, List.head?_append]
    cases e : sp.reverse with
    | nil => exact absurd (List.reverse_eq_nil_iff.1 e) hs.1
    | cons c t =>
      intro hc
      injection hc with hc
      subst hc
      exact absurd (hs.2 '\r' (List.mem_reverse.1 (by simp [e]))) (by decide)
  unfold readCnf linesOf
  rw [linesFrom_line h1, List.append_nil, h3, List.reverse_reverse, List.filter_cons_of_pos (by simp [h2]), List.mapM_cons]
  have h4 : readClause ws C N pre ((DLine.clause lead ls).text ++ sp) = none := by
    unfold readClause
    simp only [split_trailing _ (Blanks.sep hs)]
    rfl
  rw [h4]
  rfl

/-! ### Examples -/

/-- White space as far as it is ASCII. -/
def exWs (c : Char) : Bool := c == ' ' || c == '\t' || c == '\n' || c == '\r'

theorem exWs_ok : WsOk exWs := by
  intro c h
  rw [← Bool.not_eq_true]
  intro hw
  simp only [exWs, Bool.or_eq_true, beq_iff_eq] at hw
  rcases hw with ((rfl | rfl) | rfl) | rfl <;> rcases h with h | h <;> exact absurd h (by decide)

/-- A file with a header, a comment, line ends of both kinds, a blank line, tabs, and no end after the last line. -/
def exFile : DFile :=
  { lines := [(.other "c two clauses".toList, false), (.other "p cnf 12 3".toList, true), (.clause [] [((1, true), [' ']), ((12, false), ['\t', ' '])], true), (.other " ".toList, false)]
    last := some (.clause [' '] [((2, false), [' '])]) }

example : exFile.text = "c two clauses\np cnf 12 3\r\n1 -12\t 0\r\n \n -2 0".toList := by decide +kernel

theorem exFile_ok : exFile.Ok exWs := by
  constructor
  · intro x hx
    simp only [exFile, List.mem_cons, List.not_mem_nil, or_false] at hx
    rcases hx with rfl | rfl | rfl | rfl
    · exact ⟨by decide, .inl ⟨_, .inl rfl⟩⟩
    · exact ⟨by decide, .inl ⟨_, .inr rfl⟩⟩
    · exact ⟨by simp [Blanks], fun x hx => by
        simp only [List.mem_cons, List.not_mem_nil, or_false] at hx
        rcases hx with rfl | rfl <;> exact ⟨by simp, by simp [Blanks]⟩⟩
    · exact ⟨by decide, .inr (by decide)⟩
  · intro l hl
    injection hl with hl
    subst hl
    exact ⟨by simp [Blanks], fun x hx => by
      simp only [List.mem_cons, List.not_mem_nil, or_false] at hx
      subst hx
      exact ⟨by simp, by simp [Blanks]⟩⟩

example : exFile.clauses = [[(1, true), (12, false)], [(2, false)]] := rfl

example : ∃ gs, readCnf exWs C N ['v'] exFile.text = some gs ∧ gs.length = 2 :=
  let ⟨gs, h, k, _⟩ := C65_dimacs (C := C) (N := N) exWs_ok (by decide) ['v'] exFile_ok
  ⟨gs, h, k⟩

/-- A clause in two lines, as DIMACS allows it, is a panic. -/
example : readCnf exWs C N ['v'] "1\n2 0".toList = none := rfl

/-- So is a blank after the last literal. -/
example : readCnf exWs C N ['v'] "1 2 0 \n".toList = none := rfl

/-- A conjunction of three operands. -/
def exConj : Formula := .nary .conj [.lit ⟨.named 0, true⟩, .impl (.lit ⟨.named 1, false⟩) (.lit ⟨.named 0, true⟩), .lit ⟨.aux .cnf 7, true⟩]

/-- It is written in three lines. -/
example : writeFormula demoNames exConj = "x0\n~x1 => x0\n@RESERVED_AB1_CNF_7\n".toList := by decide +kernel

/-- And read back. -/
example : ∃ g, readFormula C demoNames (writeFormula demoNames exConj) = some g ∧ g.Norm ∧ ∀ σ, g.eval σ = exConj.eval σ := by
  refine C65_write_read_partial ?_ (.nary ?_) ?_
  · refine .nary (by decide) ?_ ⟨by decide, by decide, ?_, ?_, ?_⟩
    · intro f hf
      simp only [List.mem_cons, List.not_mem_nil, or_false] at hf
      rcases hf with rfl | rfl | rfl
      · exact .lit _
      · exact .impl (.lit _) (.lit _) rfl rfl (by decide)
      · exact .lit _
    · intro f hf gs e
      subst e; simp at hf
    · intro l hl
      simp only [List.mem_cons, List.not_mem_nil, or_false, reduceCtorEq, false_or, Formula.lit.injEq] at hl
      rcases hl with rfl | rfl <;> decide
    · intro f hf; simp at hf
  · intro f hf
    simp only [List.mem_cons, List.not_mem_nil, or_false] at hf
    rcases hf with rfl | rfl | rfl
    · exact .lit _
    · exact .impl (.lit _) (.lit _) (by simp)
    · exact .lit _
  · intro v hv
    cases v with
    | named i => exact demoNames_named i
    | aux t i =>
      simp [exConj] at hv
      obtain ⟨rfl, rfl⟩ := hv
      exact demoNames_aux (by decide) (by omega)

/-- A line that cannot be parsed is a panic, not an `io::Error` as documented in formula_reader.rs:11. -/
theorem C65_invalid_panics : readFormula C N "a\n(b".toList = none := by
  have h : parse C N "(b".toList = .error := by
    unfold parse
    have : pTop "(b".toList = none := by decide +kernel
    rw [this]
  have e : linesOf "a\n(b".toList = [['a'], "(b".toList] := by decide +kernel
  unfold readFormula
  rw [e, List.mapM_cons, List.mapM_cons]
  have : readLine C N "(b".toList = none := by unfold readLine; rw [h]
  rw [this]
  cases readLine C N ['a'] <;> rfl

end Verif.Files
