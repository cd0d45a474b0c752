/-
Common ground of the encoders: variables, literals, clauses, and the object the
encoders write to (`EncodingResult`).
-/
namespace Verif

/-- Kinds of auxiliary variables.  Models `AuxVarType`, src/formulas/variable.rs:28-33. -/
inductive AuxTy | cnf | cc | pb | tmp
  deriving DecidableEq, Repr

/-- Models `Variable`, src/formulas/variable.rs:66-69: a named variable (index into the
name table) or an auxiliary variable (kind, index). -/
inductive Var
  | named (n : Nat)
  | aux (t : AuxTy) (n : Nat)
  deriving DecidableEq, Repr

/-- Models `Literal`, src/formulas/literal.rs:55-60 (`Pos v` / `Neg v`). -/
structure Lit where
  v : Var
  pos : Bool
  deriving DecidableEq, Repr

/-- Models `Literal::negate`, src/formulas/literal.rs. -/
def Lit.neg (l : Lit) : Lit := ⟨l.v, !l.pos⟩

/-- Models `Variable::pos_lit`. -/
abbrev Var.p (v : Var) : Lit := ⟨v, true⟩
/-- Models `Variable::neg_lit`. -/
abbrev Var.n (v : Var) : Lit := ⟨v, false⟩

/-- Total assignments (specification). -/
abbrev Asg := Var → Bool

/-- Truth of a literal (specification). -/
def Lit.eval (σ : Asg) (l : Lit) : Bool := if l.pos then σ l.v else !σ l.v

abbrev Clause := List Lit

/-- Truth of a clause (specification). -/
def Clause.Sat (σ : Asg) (c : Clause) : Prop := ∃ l ∈ c, l.eval σ = true

/-- How many members of a literal list are true, counting repetitions (specification). -/
def cntL (σ : Asg) (ls : List Lit) : Nat := ls.countP (Lit.eval σ)

/-- How many members of a variable list are true, counting repetitions (specification). -/
def cntV (σ : Asg) (vs : List Var) : Nat := vs.countP (fun v => σ v)

@[simp] theorem Lit.eval_p (σ : Asg) (v : Var) : Lit.eval σ v.p = σ v := by simp [Lit.eval]
@[simp] theorem Lit.eval_n (σ : Asg) (v : Var) : Lit.eval σ v.n = !σ v := by simp [Lit.eval]
@[simp] theorem Lit.eval_mk_true (σ : Asg) (v : Var) : Lit.eval σ ⟨v, true⟩ = σ v := by simp [Lit.eval]
@[simp] theorem Lit.eval_mk_false (σ : Asg) (v : Var) : Lit.eval σ ⟨v, false⟩ = !σ v := by simp [Lit.eval]
@[simp] theorem Lit.eval_neg (σ : Asg) (l : Lit) : l.neg.eval σ = !l.eval σ := by
  cases l with | mk v p => cases p <;> simp [Lit.eval, Lit.neg]
@[simp] theorem Lit.neg_v (l : Lit) : l.neg.v = l.v := rfl
@[simp] theorem Lit.neg_neg (l : Lit) : l.neg.neg = l := by cases l; simp [Lit.neg]

theorem cntL_map_p (σ : Asg) (vs : List Var) : cntL σ (vs.map Var.p) = cntV σ vs := by
  simp [cntL, cntV, List.countP_map, Function.comp_def]

theorem cntL_map_n (σ : Asg) (vs : List Var) : cntL σ (vs.map Var.n) + cntV σ vs = vs.length := by
  induction vs with
  | nil => simp [cntL, cntV]
  | cons v vs ih =>
    simp only [cntL, cntV, List.map_cons, List.countP_cons, Lit.eval_n, List.length_cons] at ih ⊢
    cases σ v <;> simp only [Bool.not_true, Bool.not_false, if_true, if_false, Bool.false_eq_true] <;> omega

@[simp] theorem Clause.sat_nil (σ : Asg) : ¬ Clause.Sat σ [] := by simp [Clause.Sat]
@[simp] theorem Clause.sat_cons (σ : Asg) (l : Lit) (c : Clause) :
    Clause.Sat σ (l :: c) ↔ l.eval σ = true ∨ Clause.Sat σ c := by simp [Clause.Sat]

/-- The object the encoders write to.  Models the `EncodingResult` implementations,
src/datastructures/encoding_result.rs:97-106 and 164-180, together with the factory's
auxiliary counters (src/formulas/formula_factory.rs:1290-1312).  Simplified: a clause is
kept as the literal list passed to `add_clause`; the clause formula or solver clause made
from it has the same satisfying assignments. -/
structure ER where
  cnt : AuxTy → Nat
  clauses : List Clause

namespace ER

/-- A variable that exists already: named, or an auxiliary variable handed out before.
The reserved `TMP` placeholder never counts as existing. -/
def Old (s : ER) : Var → Prop
  | .named _ => True
  | .aux .tmp _ => False
  | .aux t n => n < s.cnt t

/-- `n` calls of `new_auxiliary_variable(ty)` in a row:
src/formulas/formula_factory.rs:1290-1312 (`fetch_add(1)` on the counter of the kind). -/
def newAuxs (ty : AuxTy) (n : Nat) (s : ER) : List Var × ER :=
  ((List.range n).map (fun i => Var.aux ty (s.cnt ty + i)),
   { s with cnt := fun t => if t = ty then s.cnt t + n else s.cnt t })

/-- A sequence of `add_clause` calls. -/
def addClauses (cs : List Clause) (s : ER) : ER := { s with clauses := s.clauses ++ cs }

/-- All clauses hold (specification). -/
def Sat (σ : Asg) (s : ER) : Prop := ∀ c ∈ s.clauses, Clause.Sat σ c

/-- All clauses are over existing variables. -/
def Wf (s : ER) : Prop := ∀ c ∈ s.clauses, ∀ l ∈ c, s.Old l.v

/-- Counters only grow, clauses are only appended. -/
def Le (s s' : ER) : Prop := (∀ t, s.cnt t ≤ s'.cnt t) ∧ s.clauses <+: s'.clauses

/-- Two assignments agree on everything that existed in `s`. -/
def Agree (s : ER) (σ σ' : Asg) : Prop := ∀ v, s.Old v → σ v = σ' v

/-- **Specification of an encoding.**  Going from `s` to `s'` added clauses (possibly over
new auxiliary variables) which say exactly `C` about the variables existing in `s`: an
assignment can be changed on new variables only to satisfy `s'` iff it satisfies `s` and
has property `C`. -/
structure Encodes (s s' : ER) (C : Asg → Prop) : Prop where
  le : Le s s'
  wf : Wf s'
  iff : ∀ σ, (∃ σ', Agree s σ σ' ∧ Sat σ' s') ↔ (Sat σ s ∧ C σ)

theorem Le.refl (s : ER) : Le s s := ⟨fun _ => Nat.le_refl _, List.prefix_rfl⟩
theorem Le.trans {a b c : ER} (h : Le a b) (h' : Le b c) : Le a c :=
  ⟨fun t => Nat.le_trans (h.1 t) (h'.1 t), h.2.trans h'.2⟩

theorem Le.old {s s' : ER} (h : Le s s') {v : Var} (hv : s.Old v) : s'.Old v := by
  cases v with
  | named n => trivial
  | aux t n =>
    cases t <;> simp only [Old] at hv ⊢ <;> first | exact Nat.lt_of_lt_of_le hv (h.1 _) | exact hv

theorem Le.sat {s s' : ER} (h : Le s s') {σ} (hs : Sat σ s') : Sat σ s :=
  fun c hc => hs c (h.2.subset hc)

theorem Agree.refl (s : ER) (σ) : Agree s σ σ := fun _ _ => rfl
theorem Agree.symm {s : ER} {σ σ'} (h : Agree s σ σ') : Agree s σ' σ := fun v hv => (h v hv).symm
theorem Agree.trans {s s' : ER} {σ σ' σ''} (hle : Le s s') (h : Agree s σ σ') (h' : Agree s' σ' σ'') :
    Agree s σ σ'' := fun v hv => (h v hv).trans (h' v (hle.old hv))

theorem Agree.lit {s : ER} {σ σ'} (h : Agree s σ σ') {l : Lit} (hl : s.Old l.v) : l.eval σ = l.eval σ' := by
  simp [Lit.eval, h _ hl]

theorem Agree.clause {s : ER} {σ σ'} (h : Agree s σ σ') {c : Clause} (hc : ∀ l ∈ c, s.Old l.v) :
    Clause.Sat σ c ↔ Clause.Sat σ' c := by
  constructor <;> rintro ⟨l, hl, he⟩ <;> refine ⟨l, hl, ?_⟩
  · rw [← h.lit (hc l hl)]; exact he
  · rw [h.lit (hc l hl)]; exact he

theorem Agree.sat {s : ER} {σ σ'} (h : Agree s σ σ') (hw : Wf s) : Sat σ s ↔ Sat σ' s := by
  constructor <;> intro hs c hc
  · exact (h.clause (hw c hc)).1 (hs c hc)
  · exact (h.clause (hw c hc)).2 (hs c hc)

theorem Agree.cntL {s : ER} {σ σ'} (h : Agree s σ σ') {ls : List Lit} (hl : ∀ l ∈ ls, s.Old l.v) :
    cntL σ ls = cntL σ' ls := by
  unfold Verif.cntL
  refine List.countP_congr ?_
  intro l hm; rw [h.lit (hl l hm)]

theorem Agree.cntV {s : ER} {σ σ'} (h : Agree s σ σ') {vs : List Var} (hl : ∀ v ∈ vs, s.Old v) :
    cntV σ vs = cntV σ' vs := by
  unfold Verif.cntV
  refine List.countP_congr ?_
  intro l hm; rw [h _ (hl l hm)]

/-- Convenient way to establish `Encodes`. -/
theorem Encodes.mk' {s s' : ER} {C : Asg → Prop} (hle : Le s s') (hw : Wf s) (hwf : Wf s')
    (hC : ∀ σ σ', Agree s σ σ' → C σ → C σ')
    (sound : ∀ σ, Sat σ s' → C σ)
    (compl : ∀ σ, Sat σ s → C σ → ∃ σ', Agree s σ σ' ∧ Sat σ' s') : Encodes s s' C where
  le := hle
  wf := hwf
  iff σ := by
    constructor
    · rintro ⟨σ', ha, hs⟩
      exact ⟨(ha.sat hw).2 (hle.sat hs), hC _ _ ha.symm (sound σ' hs)⟩
    · rintro ⟨h1, h2⟩; exact compl σ h1 h2

theorem Encodes.sound {s s' : ER} {C} (h : Encodes s s' C) {σ} (hs : Sat σ s') : C σ :=
  ((h.iff σ).1 ⟨σ, Agree.refl _ _, hs⟩).2

theorem Encodes.compl {s s' : ER} {C} (h : Encodes s s' C) {σ} (hs : Sat σ s) (hc : C σ) :
    ∃ σ', Agree s σ σ' ∧ Sat σ' s' := (h.iff σ).2 ⟨hs, hc⟩

theorem Encodes.congr {s s' : ER} {C D} (h : Encodes s s' C) (hCD : ∀ σ, C σ ↔ D σ) : Encodes s s' D where
  le := h.le
  wf := h.wf
  iff σ := by rw [h.iff σ, hCD]

/-- Sequential composition. -/
theorem Encodes.trans {s s1 s2 : ER} {C D} (h : Encodes s s1 C) (h' : Encodes s1 s2 D)
    (hD : ∀ σ σ', Agree s σ σ' → D σ → D σ') : Encodes s s2 (fun σ => C σ ∧ D σ) where
  le := h.le.trans h'.le
  wf := h'.wf
  iff σ := by
    constructor
    · rintro ⟨σ', ha, hs⟩
      have h1 : Sat σ' s1 := h'.le.sat hs
      have := (h.iff σ).1 ⟨σ', ha, h1⟩
      exact ⟨this.1, this.2, hD _ _ ha.symm (h'.sound hs)⟩
    · rintro ⟨h1, h2, h3⟩
      obtain ⟨σ1, ha, hs1⟩ := h.compl h1 h2
      obtain ⟨σ2, ha2, hs2⟩ := h'.compl hs1 (hD _ _ ha h3)
      exact ⟨σ2, ha.trans h.le ha2, hs2⟩

theorem Encodes.id {s : ER} (hw : Wf s) : Encodes s s (fun _ => True) :=
  Encodes.mk' (Le.refl s) hw hw (fun _ _ _ _ => trivial) (fun _ _ => trivial)
    (fun σ h _ => ⟨σ, Agree.refl _ _, h⟩)

@[simp] theorem addClauses_cnt (cs) (s : ER) : (addClauses cs s).cnt = s.cnt := rfl

theorem addClauses_le (cs) (s : ER) : Le s (addClauses cs s) :=
  ⟨fun _ => Nat.le_refl _, List.prefix_append _ _⟩

@[simp] theorem addClauses_old (cs) (s : ER) (v) : (addClauses cs s).Old v ↔ s.Old v := by
  cases v with
  | named n => simp [Old]
  | aux t n => cases t <;> simp [Old]

theorem addClauses_sat {cs} {s : ER} {σ} :
    Sat σ (addClauses cs s) ↔ Sat σ s ∧ ∀ c ∈ cs, Clause.Sat σ c := by
  simp [Sat, addClauses, or_imp, forall_and]

theorem addClauses_wf {cs} {s : ER} (hw : Wf s) (hc : ∀ c ∈ cs, ∀ l ∈ c, s.Old l.v) : Wf (addClauses cs s) := by
  intro c h l hl
  rw [addClauses_old]
  simp only [addClauses, List.mem_append] at h
  rcases h with h | h
  · exact hw c h l hl
  · exact hc c h l hl

theorem addClauses_agree {cs} {s : ER} {σ σ'} : Agree (addClauses cs s) σ σ' ↔ Agree s σ σ' := by
  simp [Agree]

/-- Adding clauses over existing variables encodes their conjunction. -/
theorem addClauses_encodes {cs} {s : ER} (hw : Wf s) (hc : ∀ c ∈ cs, ∀ l ∈ c, s.Old l.v) :
    Encodes s (addClauses cs s) (fun σ => ∀ c ∈ cs, Clause.Sat σ c) := by
  refine Encodes.mk' (addClauses_le _ _) hw (addClauses_wf hw hc) ?_ ?_ ?_
  · intro σ σ' ha h c hcc; exact (ha.clause (hc c hcc)).1 (h c hcc)
  · intro σ h; exact (addClauses_sat.1 h).2
  · intro σ h1 h2; exact ⟨σ, Agree.refl _ _, addClauses_sat.2 ⟨h1, h2⟩⟩

theorem newAuxs_le (ty n) (s : ER) : Le s (newAuxs ty n s).2 := by
  refine ⟨fun t => ?_, List.prefix_rfl⟩
  simp only [newAuxs]; split <;> omega

@[simp] theorem newAuxs_length (ty n) (s : ER) : (newAuxs ty n s).1.length = n := by simp [newAuxs]

@[simp] theorem newAuxs_sat {ty n} {s : ER} {σ} : Sat σ (newAuxs ty n s).2 ↔ Sat σ s := Iff.rfl

theorem newAuxs_wf {ty n} {s : ER} (hw : Wf s) : Wf (newAuxs ty n s).2 :=
  fun c hc l hl => (newAuxs_le ty n s).old (hw c hc l hl)

theorem newAuxs_old {ty n} {s : ER} (ht : ty ≠ .tmp) : ∀ v ∈ (newAuxs ty n s).1, (newAuxs ty n s).2.Old v := by
  intro v hv
  simp only [newAuxs, List.mem_map, List.mem_range] at hv
  obtain ⟨i, hi, rfl⟩ := hv
  cases ty <;> simp_all [Old, newAuxs]

theorem newAuxs_getElem {ty n} {s : ER} {i : Nat} (hi : i < (newAuxs ty n s).1.length) :
    (newAuxs ty n s).1[i] = Var.aux ty (s.cnt ty + i) := by simp [newAuxs]

theorem newAuxs_nodup {ty n} {s : ER} : (newAuxs ty n s).1.Nodup := by
  simp only [newAuxs, List.Nodup, List.pairwise_map]
  refine List.Pairwise.imp ?_ (List.nodup_range (n := n))
  intro a b h h'; simp at h'; exact h h'

theorem newAuxs_not_old {ty n} {s : ER} : ∀ v ∈ (newAuxs ty n s).1, ¬ s.Old v := by
  intro v hv
  simp only [newAuxs, List.mem_map, List.mem_range] at hv
  obtain ⟨i, hi, rfl⟩ := hv
  cases ty <;> simp [Old]

/-- New variables can be given any values without touching existing ones. -/
theorem newAuxs_ext (ty n) (s : ER) (b : Nat → Bool) (σ : Asg) :
    ∃ σ', Agree s σ σ' ∧ ∀ i (hi : i < (newAuxs ty n s).1.length), σ' ((newAuxs ty n s).1[i]) = b i := by
  refine ⟨fun v => match v with
    | .named k => σ (.named k)
    | .aux t k => if t = ty ∧ s.cnt ty ≤ k then b (k - s.cnt ty) else σ (.aux t k), ?_, ?_⟩
  · intro v hv
    cases v with
    | named n => rfl
    | aux t k =>
      by_cases h : t = ty ∧ s.cnt ty ≤ k
      · obtain ⟨rfl, hk⟩ := h
        cases t <;> simp [Old] at hv <;> omega
      · simp [h]
  · intro i hi
    rw [newAuxs_getElem]; simp

end ER

/-- `countP ≤ 1` as pairwise exclusion. -/
theorem countP_le_one_iff {α} (p : α → Bool) (l : List α) :
    l.countP p ≤ 1 ↔ l.Pairwise (fun a b => ¬ (p a = true ∧ p b = true)) := by
  induction l with
  | nil => simp
  | cons a l ih =>
    rw [List.countP_cons, List.pairwise_cons, ← ih]
    cases ha : p a
    · simp
    · simp only [if_true, true_and]
      constructor
      · intro h
        have h0 : l.countP p = 0 := by omega
        rw [List.countP_eq_zero] at h0
        exact ⟨fun b hb => h0 b hb, by omega⟩
      · rintro ⟨h, _⟩
        have : l.countP p = 0 := List.countP_eq_zero.2 h
        omega

end Verif
