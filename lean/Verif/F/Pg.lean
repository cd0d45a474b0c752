import Verif.F.Tseitin
/-
Model of src/operations/transformations/cnf/plaisted_greenbaum_on_formula.rs, and its correctness.
-/
namespace Verif
open ER

/-- `pg_variable`, plaisted_greenbaum_on_formula.rs:68-78. -/
def pgVar (f : Formula) (st : TState) (w : World) : Lit × TState × World :=
  match f with
  | .lit l => (l, st, w)
  | f =>
    match st.varOf f with
    | some l => (l, st, w)
    | none => (w.newCnf.1.p, { st with varOf := mapPut st.varOf f w.newCnf.1.p }, w.newCnf.2)

/-- The literals of the operands, in order: plaisted_greenbaum_on_formula.rs:50-53, 59. -/
def pgVars : List Formula → TState → World → List Lit × TState × World
  | [], st, w => ([], st, w)
  | f :: fs, st, w =>
    let r := pgVar f st w
    let q := pgVars fs r.2.1 r.2.2
    (r.1 :: q.1, q.2.1, q.2.2)

/-- The defining clauses: plaisted_greenbaum_on_formula.rs:48-61. -/
def pgClauses (C : Canon) (o : Op) (x : Lit) (ls : List Lit) : Formula :=
  match o with
  | .conj => Formula.mkAnd C (ls.map fun l => Formula.mkClause C [x.neg, l])
  | .disj => Formula.mkClause C (x.neg :: ls)

/-- `compute_pos_polarity` on an n-ary node, plaisted_greenbaum_on_formula.rs:41-66. -/
def pgPos (C : Canon) (o : Op) (fs : List Formula) (st : TState) (w : World) : Formula × TState × World :=
  match st.formula (.nary o fs) with
  | some d => (d, st, w)
  | none =>
    let r := pgVar (.nary o fs) st w
    let q := pgVars fs r.2.1 r.2.2
    let d := pgClauses C o r.1 q.1
    (d, { q.2.1 with formula := mapPut q.2.1.formula (.nary o fs) d }, q.2.2)

mutual
/-- `compute_transformation`, plaisted_greenbaum_on_formula.rs:26-39. `none` is a panic. -/
def pgG (C : Canon) : Formula → TState → World → Option (Formula × TState × World)
  | .lit _, st, w => some (.tru, st, w)
  | .nary o fs, st, w =>
    let r := pgPos C o fs st w
    match pgGs C fs r.2.1 r.2.2 with
    | none => none
    | some (gs, st, w) => some (Formula.mkAnd C (r.1 :: gs), st, w)
  | .tru, _, _ => none
  | .fls, _, _ => none
  | .not _, _, _ => none
  | .impl _ _, _, _ => none
  | .equiv _ _, _, _ => none
  | .cc _, _, _ => none
  | .pbc _, _, _ => none
def pgGs (C : Canon) : List Formula → TState → World → Option (List Formula × TState × World)
  | [], st, w => some ([], st, w)
  | f :: fs, st, w =>
    match pgG C f st w with
    | none => none
    | some (g, st, w) =>
      match pgGs C fs st w with
      | none => none
      | some (gs, st, w) => some (g :: gs, st, w)
end

/-- `pg_on_formula`, plaisted_greenbaum_on_formula.rs:8-24. -/
def pgCnf (C : Canon) (cfg : FCfg) (bound : Nat) (f : Formula) (st : TState) (w : World) : Option (Formula × TState × World) :=
  match nnf C cfg f w with
  | none => none
  | some (g, w) =>
    if g.isCnfF then some (g, st, w)
    else if fnAtoms64.val g < bound then
      match factorizationCnf C cfg g w with
      | none => none
      | some (h, w) => some (h, st, w)
    else
      match pgG C g st w with
      | none => none
      | some (d, st, w) =>
        match st.varOf g with
        | none => none
        | some l => (d.restrict C (PAsg.ofLit l)).map fun h => (h, st, w)

/-! ### Correctness -/

/-- `l` is the literal of `f`. -/
def PgLit (st : TState) (f : Formula) (l : Lit) : Prop := f = .lit l ∨ (f.isLit = false ∧ st.varOf f = some l)

theorem PgLit.fun {st f l l'} (h : PgLit st f l) (h' : PgLit st f l') : l = l' := by
  rcases h with rfl | ⟨h1, h2⟩ <;> rcases h' with h' | ⟨h3, h4⟩
  · injection h'
  · simp [Formula.isLit] at h3
  · subst h'; simp [Formula.isLit] at h1
  · rw [h2] at h4; injection h4

/-- The variable map has only grown. -/
def TLe (st st' : TState) : Prop := ∀ f l, st.varOf f = some l → st'.varOf f = some l

theorem TLe.trans {a b c} (h : TLe a b) (h' : TLe b c) : TLe a c := fun f l e => h' f l (h f l e)
theorem PgLit.mono {st st' f l} (h : PgLit st f l) (hle : TLe st st') : PgLit st' f l := by
  rcases h with h | ⟨h1, h2⟩
  · exact .inl h
  · exact .inr ⟨h1, hle f l h2⟩

/-- The negated literals make the combination false. -/
def NegOp (S : Lit → Prop) (o : Op) (ls : List Lit) : Prop :=
  match o with
  | .conj => ∃ l ∈ ls, S l.neg
  | .disj => ∀ l ∈ ls, S l.neg

/-- `d` is the definition of an n-ary node. -/
structure PgDef (E : List Ent) (c : AuxTy → Nat) (st : TState) (o : Op) (fs : List Formula) (d : Formula) : Prop where
  def_ : ∃ x ls, PgLit st (.nary o fs) x ∧ List.Forall₂ (PgLit st) fs ls ∧
    (∀ σ, d.eval σ = true → x.eval σ = true → o.eval σ (ls.map .lit) = true) ∧
    ∀ S, LitCons S → SCd S d → NegOp S o ls → S x.neg
  compl : ∀ σ, EncOk E σ → d.eval σ = true
  shape : IsCnf d
  norm : d.Norm
  old : ∀ v, Occ v d → (cER c).Old v
  aux : ∀ v, Occ v d → Occ v (.nary o fs) ∨ ∃ t k, v = .aux t k

theorem PgDef.mono {E c E' c' st st' o fs d} (h : PgDef E c st o fs d) (hx : GExt c E c' E') (hle : TLe st st') : PgDef E' c' st' o fs d := by
  obtain ⟨⟨x, ls, h1, h2, h3⟩, h4, h5, h6, h7, h8⟩ := h
  exact ⟨⟨x, ls, h1.mono hle, h2.imp fun _ _ h => h.mono hle, h3⟩, fun σ ho => h4 σ (hx.ok ho), h5, h6, fun v hv => hx.old (h7 v hv), h8⟩

structure PgInv (E : List Ent) (c : AuxTy → Nat) (st : TState) : Prop where
  var : ∀ φ l, st.varOf φ = some l → φ.isLit = false ∧ VOk E c φ l
  def_ : ∀ φ d, st.formula φ = some d → ∃ o fs, φ = .nary o fs ∧ PgDef E c st o fs d

theorem PgInv.mono {E c E' c' st} (h : PgInv E c st) (hx : GExt c E c' E') : PgInv E' c' st :=
  ⟨fun φ l e => ⟨(h.var φ l e).1, (h.var φ l e).2.mono hx⟩, fun φ d e => by
    obtain ⟨o, fs, e1, h1⟩ := h.def_ φ d e
    exact ⟨o, fs, e1, h1.mono hx fun _ _ e => e⟩⟩

theorem PgInv.empty (E c) : PgInv E c TState.empty := ⟨fun _ _ e => (nomatch e), fun _ _ e => (nomatch e)⟩

theorem PgInv.lit {E c st f l} (h : PgInv E c st) (hl : PgLit st f l) (ho : ∀ v, Occ v f → (cER c).Old v) : VOk E c f l := by
  rcases hl with rfl | ⟨_, e⟩
  · exact ⟨fun σ _ => by simp, ho _ (by simp), ho, .inl rfl, .inl (by simp)⟩
  · exact (h.var f l e).2

/-- Outcome of a step on the PG state. -/
structure PgStep (c0 : AuxTy → Nat) (w : World) (E : List Ent) (st st' : TState) (w' : World) (E' : List Ent) : Prop where
  inv : WInv c0 w' E'
  ext : GExt w.cnt E w'.cnt E'
  pg : PgInv E' w'.cnt st'
  le : TLe st st'

theorem PgStep.refl {c0 w E st} (h : WInv c0 w E) (hi : PgInv E w.cnt st) : PgStep c0 w E st st w E :=
  ⟨h, GExt.refl _ _, hi, fun _ _ e => e⟩
theorem PgStep.trans {c0 w E st st' w' E' st'' w'' E''} (h : PgStep c0 w E st st' w' E') (k : PgStep c0 w' E' st' st'' w'' E'') :
    PgStep c0 w E st st'' w'' E'' := ⟨k.inv, h.ext.trans k.ext, k.pg, h.le.trans k.le⟩

theorem pgVar_ok {c0 w E st} (h : WInv c0 w E) (hi : PgInv E w.cnt st) {f : Formula} (ho : ∀ v, Occ v f → (cER w.cnt).Old v) :
    ∃ l st' w' E', pgVar f st w = (l, st', w') ∧ PgStep c0 w E st st' w' E' ∧ PgLit st' f l ∧ st'.formula = st.formula := by
  cases hl : f.isLit with
  | true =>
    cases f <;> simp [Formula.isLit] at hl
    rename_i l
    exact ⟨l, st, w, E, rfl, PgStep.refl h hi, .inl rfl, rfl⟩
  | false =>
    have e : pgVar f st w = match st.varOf f with
        | some l => (l, st, w)
        | none => (w.newCnf.1.p, { st with varOf := mapPut st.varOf f w.newCnf.1.p }, w.newCnf.2) := by
      cases f <;> simp [Formula.isLit] at hl <;> rfl
    cases hv : st.varOf f with
    | some l => exact ⟨l, st, w, E, by rw [e, hv], PgStep.refl h hi, .inr ⟨hl, hv⟩, rfl⟩
    | none =>
      obtain ⟨E', h1, x1, v1, _⟩ := newCnf_ok h ho
      have hle : TLe st { st with varOf := mapPut st.varOf f w.newCnf.1.p } := by
        intro g l e'
        simp only [mapPut]
        split
        · rename_i hg; subst hg; rw [hv] at e'; cases e'
        · exact e'
      refine ⟨_, { st with varOf := mapPut st.varOf f w.newCnf.1.p }, w.newCnf.2, E', by rw [e, hv], ⟨h1, x1, ⟨fun φ l e' => ?_, fun φ d e' => ?_⟩, hle⟩, .inr ⟨hl, by simp [mapPut]⟩, rfl⟩
      · simp only [mapPut] at e'
        split at e'
        · rename_i hg; subst hg; injection e' with e'; subst e'; exact ⟨hl, v1⟩
        · exact ⟨(hi.var φ l e').1, (hi.var φ l e').2.mono x1⟩
      · obtain ⟨o, fs, e1, k⟩ := hi.def_ φ d e'
        exact ⟨o, fs, e1, k.mono x1 hle⟩

theorem pgVars_ok {c0} (fs : List Formula) : ∀ {w E st}, WInv c0 w E → PgInv E w.cnt st → (∀ f ∈ fs, ∀ v, Occ v f → (cER w.cnt).Old v) →
    ∃ ls st' w' E', pgVars fs st w = (ls, st', w') ∧ PgStep c0 w E st st' w' E' ∧ List.Forall₂ (PgLit st') fs ls ∧ st'.formula = st.formula := by
  induction fs with
  | nil => intro w E st h hi _; exact ⟨[], st, w, E, rfl, PgStep.refl h hi, .nil, rfl⟩
  | cons f fs ih =>
    intro w E st h hi ho
    obtain ⟨l, s1, w1, E1, e1, p1, l1, f1⟩ := pgVar_ok h hi (ho f (by simp))
    obtain ⟨ls, s2, w2, E2, e2, p2, l2, f2⟩ := ih p1.inv p1.pg (fun g hg v hv => p1.ext.old (ho g (by simp [hg]) v hv))
    exact ⟨l :: ls, s2, w2, E2, by simp only [pgVars, e1, e2], p1.trans p2, .cons (l1.mono p2.le) l2, f2.trans f1⟩

theorem isCl_mkClause (C : Canon) (c : Clause) : IsCl .disj (Formula.mkClause C c) :=
  isCl_mkNary C fun f hf => by obtain ⟨l, _, rfl⟩ := List.mem_map.1 hf; exact .lit l

theorem occ_mkClause {C : Canon} {v} {c : Clause} (h : Occ v (Formula.mkClause C c)) : ∃ l ∈ c, l.v = v := by
  obtain ⟨f, hf, hv⟩ := Formula.occ_mkNary h
  obtain ⟨l, hl, rfl⟩ := List.mem_map.1 hf
  exact ⟨l, hl, by simpa using hv⟩

theorem pgClauses_eval (C : Canon) (o : Op) (x : Lit) (ls : List Lit) (σ : Asg) :
    (pgClauses C o x ls).eval σ = true ↔ (x.eval σ = true → o.eval σ (ls.map .lit) = true) := by
  cases o with
  | conj =>
    simp only [pgClauses, Formula.eval_mkAnd, List.all_map, List.all_eq_true, Op.eval, Function.comp_def]
    constructor
    · intro h hx l hl
      have := (Formula.eval_mkClause C σ _).1 (h l hl)
      simpa [hx] using this
    · intro h l hl
      refine (Formula.eval_mkClause C σ _).2 ?_
      cases hx : x.eval σ with
      | true => have := h hx l hl; simp at this; simp [this]
      | false => simp [hx]
  | disj =>
    simp only [pgClauses, Formula.eval_mkClause, Clause.sat_cons, Lit.eval_neg, Op.eval, List.any_map, List.any_eq_true, Function.comp_def]
    cases hx : x.eval σ with
    | true => simp [Clause.Sat]
    | false => simp

theorem pgClauses_shape (C : Canon) (o : Op) (x : Lit) (ls : List Lit) :
    IsCnf (pgClauses C o x ls) ∧ (pgClauses C o x ls).Norm ∧ ∀ v, Occ v (pgClauses C o x ls) → v = x.v ∨ ∃ l ∈ ls, l.v = v := by
  cases o with
  | conj =>
    refine ⟨isNf_conj.1 (isNf_mkNary C _ fun f hf => ?_), Formula.norm_mkNary C _ fun f hf => ?_, fun v hv => ?_⟩
    · obtain ⟨l, _, rfl⟩ := List.mem_map.1 hf; exact .cl (isCl_mkClause C _)
    · obtain ⟨l, _, rfl⟩ := List.mem_map.1 hf; exact Formula.norm_mkClause C _
    · obtain ⟨f, hf, hv⟩ := Formula.occ_mkNary hv
      obtain ⟨l, hl, rfl⟩ := List.mem_map.1 hf
      obtain ⟨k, hk, rfl⟩ := occ_mkClause hv
      simp at hk
      rcases hk with rfl | rfl
      · exact .inl rfl
      · exact .inr ⟨_, hl, rfl⟩
  | disj =>
    refine ⟨isNf_conj.1 (.cl (isCl_mkClause C _)), Formula.norm_mkClause C _, fun v hv => ?_⟩
    obtain ⟨k, hk, rfl⟩ := occ_mkClause hv
    simp at hk
    rcases hk with rfl | hk
    · exact .inl rfl
    · exact .inr ⟨_, hk, rfl⟩

/-- Propagation from the literals of the operands to the literal of the node. -/
theorem pgClauses_up {C : Canon} {o : Op} {x : Lit} {ls : List Lit} {S : Lit → Prop} (hS : LitCons S) (h : SCd S (pgClauses C o x ls))
    (hn : NegOp S o ls) : S x.neg := by
  cases o with
  | conj =>
    obtain ⟨l, hl, hn⟩ := hn
    refine (SCd.op hS h (List.mem_map.2 ⟨l, hl, rfl⟩)).clause (isCl_mkClause C _) _ fun τ hτ hc => ?_
    have := hτ _ hn
    obtain ⟨k, hk, hc2⟩ := (Formula.eval_mkClause C τ _).1 hc
    simp at hk
    rcases hk with rfl | rfl
    · exact hc2
    · rw [Lit.eval_neg, hc2] at this; exact absurd this (by simp)
  | disj =>
    refine SCd.clause h (isCl_mkClause C _) _ fun τ hτ hc => ?_
    obtain ⟨k, hk, hc2⟩ := (Formula.eval_mkClause C τ _).1 hc
    simp only [List.mem_cons] at hk
    rcases hk with rfl | hk
    · exact hc2
    · have := hτ _ (hn k hk)
      rw [Lit.eval_neg, hc2] at this; exact absurd this (by simp)

theorem forall2_eval {σ : Asg} {fs : List Formula} {ls : List Lit} (o : Op)
    (h : List.Forall₂ (fun f l => Lit.eval σ l = Formula.eval σ f) fs ls) : o.eval σ (ls.map .lit) = o.eval σ fs := by
  induction h with
  | nil => rfl
  | cons h _ ih => rw [List.map_cons, Op.eval_cons, Op.eval_cons, ih]; simp [h]

theorem pgPos_ok {C : Canon} {c0 w E st o fs} (h : WInv c0 w E) (hi : PgInv E w.cnt st) (ho : ∀ v, Occ v (.nary o fs) → (cER w.cnt).Old v) :
    ∃ d st' w' E', pgPos C o fs st w = (d, st', w') ∧ PgStep c0 w E st st' w' E' ∧ PgDef E' w'.cnt st' o fs d := by
  unfold pgPos
  cases hs : st.formula (.nary o fs) with
  | some d =>
    obtain ⟨o', fs', e, k⟩ := hi.def_ _ d hs
    injection e with e1 e2; subst e1; subst e2
    exact ⟨d, st, w, E, rfl, PgStep.refl h hi, k⟩
  | none =>
    obtain ⟨x, s1, w1, E1, e1, p1, l1, f1⟩ := pgVar_ok h hi ho
    have hof : ∀ f ∈ fs, ∀ v, Occ v f → (cER w1.cnt).Old v := fun f hf v hv => p1.ext.old (ho v ((Formula.occ_nary ..).2 ⟨f, hf, hv⟩))
    obtain ⟨ls, s2, w2, E2, e2, p2, l2, f2⟩ := pgVars_ok fs p1.inv p1.pg hof
    simp only [e1, e2]
    have hx := p2.pg.lit (l1.mono p2.le) fun v hv => p2.ext.old (p1.ext.old (ho v hv))
    have hl : ∀ l ∈ ls, ∃ f ∈ fs, VOk E2 w2.cnt f l := fun l hl => by
      obtain ⟨f, hf, k⟩ := forall2_right l2 hl
      exact ⟨f, hf, p2.pg.lit k fun v hv => p2.ext.old (hof f hf v hv)⟩
    obtain ⟨k1, k2, k3⟩ := pgClauses_shape C o x ls
    have hle : TLe s2 { s2 with formula := mapPut s2.formula (.nary o fs) (pgClauses C o x ls) } := fun _ _ e => e
    have hlt : ∀ {f l}, PgLit s2 f l → PgLit { s2 with formula := mapPut s2.formula (.nary o fs) (pgClauses C o x ls) } f l := fun h => h
    have hd : PgDef E2 w2.cnt { s2 with formula := mapPut s2.formula (.nary o fs) (pgClauses C o x ls) } o fs (pgClauses C o x ls) := by
      refine ⟨⟨x, ls, l1.mono p2.le, l2.imp fun _ _ h => hlt h, fun σ hs hxs => (pgClauses_eval C o x ls σ).1 hs hxs, fun S hS hd hn => pgClauses_up hS hd hn⟩, fun σ hok => ?_, k1, k2, fun v hv => ?_, fun v hv => ?_⟩
      rotate_right
      · rcases k3 v hv with rfl | ⟨l, hl', rfl⟩
        · exact hx.aux
        · obtain ⟨f, hf, k⟩ := hl l hl'; exact k.aux.imp_left fun h => (Formula.occ_nary ..).2 ⟨f, hf, h⟩
      · refine (pgClauses_eval C o x ls σ).2 fun hxs => ?_
        rw [hx.val σ hok, Formula.eval_nary] at hxs
        rw [forall2_eval o, hxs]
        have hv : ∀ f ∈ fs, ∀ l, PgLit s2 f l → Lit.eval σ l = Formula.eval σ f := fun f hf l k =>
          (p2.pg.lit k fun v hv => p2.ext.old (hof f hf v hv)).val σ hok
        clear hxs hl k1 k2 k3 hle hlt e2 hof ho hx l1 e1 hs
        induction l2 with
        | nil => exact .nil
        | cons h _ ih => exact .cons (hv _ (by simp) _ h) (ih fun f hf => hv f (by simp [hf]))
      · rcases k3 v hv with rfl | ⟨l, hl', rfl⟩
        · exact hx.old
        · obtain ⟨f, _, k⟩ := hl l hl'; exact k.old
    refine ⟨_, _, w2, E2, rfl, ⟨p2.inv, p1.ext.trans p2.ext, ⟨p2.pg.var, fun φ d e => ?_⟩, p1.le.trans p2.le⟩, hd⟩
    simp only [mapPut] at e
    split at e
    · rename_i hg; subst hg; injection e with e; subst e; exact ⟨o, fs, rfl, hd⟩
    · obtain ⟨o', fs', e', k⟩ := p2.pg.def_ φ d e
      exact ⟨o', fs', e', k.mono (GExt.refl _ _) hle⟩

/-- `d` forces the formula from its literal. -/
structure PgImp (E : List Ent) (c : AuxTy → Nat) (st : TState) (f d : Formula) : Prop where
  lit : ∃ l, PgLit st f l ∧ (∀ σ, d.eval σ = true → l.eval σ = true → f.eval σ = true) ∧
    ∀ S σ, LitCons S → SCd S d → Sets S f σ → f.eval σ = false → S l.neg
  compl : ∀ σ, EncOk E σ → d.eval σ = true
  shape : IsCnf d
  norm : d.Norm
  old : ∀ v, Occ v d → (cER c).Old v
  aux : ∀ v, Occ v d → Occ v f ∨ ∃ t k, v = .aux t k

theorem PgImp.mono {E c E' c' st st' f d} (h : PgImp E c st f d) (hx : GExt c E c' E') (hle : TLe st st') : PgImp E' c' st' f d := by
  obtain ⟨⟨l, h1, h2⟩, h4, h5, h6, h7, h8⟩ := h
  exact ⟨⟨l, h1.mono hle, h2⟩, fun σ ho => h4 σ (hx.ok ho), h5, h6, fun v hv => hx.old (h7 v hv), h8⟩

theorem pgG_ok {C : Canon} {c0} (f : Formula) : ∀ {w E st}, WInv c0 w E → PgInv E w.cnt st → (∀ g, Sub g f → TNode g) →
    (∀ v, Occ v f → (cER w.cnt).Old v) →
    ∃ d st' w' E', pgG C f st w = some (d, st', w') ∧ PgStep c0 w E st st' w' E' ∧ PgImp E' w'.cnt st' f d := by
  have notNode : ∀ f : Formula, (∀ g, Sub g f → TNode g) → f.isLit = true ∨ ∃ o gs, f = .nary o gs := fun f h => h f (.refl f)
  induction f using Formula.ind with
  | lit l =>
    intro w E st h hi _ ho
    refine ⟨.tru, st, w, E, by simp [pgG], PgStep.refl h hi, ⟨⟨l, .inl rfl, fun σ _ hl => by simpa using hl, fun S σ hS _ hσ hf => ?_⟩, fun σ _ => by simp, .clause .tru, .tru, by simp, by simp⟩⟩
    have := lit_sets (hσ l.v (by simp))
    rw [Formula.eval_lit] at hf
    rwa [hf] at this
  | nary o fs ih =>
    intro w E st h hi hn ho
    obtain ⟨d, s1, w1, E1, e1, p1, d1⟩ := pgPos_ok (C := C) h hi ho
    have hlist : ∀ fs : List Formula, (∀ f ∈ fs, ∀ {w E st}, WInv c0 w E → PgInv E w.cnt st → (∀ g, Sub g f → TNode g) →
        (∀ v, Occ v f → (cER w.cnt).Old v) →
        ∃ d st' w' E', pgG C f st w = some (d, st', w') ∧ PgStep c0 w E st st' w' E' ∧ PgImp E' w'.cnt st' f d) →
        (∀ f ∈ fs, ∀ g, Sub g f → TNode g) → ∀ {w E st}, WInv c0 w E → PgInv E w.cnt st → (∀ f ∈ fs, ∀ v, Occ v f → (cER w.cnt).Old v) →
        ∃ gs st' w' E', pgGs C fs st w = some (gs, st', w') ∧ PgStep c0 w E st st' w' E' ∧ List.Forall₂ (PgImp E' w'.cnt st') fs gs := by
      intro fs
      induction fs with
      | nil => intro _ _ w E st h hi _; exact ⟨[], st, w, E, by simp [pgGs], PgStep.refl h hi, .nil⟩
      | cons f fs ihl =>
        intro ih hn w E st h hi ho
        obtain ⟨d, s1, w1, E1, e1, p1, k1⟩ := ih f (by simp) h hi (hn f (by simp)) (ho f (by simp))
        obtain ⟨gs, s2, w2, E2, e2, p2, k2⟩ := ihl (fun f hf => ih f (by simp [hf])) (fun f hf => hn f (by simp [hf])) p1.inv p1.pg
          (fun f hf v hv => p1.ext.old (ho f (by simp [hf]) v hv))
        exact ⟨d :: gs, s2, w2, E2, by simp only [pgGs, e1, e2], p1.trans p2, .cons (k1.mono p2.ext p2.le) k2⟩
    obtain ⟨gs, s2, w2, E2, e2, p2, k2⟩ := hlist fs (fun f hf => ih f hf) (fun f hf g hg => hn g (hg.trans (op_sub (by simpa [Formula.operands] using hf))))
      p1.inv p1.pg (fun f hf v hv => p1.ext.old (ho v ((Formula.occ_nary ..).2 ⟨f, hf, hv⟩)))
    have d2 := d1.mono p2.ext p2.le
    refine ⟨Formula.mkAnd C (d :: gs), s2, w2, E2, by simp only [pgG, e1, e2], p1.trans p2, ⟨?_, fun σ ho => ?_, ?_, Formula.norm_mkNary C _ ?_, fun v hv => ?_, fun v hv => ?_⟩⟩
    rotate_right
    · obtain ⟨g, hg, hv'⟩ := Formula.occ_mkNary hv
      rcases List.mem_cons.1 hg with e | hg
      · exact d2.aux v (e ▸ hv')
      · obtain ⟨f, hf, k⟩ := forall2_right k2 hg
        exact (k.aux v hv').imp_left fun h => (Formula.occ_nary ..).2 ⟨f, hf, h⟩
    · obtain ⟨x, ls, l1, l2, l3, l4⟩ := d2.def_
      refine ⟨x, l1, fun σ hs hx => ?_, fun S σ hS hd hσ hf => l4 S hS (hd.op hS (by simp)) ?_⟩
      rotate_left
      · have key : ∀ f ∈ fs, f.eval σ = false → ∀ l, PgLit s2 f l → S l.neg := by
          intro f hf' hv l hl
          obtain ⟨g, hg, k⟩ := forall2_left k2 hf'
          obtain ⟨l', hl', _, hu⟩ := k.lit
          rw [hl.fun hl']
          exact hu S σ hS (hd.op hS (by simp [hg])) (fun v hv => hσ v ((Formula.occ_nary ..).2 ⟨f, hf', hv⟩)) hv
        rw [Formula.eval_nary] at hf
        cases o with
        | conj =>
          rw [Op.eval, List.all_eq_false] at hf
          obtain ⟨f, hf', hv⟩ := hf
          obtain ⟨l, hl, hk⟩ := forall2_left l2 hf'
          exact ⟨l, hl, key f hf' (by simpa using hv) l hk⟩
        | disj =>
          rw [Op.eval, List.any_eq_false] at hf
          intro l hl
          obtain ⟨f, hf', hk⟩ := forall2_right l2 hl
          exact key f hf' (by simpa using hf f hf') l hk
      rw [Formula.eval_mkAnd, List.all_eq_true] at hs
      have hd := l3 σ (hs d (by simp)) hx
      rw [Formula.eval_nary]
      have hgs : ∀ g ∈ gs, g.eval σ = true := fun g hg => hs g (by simp [hg])
      clear hs l1 l3 l4 d2 hx e2 hlist ih hn ho e1 d1
      cases o with
      | conj =>
        simp only [Op.eval, List.all_map, List.all_eq_true, Function.comp_def] at hd ⊢
        intro f hf
        obtain ⟨g, hg, k⟩ := forall2_left k2 hf
        obtain ⟨l, hl, hk, _⟩ := k.lit
        obtain ⟨l', hl', hk'⟩ := forall2_left l2 hf
        have := hk'.fun hl
        subst this
        exact hk σ (hgs g hg) (by simpa using hd _ hl')
      | disj =>
        simp only [Op.eval, List.any_map, List.any_eq_true, Function.comp_def] at hd ⊢
        obtain ⟨l, hl, hd⟩ := hd
        obtain ⟨f, hf, hk⟩ := forall2_right l2 hl
        obtain ⟨g, hg, k⟩ := forall2_left k2 hf
        obtain ⟨l', hl', hk', _⟩ := k.lit
        have := hk.fun hl'
        subst this
        exact ⟨f, hf, hk' σ (hgs g hg) (by simpa using hd)⟩
    · rw [Formula.eval_mkAnd, List.all_eq_true]
      intro g hg
      rcases List.mem_cons.1 hg with rfl | hg
      · exact d2.compl σ ho
      · obtain ⟨f, _, k⟩ := forall2_right k2 hg; exact k.compl σ ho
    · refine isNf_conj.1 (isNf_mkNary C _ fun g hg => isNf_conj.2 ?_)
      rcases List.mem_cons.1 hg with rfl | hg
      · exact d2.shape
      · obtain ⟨f, _, k⟩ := forall2_right k2 hg; exact k.shape
    · intro g hg
      rcases List.mem_cons.1 hg with rfl | hg
      · exact d2.norm
      · obtain ⟨f, _, k⟩ := forall2_right k2 hg; exact k.norm
    · obtain ⟨g, hg, hv'⟩ := Formula.occ_mkNary hv
      rcases List.mem_cons.1 hg with e | hg
      · exact d2.old v (e ▸ hv')
      · obtain ⟨f, _, k⟩ := forall2_right k2 hg; exact k.old v hv'
  | _ => intro w E st h hi hn _; rcases notNode _ hn with h | ⟨_, _, h⟩ <;> simp [Formula.isLit] at h

/-- `pg_on_formula`. -/
theorem pgCnf_ok {C : Canon} {cfg : FCfg} (hcfg : cfg.cc.Good) {c0 w E st} (h : WInv c0 w E) (hi : PgInv E w.cnt st) (bound : Nat)
    {f : Formula} (hp : PTop cfg w.cnt f) :
    ∃ g st' w' E', pgCnf C cfg bound f st w = some (g, st', w') ∧ WInv c0 w' E' ∧ GExt w.cnt E w'.cnt E' ∧ PgInv E' w'.cnt st' ∧
      TrI IsCnf E' w'.cnt ⟨fun σ => f.eval σ = true, False, (Occ · f)⟩ g ∧ (NoCon f → UpOk f g) := by
  obtain ⟨n, w1, E1, e1, h1, x1, k1⟩ := nnf_ok (C := C) hcfg h hp
  have hi1 := hi.mono x1
  unfold pgCnf
  simp only [e1]
  by_cases hc : n.isCnfF = true
  · simp only [hc, if_true]
    exact ⟨n, st, w1, E1, rfl, h1, x1, hi1, ⟨k1.sound, k1.compl, fun h => h.elim, fun h => h.elim, (isCnfF_iff k1.norm).1 hc, k1.norm, k1.old, k1.aux⟩, fun hp => (upOk_plain k1.sound (k1.vars hp)).1⟩
  · simp only [if_neg hc]
    by_cases hb : fnAtoms64.val n < bound
    · simp only [if_pos hb]
      obtain ⟨g, w2, E2, e2, h2, x2, k2⟩ := factorizationCnf_ok (C := C) hcfg h1 (f := n) ⟨k1.norm, isNnf_fit k1.shape, k1.old⟩
      have k := k1.trans x2 (fun _ => isNnf_noCon k1.shape) (fun hp v hv => k1.vars hp v hv) k1.aux k2
      simp only [e2]
      exact ⟨g, st, w2, E2, rfl, h2, x1.trans x2, hi1.mono x2, ⟨k.sound, k.compl, fun h => h.elim, fun h => h.elim, k.shape, k.norm, k.old, k.aux⟩, fun hp => (upOk_plain k.sound (k.vars hp)).1⟩
    · simp only [if_neg hb]
      have hnary : ∃ o fs, n = .nary o fs := by
        have hs := k1.shape
        cases hs with
        | nary h => exact ⟨_, _, rfl⟩
        | tru => exact absurd ((isCnfF_iff k1.norm).2 (.clause .tru)) hc
        | fls => exact absurd ((isCnfF_iff k1.norm).2 (.clause .fls)) hc
        | lit l => exact absurd ((isCnfF_iff k1.norm).2 (.clause (.lit l))) hc
      obtain ⟨d, st2, w2, E2, e2, p2, d2⟩ := pgG_ok (C := C) n h1 hi1 (tnode_sub k1.norm k1.shape hnary) k1.old
      have hnl : n.isLit = false := by obtain ⟨o, fs, rfl⟩ := hnary; rfl
      obtain ⟨l, hl, himp, hup⟩ := d2.lit
      have hv : st2.varOf n = some l := by
        rcases hl with e | ⟨_, e⟩
        · rw [e] at hnl; simp [Formula.isLit] at hnl
        · exact e
      have hvar := (p2.pg.var n l hv).2
      obtain ⟨hpos, hocc⟩ : l.pos = true ∧ ¬ Occ l.v n := by
        rcases hvar.new with e | h
        · rw [e] at hnl; simp [Formula.isLit] at hnl
        · exact h
      obtain ⟨g, hg, hr⟩ := restrict_ok C (PAsg.ofLit l) d2.norm (d2.shape.bounded (P := PBC.Bounded))
      have hover : ∀ σ v, (PAsg.ofLit l).over σ v = if v = l.v then true else σ v := by
        intro σ v; simp [PAsg.ofLit, hpos, PAsg.over]
      have hnev : ∀ σ, n.eval ((PAsg.ofLit l).over σ) = n.eval σ := fun σ => Formula.eval_congr fun v hv => by
        rw [hover, if_neg]; rintro rfl; exact hocc hv
      have hlev : ∀ σ, l.eval ((PAsg.ofLit l).over σ) = true := fun σ => by simp [Lit.eval, hpos, hover]
      refine ⟨g, st2, w2, E2, ?_, p2.inv, x1.trans p2.ext, p2.pg, ⟨fun σ hs => k1.sound σ ?_, fun σ ho ht => ?_, fun h => h.elim, fun h => h.elim, ?_, hr.norm, ?_, fun v hv => (d2.aux v (hr.occ v hv).2).elim (k1.aux v) .inr⟩, fun hpl S σ hS hg' hσ => ?_⟩
      · simp only [e2, hv, hg, Option.map_some]
      · rw [hr.eval] at hs
        rw [← hnev]
        exact himp _ hs (hlev σ)
      · rw [hr.eval]
        have hn := k1.compl σ (p2.ext.ok ho) ht
        have : (PAsg.ofLit l).over σ = σ := by
          funext v
          rw [hover]
          split
          · rename_i e; subst e
            have := hvar.val σ ho
            rw [hn] at this
            simpa [Lit.eval, hpos] using this.symm
          · rfl
        rw [this]
        exact d2.compl σ ho
      · exact isNf_conj.1 (isNf_restrict (isNf_conj.2 d2.shape) hg)
      · intro v hv; exact d2.old v (hr.occ v hv).2
      · obtain ⟨c1, c2⟩ := hg'.restrict hS d2.shape d2.norm hpos hg
        have hσ' : Sets (fun k => (S k ∧ k.v ≠ l.v) ∨ k = l) n σ := fun v hv => .inl ⟨hσ v (k1.vars hpl v hv), fun e => hocc (e ▸ hv)⟩
        refine k1.sound σ (Classical.byContradiction fun hn => ?_)
        exact c1 l (.inr rfl) (hup _ σ c1 c2 hσ' (Bool.eq_false_iff.2 hn))

end Verif
