import Verif.F.Factor2
import Verif.F.Propagate
/-
Model of src/operations/transformations/cnf/tseitin.rs and of the state shared with
plaisted_greenbaum_on_formula.rs, and the correctness of the Tseitin transformation.
-/
namespace Verif
open ER

/-- `TseitinState` and `PGState`, cnf/mod.rs:144-154. -/
structure TState where
  formula : Formula → Option Formula
  varOf : Formula → Option Lit

/-- `TseitinState::default()`. -/
def TState.empty : TState := ⟨fun _ => none, fun _ => none⟩

/-- `HashMap::insert`. -/
def mapPut {α : Type} (m : Formula → Option α) (f : Formula) (a : α) : Formula → Option α := fun g => if g = f then some a else m g

/-- `new_cnf_variable`, formula_factory.rs:1290-1312. -/
def World.newCnf (w : World) : Var × World :=
  (.aux .cnf (w.cnt .cnf), { w with cnt := fun t => if t = .cnf then w.cnt t + 1 else w.cnt t })

/-- The clauses of a Tseitin definition, tseitin.rs:47-61; `ls` are the operand literals. -/
def tsClauses (C : Canon) (o : Op) (x : Var) (ls : List Lit) : List Formula :=
  match o with
  | .conj => ls.map (fun l => Formula.mkOr C [.lit x.n, .lit l]) ++ [Formula.mkOr C (.lit x.p :: ls.map fun l => .lit l.neg)]
  | .disj => ls.map (fun l => Formula.mkOr C [.lit x.p, .lit l.neg]) ++ [Formula.mkOr C (.lit x.n :: ls.map fun l => .lit l)]

mutual
/-- `compute_tseitin`, tseitin.rs:32-69. `none` is a panic. -/
def tsG (C : Canon) : Formula → TState × World → Option (TState × World)
  | .lit l, (st, w) =>
    if (st.formula (.lit l)).isSome then some (st, w)
    else some (⟨mapPut st.formula (.lit l) (.lit l), mapPut st.varOf (.lit l) l⟩, w)
  | .nary o fs, (st, w) =>
    if (st.formula (.nary o fs)).isSome then some (st, w)
    else
      match tsOps C fs (st, w.newCnf.2) with
      | none => none
      | some (ds, ls, st, w') =>
        some (⟨mapPut st.formula (.nary o fs) (Formula.mkAnd C (ds ++ tsClauses C o w.newCnf.1 ls)),
          mapPut st.varOf (.nary o fs) w.newCnf.1.p⟩, w')
  | .tru, (st, w) => if (st.formula .tru).isSome then some (st, w) else none
  | .fls, (st, w) => if (st.formula .fls).isSome then some (st, w) else none
  | .not f, (st, w) => if (st.formula (.not f)).isSome then some (st, w) else none
  | .impl a b, (st, w) => if (st.formula (.impl a b)).isSome then some (st, w) else none
  | .equiv a b, (st, w) => if (st.formula (.equiv a b)).isSome then some (st, w) else none
  | .cc c, (st, w) => if (st.formula (.cc c)).isSome then some (st, w) else none
  | .pbc p, (st, w) => if (st.formula (.pbc p)).isSome then some (st, w) else none
/-- `handle_nary`, tseitin.rs:71-88: the formulas of the operands that are not literals, and the
literals standing for the operands. -/
def tsOps (C : Canon) : List Formula → TState × World → Option (List Formula × List Lit × TState × World)
  | [], (st, w) => some ([], [], st, w)
  | f :: fs, (st, w) =>
    match (if f.isLit then some (st, w) else tsG C f (st, w)) with
    | none => none
    | some (st, w) =>
      match (if f.isLit then some [] else (st.formula f).map fun d => [d]), st.varOf f with
      | some d, some l =>
        match tsOps C fs (st, w) with
        | none => none
        | some (ds, ls, st, w) => some (d ++ ds, l :: ls, st, w)
      | _, _ => none
end

/-- The loop tseitin.rs:22-24. -/
def tsAll (C : Canon) : List Formula → TState × World → Option (TState × World)
  | [], s => some s
  | f :: fs, s =>
    match tsG C f s with
    | none => none
    | some s => tsAll C fs s

mutual
/-- `restrict_lit`, restriction.rs:66-104. -/
def Formula.restrict1 (C : Canon) (l : Lit) : Formula → Option Formula
  | .lit k => some (if k.v ≠ l.v then .lit k else if k.pos = l.pos then .tru else .fls)
  | .equiv a b =>
    match Formula.restrict1 C l a, Formula.restrict1 C l b with
    | some a', some b' => some (mkEquiv C a' b')
    | _, _ => none
  | .impl a b =>
    match Formula.restrict1 C l a, Formula.restrict1 C l b with
    | some a', some b' => some (mkImpl C a' b')
    | _, _ => none
  | .nary o fs => (Formula.restricts1 C l fs).map (mkNary C o)
  | .not f => (Formula.restrict1 C l f).map mkNot
  | .tru => some .tru
  | .fls => some .fls
  | .pbc p => some (p.restrict (if l.pos then ⟨[l.v], []⟩ else ⟨[], [l.v]⟩))
  | .cc c => c.restrict (if l.pos then ⟨[l.v], []⟩ else ⟨[], [l.v]⟩)
def Formula.restricts1 (C : Canon) (l : Lit) : List Formula → Option (List Formula)
  | [] => some []
  | f :: fs =>
    match Formula.restrict1 C l f, Formula.restricts1 C l fs with
    | some g, some gs => some (g :: gs)
    | _, _ => none
end

/-- `Assignment::from_lit`. -/
def PAsg.ofLit (l : Lit) : PAsg := if l.pos then ⟨[l.v], []⟩ else ⟨[], [l.v]⟩

/-- `factorization_cnf`, cnf/factorization.rs:5-7. -/
def factorizationCnf (C : Canon) (cfg : FCfg) (f : Formula) (w : World) : Option (Formula × World) :=
  match factorize C cfg .conj f Lim.nop w with
  | some (some g, w, _) => some (g, w)
  | _ => none

/-- `tseitin_cnf_with_boundary`, tseitin.rs:10-29.  `sub_nodes` and `number_of_atoms` are taken
without their caches, which return the same (C52); the number of atoms wraps around as in a release build. -/
def tseitin (C : Canon) (cfg : FCfg) (bound : Nat) (f : Formula) (st : TState) (w : World) : Option (Formula × TState × World) :=
  match nnf C cfg f w with
  | none => none
  | some (g, w) =>
    if g.isCnfF then some (g, st, w)
    else if fnAtoms64.val g < bound then
      match factorizationCnf C cfg g w with
      | none => none
      | some (h, w) => some (h, st, w)
    else
      match tsAll C (fnSub.val g) (st, w) with
      | none => none
      | some (st, w) =>
        match st.formula g, st.varOf g with
        | some d, some l => (d.restrict1 C l).map fun h => (h, st, w)
        | _, _ => none

/-! ### Restriction by a literal -/

theorem restrict1_eq (C : Canon) (l : Lit) (f : Formula) : f.restrict1 C l = f.restrict C (PAsg.ofLit l) := by
  induction f using Formula.ind with
  | tru => simp [Formula.restrict1, Formula.restrict]
  | fls => simp [Formula.restrict1, Formula.restrict]
  | lit k =>
    simp only [Formula.restrict1, Formula.restrict, Option.some.injEq, PAsg.restrictLit, PAsg.ofLit]
    rcases k with ⟨v, p⟩
    rcases l with ⟨u, q⟩
    by_cases h : v = u
    · subst h; cases p <;> cases q <;> simp [Formula.const]
    · cases q <;> simp [h]
  | not f ih => simp only [Formula.restrict1, Formula.restrict, ih]
  | impl a b iha ihb =>
    simp only [Formula.restrict1, Formula.restrict, iha, ihb]
    rcases a.restrict C (PAsg.ofLit l) with _ | _ <;> rcases b.restrict C (PAsg.ofLit l) with _ | _ <;> rfl
  | equiv a b iha ihb =>
    simp only [Formula.restrict1, Formula.restrict, iha, ihb]
    rcases a.restrict C (PAsg.ofLit l) with _ | _ <;> rcases b.restrict C (PAsg.ofLit l) with _ | _ <;> rfl
  | nary o fs ih =>
    simp only [Formula.restrict1, Formula.restrict]
    congr 1
    induction fs with
    | nil => simp [Formula.restricts1, Formula.restricts]
    | cons f fs ihl =>
      simp only [Formula.restricts1, Formula.restricts]
      rw [ih f (by simp), ihl fun f hf => ih f (by simp [hf])]
      rcases f.restrict C (PAsg.ofLit l) with _ | _ <;> rcases Formula.restricts C (PAsg.ofLit l) fs with _ | _ <;> rfl
  | cc c => simp only [Formula.restrict1, Formula.restrict, PAsg.ofLit]
  | pbc p => simp only [Formula.restrict1, Formula.restrict, PAsg.ofLit]

theorem restricts_mem {C : Canon} {A : PAsg} {fs gs : List Formula} (e : Formula.restricts C A fs = some gs) :
    List.Forall₂ (fun f g => f.restrict C A = some g) fs gs := by
  induction fs generalizing gs with
  | nil => simp only [Formula.restricts, Option.some.injEq] at e; subst e; exact .nil
  | cons f fs ih =>
    simp only [Formula.restricts] at e
    split at e
    · rename_i g gs' e1 e2
      injection e with e; subst e
      exact .cons e1 (ih e2)
    · cases e

theorem isCl_restrict {C : Canon} {A : PAsg} {o f g} (h : IsCl o f) (e : f.restrict C A = some g) : IsCl o g := by
  have hlit : ∀ l g, (Formula.lit l).restrict C A = some g → IsCl o g := by
    intro l g e
    simp only [Formula.restrict, Option.some.injEq] at e
    subst e
    rcases A.restrictLit_cases l with ⟨h, _⟩ | ⟨h, _⟩ | ⟨h, _⟩ <;> rw [h] <;> constructor
  cases h with
  | tru => simp only [Formula.restrict, Option.some.injEq] at e; subst e; exact .tru
  | fls => simp only [Formula.restrict, Option.some.injEq] at e; subst e; exact .fls
  | lit l => exact hlit l g e
  | nary h =>
    simp only [Formula.restrict, Option.map_eq_some_iff] at e
    obtain ⟨gs, e1, rfl⟩ := e
    refine isCl_mkNary C fun g hg => ?_
    obtain ⟨f, hf, hk⟩ := forall2_right (restricts_mem e1) hg
    obtain ⟨l, rfl⟩ := h f hf
    exact hlit l g hk

theorem isNf_restrict {C : Canon} {A : PAsg} {o f g} (h : IsNf o f) (e : f.restrict C A = some g) : IsNf o g := by
  cases h with
  | cl h => exact .cl (isCl_restrict h e)
  | nary h =>
    simp only [Formula.restrict, Option.map_eq_some_iff] at e
    obtain ⟨gs, e1, rfl⟩ := e
    refine isNf_mkNary C gs fun g hg => ?_
    obtain ⟨f, hf, hk⟩ := forall2_right (restricts_mem e1) hg
    exact .cl (isCl_restrict (h f hf) hk)

theorem IsCnf.bounded {P f} (h : IsCnf f) : Bounded P f := by
  have hc : ∀ f, IsClause f → Bounded P f := by
    intro f h
    cases h with
    | tru => exact .tru
    | fls => exact .fls
    | lit l => exact .lit l
    | or h => exact .nary fun f hf => by obtain ⟨l, rfl⟩ := h f hf; exact .lit l
  cases h with
  | clause h => exact hc f h
  | and h => exact .nary fun f hf => hc f (h f hf)

theorem isCl_clause {f} (h : IsCl .disj f) : IsClause f := by
  cases h with
  | tru => exact .tru
  | fls => exact .fls
  | lit l => exact .lit l
  | nary h => exact .or h

/-- Propagation on a CNF restricted by a literal that is true is propagation on the CNF. -/
theorem SCd.restrict {C : Canon} {S : Lit → Prop} (hS : LitCons S) {d g : Formula} (hd : IsCnf d) (hn : d.Norm) {l : Lit} (hl : l.pos = true)
    (hr : d.restrict C (PAsg.ofLit l) = some g) (h : SCd S g) : LitCons (fun k => (S k ∧ k.v ≠ l.v) ∨ k = l) ∧ SCd (fun k => (S k ∧ k.v ≠ l.v) ∨ k = l) d := by
  have hover : ∀ σ v, (PAsg.ofLit l).over σ v = if v = l.v then true else σ v := by
    intro σ v; simp [PAsg.ofLit, hl, PAsg.over]
  have hdom : ∀ v, (PAsg.ofLit l).Dom v ↔ v = l.v := by
    intro v; simp [PAsg.ofLit, hl, PAsg.Dom]
  refine ⟨fun k hk hk' => ?_, fun c hc => ?_⟩
  · rcases hk with ⟨h1, h2⟩ | rfl <;> rcases hk' with ⟨h3, h4⟩ | h3
    · exact hS k h1 h3
    · rw [← h3] at h2; exact h2 rfl
    · exact h4 rfl
    · have := congrArg Lit.pos h3
      rcases k with ⟨u, _ | _⟩ <;> simp [Lit.neg] at this
  -- the restricted clause
  obtain ⟨c', hc', hcn, hr', hs'⟩ : ∃ c', c.Norm ∧ IsCl .disj c ∧ c.restrict C (PAsg.ofLit l) = some c' ∧ SCd S c' := by
    have hcl : ∀ f, IsClause f → IsCl .disj f := fun f hf => by cases hf with
      | tru => exact .tru
      | fls => exact .fls
      | lit l => exact .lit l
      | or h => exact .nary h
    cases hd with
    | clause hd =>
      have hd := hcl _ hd
      have : c = d := by
        cases hd <;> cases hc <;> rfl
      subst this
      exact ⟨g, hn, hd, hr, h⟩
    | @and fs hd =>
      cases hc with
      | self hc => exact absurd rfl (hc fs)
      | nary hf hc =>
        rename_i f
        have hcf := hcl _ (hd f hf)
        have : c = f := by cases hcf <;> cases hc <;> rfl
        subst this
        simp only [Formula.restrict, Option.map_eq_some_iff] at hr
        obtain ⟨gs, e1, rfl⟩ := hr
        obtain ⟨c', hc', e2⟩ := forall2_left (restricts_mem e1) hf
        exact ⟨c', norm_operands hn _ (by simpa [Formula.operands] using hf), hcf, e2, SCd.op hS h hc'⟩
  obtain ⟨c'', e3, hok⟩ := restrict_ok C (PAsg.ofLit l) hc' ((IsCnf.clause (isCl_clause hcn)).bounded (P := PBC.Bounded))
  rw [hr'] at e3; injection e3 with e3; subst e3
  have hocc : ¬ Occ l.v c' := fun hv => (hok.occ _ hv).1 ((hdom _).2 rfl)
  have hsc := (hs'.clause (isCl_restrict hcn hr')).drop hS hocc
  have hS' : LitCons (fun k => S k ∧ k.v ≠ l.v) := fun k h1 h2 => hS k h1.1 h2.1
  intro k hk
  have hsat : ∀ σ, LitSat (fun k => S k ∧ k.v ≠ l.v) σ → LitSat (fun k => (S k ∧ k.v ≠ l.v) ∨ k = l) ((PAsg.ofLit l).over σ) := by
    intro σ hσ j hj
    rcases hj with hj | rfl
    · have := hσ j hj
      simpa [Lit.eval, hover, hj.2] using this
    · simp [Lit.eval, hover, hl]
  have hk' : ∀ σ, LitSat (fun k => S k ∧ k.v ≠ l.v) σ → c'.eval σ = true → k.eval ((PAsg.ofLit l).over σ) = true := fun σ hσ hc =>
    hk _ (hsat σ hσ) (by rw [← hok.eval]; exact hc)
  by_cases hkv : k.v = l.v
  · by_cases hkp : k.pos = true
    · right
      rcases k with ⟨u, p⟩; rcases l with ⟨v, q⟩
      simp only at hkv hkp hl
      rw [hkv, hkp, hl]
    · refine absurd hsc (SC.not_fls hS' fun σ hσ => Bool.eq_false_iff.2 fun hc => ?_)
      have := hk' σ hσ hc
      simp [Lit.eval, hover, hkv, hkp] at this
  · left
    refine hsc k fun σ hσ hc => ?_
    have := hk' σ hσ hc
    simpa [Lit.eval, hover, hkv] using this

/-! ### New variables -/

/-- The literal `l` stands for `φ`. -/
structure VOk (E : List Ent) (c : AuxTy → Nat) (φ : Formula) (l : Lit) : Prop where
  val : ∀ σ, EncOk E σ → l.eval σ = φ.eval σ
  old : (cER c).Old l.v
  olds : ∀ v, Occ v φ → (cER c).Old v
  new : φ = .lit l ∨ (l.pos = true ∧ ¬ Occ l.v φ)
  aux : Occ l.v φ ∨ ∃ t k, l.v = .aux t k

theorem VOk.mono {E c E' c' φ l} (h : VOk E c φ l) (hx : GExt c E c' E') : VOk E' c' φ l :=
  ⟨fun σ ho => h.val σ (hx.ok ho), hx.old h.old, fun v hv => hx.old (h.olds v hv), h.new, h.aux⟩

theorem not_old_new (c : AuxTy → Nat) : ¬ (cER c).Old (.aux .cnf (c .cnf)) := by simp [Old, cER]

/-- Creating a variable for a formula. -/
theorem newCnf_ok {c0 w E} (h : WInv c0 w E) {φ : Formula} (ho : ∀ v, Occ v φ → (cER w.cnt).Old v) :
    ∃ E', WInv c0 w.newCnf.2 E' ∧ GExt w.cnt E w.newCnf.2.cnt E' ∧ VOk E' w.newCnf.2.cnt φ w.newCnf.1.p ∧ ¬ Occ w.newCnf.1 φ := by
  have hle : ∀ t, w.cnt t ≤ w.newCnf.2.cnt t := by
    intro t; simp only [World.newCnf]; split <;> omega
  have hnew : (cER w.newCnf.2.cnt).Old w.newCnf.1 := by simp [World.newCnf, Old, cER]
  have hno : ¬ (cER w.cnt).Old w.newCnf.1 := not_old_new w.cnt
  have hocc : ¬ Occ w.newCnf.1 φ := fun hv => hno (ho _ hv)
  let e : Ent := ⟨fun _ => True, fun σ => σ w.newCnf.1 = φ.eval σ⟩
  have hx : GExt w.cnt E w.newCnf.2.cnt (E ++ [e]) := ⟨hle, fun e he => List.mem_append_left _ he⟩
  have hb : EInv c0 w.newCnf.2.cnt (E ++ [e]) := by
    refine h.base.add hle e (fun _ _ _ _ => trivial) ?_ (fun _ _ => trivial) fun σ _ => ?_
    · intro σ σ' ag hs
      show σ' _ = _
      rw [← ag _ hnew, ← Formula.eval_congr (σ := σ) (τ := σ') fun v hv => ag v (hx.old (ho v hv))]
      exact hs
    · refine ⟨fun v => if v = w.newCnf.1 then φ.eval σ else σ v, fun v hv => ?_, ?_⟩
      · by_cases hvx : v = w.newCnf.1
        · subst hvx; exact absurd hv hno
        · simp [hvx]
      · show (if _ then _ else _) = _
        simp only [if_true]
        refine Formula.eval_congr fun v hv => ?_
        have : v ≠ w.newCnf.1 := fun h => hocc (h ▸ hv)
        simp [this]
  refine ⟨E ++ [e], h.grow hb hx, hx, ⟨fun σ hs => ?_, hnew, fun v hv => hx.old (ho v hv), .inr ⟨rfl, hocc⟩, .inr ⟨_, _, rfl⟩⟩, hocc⟩
  rw [Lit.eval_p]
  exact hs e (by simp) trivial

/-! ### Tseitin -/

/-- `d` defines the literal `l` for `φ`. -/
structure TsDef (E : List Ent) (c : AuxTy → Nat) (φ d : Formula) (l : Lit) : Prop where
  sound : ∀ σ, d.eval σ = true → l.eval σ = φ.eval σ
  compl : ∀ σ, EncOk E σ → d.eval σ = true
  shape : IsCnf d
  norm : d.Norm
  old : ∀ v, Occ v d → (cER c).Old v
  uniq : ∀ σ τ, d.eval σ = true → d.eval τ = true → (∀ v, Occ v φ → σ v = τ v) → ∀ v, Occ v d → σ v = τ v
  up : ∀ S σ, LitCons S → SCd S d → Sets S φ σ → S (if φ.eval σ then l else l.neg) ∧ ∀ v, Occ v d → S v.p ∨ S v.n
  aux : ∀ v, Occ v d → Occ v φ ∨ ∃ t k, v = .aux t k

theorem TsDef.mono {E c E' c' φ d l} (h : TsDef E c φ d l) (hx : GExt c E c' E') : TsDef E' c' φ d l :=
  ⟨h.sound, fun σ ho => h.compl σ (hx.ok ho), h.shape, h.norm, fun v hv => hx.old (h.old v hv), h.uniq, h.up, h.aux⟩

/-- Invariant of the Tseitin state. -/
structure TsInv (E : List Ent) (c : AuxTy → Nat) (st : TState) : Prop where
  dom : ∀ φ, (st.formula φ).isSome = (st.varOf φ).isSome
  var : ∀ φ l, st.varOf φ = some l → VOk E c φ l ∧ (φ.isLit = true → φ = .lit l)
  def_ : ∀ φ d l, st.formula φ = some d → st.varOf φ = some l → φ.isLit = false → TsDef E c φ d l

theorem TsInv.mono {E c E' c' st} (h : TsInv E c st) (hx : GExt c E c' E') : TsInv E' c' st :=
  ⟨h.dom, fun φ l e => ⟨(h.var φ l e).1.mono hx, (h.var φ l e).2⟩, fun φ d l e1 e2 e3 => (h.def_ φ d l e1 e2 e3).mono hx⟩

theorem TsInv.empty (E c) : TsInv E c TState.empty :=
  ⟨fun _ => rfl, fun _ _ e => (nomatch e), fun _ _ _ e => (nomatch e)⟩

/-- Operands already known: nothing is computed. -/
theorem tsOps_known {C : Canon} (fs : List Formula) : ∀ {st w} {E c}, TsInv E c st → (∀ f ∈ fs, (st.formula f).isSome = true) →
    (∀ f ∈ fs, f.isLit = true ∨ ∃ o gs, f = .nary o gs) →
    ∃ ds ls, tsOps C fs (st, w) = some (ds, ls, st, w) ∧ List.Forall₂ (fun f l => st.varOf f = some l) fs ls ∧
      (∀ d ∈ ds, ∃ f ∈ fs, f.isLit = false ∧ st.formula f = some d) ∧
      (∀ f ∈ fs, f.isLit = false → ∃ d ∈ ds, st.formula f = some d) := by
  induction fs with
  | nil => intro st w E c _ _ _; exact ⟨[], [], by simp [tsOps], .nil, by simp, by simp⟩
  | cons f fs ih =>
    intro st w E c h hk hn
    obtain ⟨ds, ls, e, h1, h2, h3⟩ := ih (w := w) h (fun f hf => hk f (by simp [hf])) (fun f hf => hn f (by simp [hf]))
    have hf := hk f (by simp)
    obtain ⟨d, hd⟩ := Option.isSome_iff_exists.1 hf
    have hv : (st.varOf f).isSome = true := by rw [← h.dom]; exact hf
    obtain ⟨l, hl⟩ := Option.isSome_iff_exists.1 hv
    rcases hn f (by simp) with hlit | ⟨o, gs, rfl⟩
    · refine ⟨ds, l :: ls, ?_, .cons hl h1, fun x hx => ?_, fun x hx hxl => ?_⟩
      · simp only [tsOps, hlit, if_true, hl, e, List.nil_append]
      · obtain ⟨y, hy, h⟩ := h2 x hx; exact ⟨y, by simp [hy], h⟩
      · rcases List.mem_cons.1 hx with rfl | hx
        · rw [hlit] at hxl; cases hxl
        · exact h3 x hx hxl
    · have hlit : (Formula.nary o gs).isLit = false := rfl
      refine ⟨d :: ds, l :: ls, ?_, .cons hl h1, fun x hx => ?_, fun x hx hxl => ?_⟩
      · have : tsG C (.nary o gs) (st, w) = some (st, w) := by simp [tsG, hf]
        simp only [tsOps, hlit, Bool.false_eq_true, if_false, this, hd, Option.map_some, hl, e, List.cons_append, List.nil_append]
      · rcases List.mem_cons.1 hx with rfl | hx
        · exact ⟨_, by simp, hlit, hd⟩
        · obtain ⟨y, hy, h⟩ := h2 x hx; exact ⟨y, by simp [hy], h⟩
      · rcases List.mem_cons.1 hx with rfl | hx
        · exact ⟨d, by simp, hd⟩
        · obtain ⟨y, hy, h⟩ := h3 x hx hxl; exact ⟨y, by simp [hy], h⟩

/-- The defining clauses say exactly that `x` is the combination of the literals. -/
theorem tsClauses_eval (C : Canon) (o : Op) (x : Var) (ls : List Lit) (σ : Asg) :
    (∀ f ∈ tsClauses C o x ls, f.eval σ = true) ↔ σ x = o.eval σ (ls.map .lit) := by
  cases o with
  | conj =>
    simp only [tsClauses, List.mem_append, List.mem_map, List.mem_singleton, Op.eval]
    cases hx : σ x with
    | false =>
      constructor
      · intro h
        have := h _ (.inr rfl)
        simp only [Formula.eval_mkOr, List.any_cons, Formula.eval_lit, Lit.eval_p, hx, Bool.false_or, List.any_map, List.any_eq_true] at this
        obtain ⟨l, hl, h⟩ := this
        symm
        rw [List.all_map, List.all_eq_false]
        exact ⟨l, hl, by simpa using h⟩
      · intro h f hf
        rcases hf with ⟨l, hl, rfl⟩ | rfl
        · simp [hx]
        · have h := h.symm
          rw [List.all_map, List.all_eq_false] at h
          obtain ⟨l, hl, h⟩ := h
          simp only [Formula.eval_mkOr, List.any_cons, List.any_map, Bool.or_eq_true, List.any_eq_true]
          exact .inr ⟨l, hl, by simpa using h⟩
    | true =>
      constructor
      · intro h
        symm
        rw [List.all_map, List.all_eq_true]
        intro l hl
        have := h _ (.inl ⟨l, hl, rfl⟩)
        simpa [hx] using this
      · intro h f hf
        have h := h.symm
        rw [List.all_map, List.all_eq_true] at h
        rcases hf with ⟨l, hl, rfl⟩ | rfl
        · have := h l hl; simp at this; simp [this]
        · simp [hx]
  | disj =>
    simp only [tsClauses, List.mem_append, List.mem_map, List.mem_singleton, Op.eval]
    cases hx : σ x with
    | true =>
      constructor
      · intro h
        have := h _ (.inr rfl)
        simp only [Formula.eval_mkOr, List.any_cons, Formula.eval_lit, Lit.eval_n, hx, Bool.not_true, Bool.false_or] at this
        exact this.symm
      · intro h f hf
        rcases hf with ⟨l, hl, rfl⟩ | rfl
        · simp [hx]
        · simp only [Formula.eval_mkOr, List.any_cons, ← h, Bool.or_true]
    | false =>
      constructor
      · intro h
        symm
        rw [List.any_map, List.any_eq_false]
        intro l hl
        have := h _ (.inl ⟨l, hl, rfl⟩)
        simpa [hx] using this
      · intro h f hf
        have h := h.symm
        rw [List.any_map, List.any_eq_false] at h
        rcases hf with ⟨l, hl, rfl⟩ | rfl
        · have := h l hl; simp at this; simp [this]
        · simp [hx]

theorem tsClauses_shape (C : Canon) (o : Op) (x : Var) (ls : List Lit) : ∀ f ∈ tsClauses C o x ls,
    f.Norm ∧ IsCl .disj f ∧ ∀ v, Occ v f → v = x ∨ ∃ l ∈ ls, l.v = v := by
  have key : ∀ ks : List Lit, (∀ k ∈ ks, k.v = x ∨ ∃ l ∈ ls, l.v = k.v) →
      (Formula.mkOr C (ks.map .lit)).Norm ∧ IsCl .disj (Formula.mkOr C (ks.map .lit)) ∧
      ∀ v, Occ v (Formula.mkOr C (ks.map .lit)) → v = x ∨ ∃ l ∈ ls, l.v = v := by
    intro ks hk
    refine ⟨Formula.norm_mkNary C _ ?_, isCl_mkNary C ?_, fun v hv => ?_⟩
    · intro f hf; obtain ⟨l, _, rfl⟩ := List.mem_map.1 hf; exact .lit l
    · intro f hf; obtain ⟨l, _, rfl⟩ := List.mem_map.1 hf; exact .lit l
    · obtain ⟨f, hf, hv⟩ := Formula.occ_mkNary hv
      obtain ⟨l, hl, rfl⟩ := List.mem_map.1 hf
      rw [Formula.occ_lit] at hv
      rw [← hv]
      rcases hk l hl with h | ⟨l', hl', h⟩
      · exact .inl h
      · exact .inr ⟨l', hl', h⟩
  intro f hf
  cases o with
  | conj =>
    simp only [tsClauses, List.mem_append, List.mem_map, List.mem_singleton] at hf
    rcases hf with ⟨l, hl, rfl⟩ | rfl
    · exact key [x.n, l] (by intro k hk; simp at hk; rcases hk with rfl | rfl; exacts [.inl rfl, .inr ⟨_, hl, rfl⟩])
    · have := key (x.p :: ls.map Lit.neg) (by
        intro k hk; simp at hk; rcases hk with rfl | ⟨l, hl, rfl⟩; exacts [.inl rfl, .inr ⟨_, hl, rfl⟩])
      simpa [List.map_map, Function.comp_def] using this
  | disj =>
    simp only [tsClauses, List.mem_append, List.mem_map, List.mem_singleton] at hf
    rcases hf with ⟨l, hl, rfl⟩ | rfl
    · exact key [x.p, l.neg] (by intro k hk; simp at hk; rcases hk with rfl | rfl; exacts [.inl rfl, .inr ⟨_, hl, rfl⟩])
    · exact key (x.n :: ls) (by
        intro k hk; simp at hk; rcases hk with rfl | hk; exacts [.inl rfl, .inr ⟨_, hk, rfl⟩])

theorem tsClauses_x {C : Canon} {o : Op} {x : Var} {ls : List Lit} {f v} (hf : f ∈ tsClauses C o x ls) (hv : Occ v f) :
    v = x ∨ ∃ l ∈ ls, l.v = v := (tsClauses_shape C o x ls f hf).2.2 v hv

theorem lit_value_eq {l : Lit} {σ τ : Asg} (h : l.eval σ = l.eval τ) : σ l.v = τ l.v := by
  rcases l with ⟨v, p⟩
  cases p <;> simp [Lit.eval] at h <;> exact h

theorem lit_sets {S : Lit → Prop} {l : Lit} {σ : Asg} (h : S ⟨l.v, σ l.v⟩) : S (if l.eval σ then l else l.neg) := by
  rcases l with ⟨v, p⟩
  cases p <;> cases hs : σ v <;> simpa [Lit.eval, Lit.neg, hs] using h

/-- Propagation from the literals of the operands to the variable. -/
theorem tsClauses_up {C : Canon} {o : Op} {x : Var} {ls : List Lit} {fs : List Formula} {S : Lit → Prop} {σ : Asg} (hS : LitCons S)
    (h : ∀ f ∈ tsClauses C o x ls, SC S f) (hl : List.Forall₂ (fun f l => S (if Formula.eval σ f then l else Lit.neg l)) fs ls) :
    S (if (Formula.nary o fs).eval σ then x.p else x.n) := by
  cases o with
  | conj =>
    cases hv : (Formula.nary .conj fs).eval σ with
    | true =>
      rw [Formula.eval_nary, Op.eval, List.all_eq_true] at hv
      rw [if_pos rfl]
      have hin : ∀ l ∈ ls, S l := fun l hl' => by
        obtain ⟨f, hf, hk⟩ := forall2_right hl hl'
        rwa [if_pos (hv f hf)] at hk
      refine h (Formula.mkOr C (.lit x.p :: ls.map fun l => .lit l.neg)) (by simp [tsClauses]) _ fun τ hτ hc => ?_
      simp only [Formula.eval_mkOr, List.any_cons, Formula.eval_lit, Bool.or_eq_true, List.any_map, List.any_eq_true] at hc
      rcases hc with hc | ⟨l, hl', hc⟩
      · exact hc
      · have := hτ l (hin l hl')
        simp [this] at hc
    | false =>
      rw [Formula.eval_nary, Op.eval, List.all_eq_false] at hv
      rw [if_neg (by simp)]
      obtain ⟨f, hf, hv⟩ := hv
      obtain ⟨l, hl', hk⟩ := forall2_left hl hf
      rw [if_neg hv] at hk
      refine h (Formula.mkOr C [.lit x.n, .lit l]) (by simp only [tsClauses, List.mem_append, List.mem_map]; exact .inl ⟨l, hl', rfl⟩) _ fun τ hτ hc => ?_
      have := hτ _ hk
      rw [Lit.eval_neg] at this
      simpa [this, Bool.eq_false_iff.2 (by simpa using this)] using hc
  | disj =>
    cases hv : (Formula.nary .disj fs).eval σ with
    | false =>
      rw [Formula.eval_nary, Op.eval, List.any_eq_false] at hv
      rw [if_neg (by simp)]
      have hin : ∀ l ∈ ls, S l.neg := fun l hl' => by
        obtain ⟨f, hf, hk⟩ := forall2_right hl hl'
        rwa [if_neg (hv f hf)] at hk
      refine h (Formula.mkOr C (.lit x.n :: ls.map fun l => .lit l)) (by simp [tsClauses]) _ fun τ hτ hc => ?_
      simp only [Formula.eval_mkOr, List.any_cons, Formula.eval_lit, Bool.or_eq_true, List.any_map, List.any_eq_true] at hc
      rcases hc with hc | ⟨l, hl', hc⟩
      · exact hc
      · have := hτ _ (hin l hl')
        simp at hc
        simp [hc] at this
    | true =>
      rw [Formula.eval_nary, Op.eval, List.any_eq_true] at hv
      rw [if_pos rfl]
      obtain ⟨f, hf, hv⟩ := hv
      obtain ⟨l, hl', hk⟩ := forall2_left hl hf
      rw [if_pos hv] at hk
      refine h (Formula.mkOr C [.lit x.p, .lit l.neg]) (by simp only [tsClauses, List.mem_append, List.mem_map]; exact .inl ⟨l, hl', rfl⟩) _ fun τ hτ hc => ?_
      have := hτ _ hk
      simpa [this] using hc

/-- Definition of a node from the definitions of its operands. -/
theorem tsDef_node {C : Canon} {E c o} {fs : List Formula} {st : TState} {x : Var} {ds : List Formula} {ls : List Lit}
    (hi : TsInv E c st) (hx : VOk E c (.nary o fs) x.p)
    (h1 : List.Forall₂ (fun f l => st.varOf f = some l) fs ls)
    (h2 : ∀ d ∈ ds, ∃ f ∈ fs, f.isLit = false ∧ st.formula f = some d)
    (h3 : ∀ f ∈ fs, f.isLit = false → ∃ d ∈ ds, st.formula f = some d) :
    TsDef E c (.nary o fs) (Formula.mkAnd C (ds ++ tsClauses C o x ls)) x.p := by
  have hdef : ∀ d ∈ ds, ∃ f ∈ fs, ∃ l, TsDef E c f d l := by
    intro d hd
    obtain ⟨f, hf, hl, e⟩ := h2 d hd
    obtain ⟨l, _, hv⟩ := forall2_left h1 hf
    exact ⟨f, hf, l, hi.def_ f d l e hv hl⟩
  have hop : ∀ σ, (∀ d ∈ ds, d.eval σ = true) → List.Forall₂ (fun f l => Lit.eval σ l = Formula.eval σ f) fs ls := by
    intro σ hs
    have hmem : ∀ f ∈ fs, ∀ l, st.varOf f = some l → Lit.eval σ l = Formula.eval σ f := by
      intro f hf l hv
      cases hl : f.isLit with
      | true => rw [(hi.var f l hv).2 hl]; simp
      | false =>
        obtain ⟨d, hd, e⟩ := h3 f hf hl
        exact (hi.def_ f d l e hv hl).sound σ (hs d hd)
    clear h2 h3 hdef hs hx
    induction h1 with
    | nil => exact .nil
    | cons h _ ih => exact .cons (hmem _ (by simp) _ h) (ih fun f hf => hmem f (by simp [hf]))
  have hev : ∀ σ, List.Forall₂ (fun f l => Lit.eval σ l = Formula.eval σ f) fs ls → o.eval σ (ls.map .lit) = o.eval σ fs := by
    intro σ h
    clear h1 h2 h3 hdef hx hop
    induction h with
    | nil => rfl
    | cons h _ ih => rw [List.map_cons, Op.eval_cons, Op.eval_cons, ih]; simp [h]
  have hall : ∀ σ, (Formula.mkAnd C (ds ++ tsClauses C o x ls)).eval σ = true ↔
      (∀ d ∈ ds, d.eval σ = true) ∧ σ x = o.eval σ (ls.map .lit) := by
    intro σ
    rw [Formula.eval_mkAnd, List.all_eq_true, ← tsClauses_eval C]
    constructor
    · intro h; exact ⟨fun d hd => h d (by simp [hd]), fun d hd => h d (by simp [hd])⟩
    · rintro ⟨a, b⟩ d hd
      rcases List.mem_append.1 hd with hd | hd
      · exact a d hd
      · exact b d hd
  have hsound : ∀ σ, (Formula.mkAnd C (ds ++ tsClauses C o x ls)).eval σ = true → Lit.eval σ x.p = (Formula.nary o fs).eval σ := by
    intro σ hs
    obtain ⟨a, b⟩ := (hall σ).1 hs
    rw [Lit.eval_p, b, Formula.eval_nary, hev σ (hop σ a)]
  refine ⟨hsound, fun σ ho => (hall σ).2 ⟨fun d hd => ?_, ?_⟩, ?_, Formula.norm_mkNary C _ ?_, fun v hv => ?_, fun σ τ hs ht hag v hv => ?_, fun S σ hS hd hσ => ?_, fun v hv => ?_⟩
  rotate_right
  · obtain ⟨f, hf, hv⟩ := Formula.occ_mkNary hv
    rcases List.mem_append.1 hf with hf | hf
    · obtain ⟨g, hg, _, hk⟩ := hdef f hf
      exact (hk.aux v hv).imp_left fun h => (Formula.occ_nary ..).2 ⟨g, hg, h⟩
    · rcases tsClauses_x hf hv with rfl | ⟨l, hl, rfl⟩
      · exact hx.aux
      · obtain ⟨f, hf, e⟩ := forall2_right h1 hl
        exact (hi.var f l e).1.aux.imp_left fun h => (Formula.occ_nary ..).2 ⟨f, hf, h⟩
  · obtain ⟨f, _, l, hk⟩ := hdef d hd
    exact hk.compl σ ho
  · have hv := hx.val σ ho
    rw [Lit.eval_p, Formula.eval_nary] at hv
    rw [hv]
    symm
    refine hev σ (h1.imp fun f l e => ((hi.var f l e).1.val σ ho))
  · refine isNf_conj.1 (isNf_mkNary C _ fun f hf => ?_)
    rcases List.mem_append.1 hf with hf | hf
    · obtain ⟨_, _, _, hk⟩ := hdef f hf; exact isNf_conj.2 hk.shape
    · exact .cl (tsClauses_shape C o x ls f hf).2.1
  · intro f hf
    rcases List.mem_append.1 hf with hf | hf
    · obtain ⟨_, _, _, hk⟩ := hdef f hf; exact hk.norm
    · exact (tsClauses_shape C o x ls f hf).1
  · obtain ⟨f, hf, hv⟩ := Formula.occ_mkNary hv
    rcases List.mem_append.1 hf with hf | hf
    · obtain ⟨_, _, _, hk⟩ := hdef f hf; exact hk.old v hv
    · rcases tsClauses_x hf hv with rfl | ⟨l, hl, rfl⟩
      · exact hx.old
      · obtain ⟨f, _, e⟩ := forall2_right h1 hl
        exact (hi.var f l e).1.old
  · have hφ : (Formula.nary o fs).eval σ = (Formula.nary o fs).eval τ := Formula.eval_congr hag
    obtain ⟨f, hf, hv⟩ := Formula.occ_mkNary hv
    rcases List.mem_append.1 hf with hf | hf
    · obtain ⟨g, hg, l, hk⟩ := hdef f hf
      refine hk.uniq σ τ (((hall σ).1 hs).1 f hf) (((hall τ).1 ht).1 f hf) (fun u hu => hag u ?_) v hv
      exact (Formula.occ_nary ..).2 ⟨g, hg, hu⟩
    · rcases tsClauses_x hf hv with rfl | ⟨l, hl, rfl⟩
      · have a := hsound σ hs; have b := hsound τ ht
        rw [Lit.eval_p] at a b
        rw [a, b, hφ]
      · obtain ⟨g, hg, hk⟩ := forall2_right h1 hl
        have hgg : g.eval σ = g.eval τ := Formula.eval_congr fun u hu => hag u ((Formula.occ_nary ..).2 ⟨g, hg, hu⟩)
        have value : ∀ ρ, (∀ d ∈ ds, d.eval ρ = true) → Lit.eval ρ l = g.eval ρ := by
          intro ρ hρ
          cases hl' : g.isLit with
          | true => rw [(hi.var g l hk).2 hl']; simp
          | false =>
            obtain ⟨d, hd, e⟩ := h3 g hg hl'
            exact (hi.def_ g d l e hk hl').sound ρ (hρ d hd)
        exact lit_value_eq (by rw [value σ ((hall σ).1 hs).1, value τ ((hall τ).1 ht).1, hgg])
  · have hσ' : ∀ f ∈ fs, Sets S f σ := fun f hf v hv => hσ v ((Formula.occ_nary ..).2 ⟨f, hf, hv⟩)
    have hlit : ∀ f ∈ fs, ∀ l, st.varOf f = some l → S (if Formula.eval σ f then l else Lit.neg l) := by
      intro f hf l hv
      cases hl : f.isLit with
      | true =>
        have e := (hi.var f l hv).2 hl
        subst e
        rw [Formula.eval_lit]
        exact lit_sets (hσ' _ hf l.v (by simp))
      | false =>
        obtain ⟨d, hd', e⟩ := h3 f hf hl
        exact ((hi.def_ f d l e hv hl).up S σ hS (hd.op hS (by simp [hd'])) (hσ' f hf)).1
    have hl2 : List.Forall₂ (fun f l => S (if Formula.eval σ f then l else Lit.neg l)) fs ls := by
      clear h2 h3 hdef hop hev hall hsound hd hσ hσ' hx
      induction h1 with
      | nil => exact .nil
      | cons h _ ih => exact .cons (hlit _ (by simp) _ h) (ih fun f hf => hlit f (by simp [hf]))
    have hx := tsClauses_up hS (fun f hf => (hd.op hS (by simp [hf])).clause (tsClauses_shape C o x ls f hf).2.1) hl2
    refine ⟨hx, fun v hv => ?_⟩
    have two : ∀ (b : Bool) (l : Lit), S (if b = true then l else l.neg) → S l.v.p ∨ S l.v.n := by
      intro b l h
      rcases l with ⟨u, _ | _⟩ <;> cases b <;> simp [Lit.neg] at h
      exacts [.inl h, .inr h, .inr h, .inl h]
    obtain ⟨f, hf, hv⟩ := Formula.occ_mkNary hv
    rcases List.mem_append.1 hf with hf | hf
    · obtain ⟨g, hg, hl, e⟩ := h2 f hf
      obtain ⟨l, _, hk⟩ := forall2_left h1 hg
      exact ((hi.def_ g f l e hk hl).up S σ hS (hd.op hS (by simp [hf])) (hσ' g hg)).2 v hv
    · rcases tsClauses_x hf hv with rfl | ⟨l, hl, rfl⟩
      · exact two _ v.p hx
      · obtain ⟨g, hg, hk⟩ := forall2_right hl2 hl
        exact two _ l hk

/-- Nodes an NNF that is not constant consists of. -/
def TNode (f : Formula) : Prop := f.isLit = true ∨ ∃ o gs, f = .nary o gs

/-- One call of `compute_tseitin` with all operands known. -/
theorem tsG_ok {C : Canon} {c0 w E st} (h : WInv c0 w E) (hi : TsInv E w.cnt st) {f : Formula} (hf : TNode f)
    (hops : ∀ g ∈ f.operands, TNode g ∧ (st.formula g).isSome = true) (ho : ∀ v, Occ v f → (cER w.cnt).Old v) :
    ∃ st' w' E', tsG C f (st, w) = some (st', w') ∧ WInv c0 w' E' ∧ GExt w.cnt E w'.cnt E' ∧ TsInv E' w'.cnt st' ∧
      (st'.formula f).isSome = true ∧ ∀ g, (st.formula g).isSome = true → (st'.formula g).isSome = true := by
  cases hs : (st.formula f).isSome with
  | true =>
    refine ⟨st, w, E, ?_, h, GExt.refl _ _, hi, hs, fun _ h => h⟩
    rcases hf with hf | ⟨o, gs, rfl⟩
    · cases f <;> simp [Formula.isLit] at hf; simp [tsG, hs]
    · simp [tsG, hs]
  | false =>
    rcases hf with hf | ⟨o, gs, rfl⟩
    · cases f with
      | lit l =>
        refine ⟨⟨mapPut st.formula (.lit l) (.lit l), mapPut st.varOf (.lit l) l⟩, w, E, by simp [tsG, hs], h, GExt.refl _ _, ⟨fun φ => ?_, fun φ k e => ?_, fun φ d k e1 e2 e3 => ?_⟩, by simp [mapPut], fun g hg => ?_⟩
        · simp only [mapPut]; split
          · rfl
          · exact hi.dom φ
        · simp only [mapPut] at e
          split at e
          · rename_i hφ; subst hφ; injection e with e; subst e
            exact ⟨⟨fun σ _ => by simp, ho _ (by simp), ho, .inl rfl, .inl (by simp)⟩, fun _ => rfl⟩
          · exact hi.var φ k e
        · simp only [mapPut] at e1 e2
          split at e1
          · rename_i hφ; subst hφ; simp [Formula.isLit] at e3
          · rename_i hφ; rw [if_neg hφ] at e2; exact hi.def_ φ d k e1 e2 e3
        · simp only [mapPut]; split
          · rfl
          · exact hg
      | _ => simp [Formula.isLit] at hf
    · obtain ⟨E', hw', hx, hv, _⟩ := newCnf_ok h ho
      have hi' := hi.mono hx
      obtain ⟨ds, ls, e, h1, h2, h3⟩ := tsOps_known (C := C) gs (w := w.newCnf.2) hi'
        (fun g hg => (hops g (by simpa [Formula.operands] using hg)).2) (fun g hg => (hops g (by simpa [Formula.operands] using hg)).1)
      have hd := tsDef_node (C := C) hi' hv h1 h2 h3
      refine ⟨⟨mapPut st.formula (.nary o gs) (Formula.mkAnd C (ds ++ tsClauses C o w.newCnf.1 ls)), mapPut st.varOf (.nary o gs) w.newCnf.1.p⟩,
        w.newCnf.2, E', by simp [tsG, hs, e], hw', hx, ⟨fun φ => ?_, fun φ k e => ?_, fun φ d k e1 e2 e3 => ?_⟩, by simp [mapPut], fun g hg => ?_⟩
      · simp only [mapPut]; split
        · rfl
        · exact hi.dom φ
      · simp only [mapPut] at e
        split at e
        · rename_i hφ; subst hφ; injection e with e; subst e
          exact ⟨hv, fun h => by simp [Formula.isLit] at h⟩
        · exact hi'.var φ k e
      · simp only [mapPut] at e1 e2
        split at e1
        · rename_i hφ; subst hφ
          rw [if_pos rfl] at e2
          injection e1 with e1; injection e2 with e2; subst e1; subst e2
          exact hd
        · rename_i hφ; rw [if_neg hφ] at e2; exact hi'.def_ φ d k e1 e2 e3
      · simp only [mapPut]; split
        · rfl
        · exact hg

theorem tsAll_ok {C : Canon} {c0} (fs : List Formula) : ∀ {w E st} (pre : List Formula), WInv c0 w E → TsInv E w.cnt st →
    Topo (pre ++ fs) → (∀ f ∈ pre, (st.formula f).isSome = true) → (∀ f ∈ pre ++ fs, TNode f ∧ ∀ v, Occ v f → (cER w.cnt).Old v) →
    ∃ st' w' E', tsAll C fs (st, w) = some (st', w') ∧ WInv c0 w' E' ∧ GExt w.cnt E w'.cnt E' ∧ TsInv E' w'.cnt st' ∧
      ∀ f ∈ pre ++ fs, (st'.formula f).isSome = true := by
  induction fs with
  | nil => intro w E st pre h hi _ hp _; exact ⟨st, w, E, rfl, h, GExt.refl _ _, hi, by simpa using hp⟩
  | cons f fs ih =>
    intro w E st pre h hi ht hp hn
    have hop := ht pre f fs rfl
    obtain ⟨st1, w1, E1, e1, h1, x1, i1, s1, m1⟩ := tsG_ok (C := C) h hi (hn f (by simp)).1
      (fun g hg => ⟨(hn g (by simp [hop g hg])).1, hp g (hop g hg)⟩) (hn f (by simp)).2
    obtain ⟨st2, w2, E2, e2, h2, x2, i2, s2⟩ := ih (pre ++ [f]) h1 i1 (by simpa using ht)
      (fun g hg => by
        rcases List.mem_append.1 hg with hg | hg
        · exact m1 g (hp g hg)
        · rw [List.mem_singleton.1 hg]; exact s1)
      (fun g hg => by
        have := hn g (by simpa using hg)
        exact ⟨this.1, fun v hv => x1.old (this.2 v hv)⟩)
    exact ⟨st2, w2, E2, by simp [tsAll, e1, e2], h2, x1.trans x2, i2, fun g hg => s2 g (by simpa using hg)⟩

theorem tnode_sub {f : Formula} (hn : f.Norm) (hs : IsNnf f) (ho : ∃ o fs, f = .nary o fs) : ∀ g, Sub g f → TNode g := by
  intro g hg
  induction hg with
  | refl => exact .inr ho
  | @op o' f hop hsub ih =>
    obtain ⟨o, fs, rfl⟩ := ho
    have hmem : o' ∈ fs := by simpa [Formula.operands] using hop
    have hsn : IsNnf o' := by cases hs with | nary h => exact h _ hmem
    have hnn : o'.Norm := norm_operands hn _ hop
    have hc : o'.isConst = false := by
      cases hn with
      | nary _ _ h => exact h.notConst o' hmem
    cases hsn with
    | tru => simp [Formula.isConst] at hc
    | fls => simp [Formula.isConst] at hc
    | lit l =>
      rcases sub_operands.1 hsub with rfl | ⟨_, hh, _⟩
      · exact .inl rfl
      · simp [Formula.operands] at hh
    | nary h => exact ih hnn (.nary h) ⟨_, _, rfl⟩

theorem factorizationCnf_ok {C : Canon} {cfg : FCfg} (hcfg : cfg.cc.Good) {c0 w E} (h : WInv c0 w E) {f : Formula} (hp : PTop cfg w.cnt f) :
    TrStep IsCnf c0 w E (It.of true f) (factorizationCnf C cfg f w) := by
  obtain ⟨res, w', l', E', e, h', x', q'⟩ := factorize_ok (C := C) hcfg h hp .conj Lim.nop
  obtain ⟨g, rfl, _⟩ := factorize_limits (l := Lim.nop) e
  exact ⟨g, w', E', by simp [factorizationCnf, e], h', x', q' g rfl⟩

theorem isNnf_fit {cfg f} (h : IsNnf f) : Fit cfg f :=
  have := isNnf_noCon h
  ⟨fun c hc => absurd rfl ((this _ hc).1 c), fun p hp => absurd rfl ((this _ hp).2 p)⟩

/-- The extension to the variables of the result is unique. -/
def Uniq (f g : Formula) : Prop :=
  ∀ σ τ, g.eval σ = true → g.eval τ = true → (∀ v, Occ v f → σ v = τ v) → ∀ v, Occ v g → σ v = τ v

/-- `tseitin_cnf_with_boundary`. -/
theorem tseitin_ok {C : Canon} {cfg : FCfg} (hcfg : cfg.cc.Good) {c0 w E st} (h : WInv c0 w E) (hi : TsInv E w.cnt st) (bound : Nat)
    {f : Formula} (hp : PTop cfg w.cnt f) :
    ∃ g st' w' E', tseitin C cfg bound f st w = some (g, st', w') ∧ WInv c0 w' E' ∧ GExt w.cnt E w'.cnt E' ∧ TsInv E' w'.cnt st' ∧
      TrI IsCnf E' w'.cnt ⟨fun σ => f.eval σ = true, False, (Occ · f)⟩ g ∧ (NoCon f → Uniq f g ∧ UpOk f g ∧ UpDec f g) := by
  obtain ⟨n, w1, E1, e1, h1, x1, k1⟩ := nnf_ok (C := C) hcfg h hp
  have hi1 := hi.mono x1
  have huniq : ∀ g, (∀ σ, g.eval σ = true → f.eval σ = true) → (NoCon f → ∀ v, Occ v g → Occ v f) → NoCon f → Uniq f g ∧ UpOk f g ∧ UpDec f g :=
    fun g hs h hp => ⟨fun σ τ _ _ hag v hv => hag v (h hp v hv), upOk_plain hs (h hp)⟩
  unfold tseitin
  simp only [e1]
  by_cases hc : n.isCnfF = true
  · simp only [hc, if_true]
    refine ⟨n, st, w1, E1, rfl, h1, x1, hi1, ⟨k1.sound, k1.compl, fun h => h.elim, fun h => h.elim, (isCnfF_iff k1.norm).1 hc, k1.norm, k1.old, k1.aux⟩,
      huniq n k1.sound k1.vars⟩
  · simp only [if_neg hc]
    by_cases hb : fnAtoms64.val n < bound
    · simp only [if_pos hb]
      obtain ⟨g, w2, E2, e2, h2, x2, k2⟩ := factorizationCnf_ok (C := C) hcfg h1 (f := n) ⟨k1.norm, isNnf_fit k1.shape, k1.old⟩
      have k := k1.trans x2 (fun _ => isNnf_noCon k1.shape) (fun hp v hv => k1.vars hp v hv) k1.aux k2
      simp only [e2]
      exact ⟨g, st, w2, E2, rfl, h2, x1.trans x2, hi1.mono x2, ⟨k.sound, k.compl, fun h => h.elim, fun h => h.elim, k.shape, k.norm, k.old, k.aux⟩,
        huniq g k.sound k.vars⟩
    · simp only [if_neg hb]
      have hnary : ∃ o fs, n = .nary o fs := by
        have hs := k1.shape
        cases hs with
        | nary h => exact ⟨_, _, rfl⟩
        | tru => exact absurd ((isCnfF_iff k1.norm).2 (.clause .tru)) hc
        | fls => exact absurd ((isCnfF_iff k1.norm).2 (.clause .fls)) hc
        | lit l => exact absurd ((isCnfF_iff k1.norm).2 (.clause (.lit l))) hc
      obtain ⟨s1, s2, s3, _⟩ := sub_val n
      obtain ⟨st2, w2, E2, e2, h2, x2, i2, d2⟩ := tsAll_ok (C := C) (fnSub.val n) [] h1 hi1 (by simpa using s3) (by simp)
        (fun g hg => by
          have hg := (s1 g).1 (by simpa using hg)
          exact ⟨tnode_sub k1.norm k1.shape hnary g hg, fun v hv => k1.old v (hv.sub hg)⟩)
      have hdn := d2 n (by simpa using (s1 n).2 (.refl n))
      obtain ⟨d, hd⟩ := Option.isSome_iff_exists.1 hdn
      have hvn : (st2.varOf n).isSome = true := by rw [← i2.dom]; exact hdn
      obtain ⟨l, hl⟩ := Option.isSome_iff_exists.1 hvn
      have hnl : n.isLit = false := by obtain ⟨o, fs, rfl⟩ := hnary; rfl
      have hdef := i2.def_ n d l hd hl hnl
      have hvar := (i2.var n l hl).1
      obtain ⟨hpos, hocc⟩ : l.pos = true ∧ ¬ Occ l.v n := by
        rcases hvar.new with e | h
        · rw [e] at hnl; simp [Formula.isLit] at hnl
        · exact h
      obtain ⟨g, hg, hr⟩ := restrict_ok C (PAsg.ofLit l) hdef.norm (hdef.shape.bounded (P := PBC.Bounded))
      have hover : ∀ σ v, (PAsg.ofLit l).over σ v = if v = l.v then true else σ v := by
        intro σ v; simp [PAsg.ofLit, hpos, PAsg.over]
      have hdom : ∀ v, (PAsg.ofLit l).Dom v ↔ v = l.v := by
        intro v; simp [PAsg.ofLit, hpos, PAsg.Dom]
      have hnev : ∀ σ, n.eval ((PAsg.ofLit l).over σ) = n.eval σ := fun σ => Formula.eval_congr fun v hv => by
        rw [hover, if_neg]; rintro rfl; exact hocc hv
      have hlev : ∀ σ, l.eval ((PAsg.ofLit l).over σ) = true := fun σ => by simp [Lit.eval, hpos, hover]
      have hsound : ∀ σ, g.eval σ = true → n.eval σ = true := fun σ hs => by
        rw [hr.eval] at hs
        rw [← hnev, ← hdef.sound _ hs, hlev]
      refine ⟨g, st2, w2, E2, ?_, h2, x1.trans x2, i2, ⟨fun σ hs => k1.sound σ (hsound σ hs), fun σ ho ht => ?_, fun h => h.elim, fun h => h.elim, ?_, hr.norm, ?_, fun v hv => (hdef.aux v (hr.occ v hv).2).elim (k1.aux v) .inr⟩, ?_⟩
      · simp only [e2, hd, hl, restrict1_eq, hg, Option.map_some]
      · rw [hr.eval]
        have hn := k1.compl σ (x2.ok ho) ht
        have : (PAsg.ofLit l).over σ = σ := by
          funext v
          rw [hover]
          split
          · rename_i e; subst e
            have := hvar.val σ ho
            rw [hn] at this
            simpa [Lit.eval, hpos] using this.symm
          · rfl
        rw [this]
        exact hdef.compl σ ho
      · exact isNf_conj.1 (isNf_restrict (isNf_conj.2 hdef.shape) hg)
      · intro v hv; exact hdef.old v (hr.occ v hv).2
      · intro hpl
        refine ⟨fun σ τ hs ht hag v hv => ?_, fun S σ hS hg' hσ => ?_, fun S σ hS hg' hσ v hv => ?_⟩
        rotate_left
        · obtain ⟨c1, c2⟩ := hg'.restrict hS hdef.shape hdef.norm hpos hg
          have hσ' : Sets (fun k => (S k ∧ k.v ≠ l.v) ∨ k = l) n σ := fun v hv => .inl ⟨hσ v (k1.vars hpl v hv), fun e => hocc (e ▸ hv)⟩
          have hu := (hdef.up _ σ c1 c2 hσ').1
          refine k1.sound σ (Classical.byContradiction fun hn => ?_)
          rw [if_neg hn] at hu
          exact c1 l (.inr rfl) hu
        · obtain ⟨c1, c2⟩ := hg'.restrict hS hdef.shape hdef.norm hpos hg
          have hσ' : Sets (fun k => (S k ∧ k.v ≠ l.v) ∨ k = l) n σ := fun v hv => .inl ⟨hσ v (k1.vars hpl v hv), fun e => hocc (e ▸ hv)⟩
          obtain ⟨h3, h4⟩ := hr.occ v hv
          rw [hdom] at h3
          refine ((hdef.up _ σ c1 c2 hσ').2 v h4).imp (fun h => ?_) fun h => ?_
          · rcases h with h | h
            · exact h.1
            · exact absurd (congrArg Lit.v h) h3
          · rcases h with h | h
            · exact h.1
            · exact absurd (congrArg Lit.v h) h3
        rw [hr.eval] at hs ht
        obtain ⟨h3, h4⟩ := hr.occ v hv
        rw [hdom] at h3
        have := hdef.uniq _ _ hs ht (fun u hu => by
          rw [hover, hover]
          split
          · rfl
          · exact hag u (k1.vars hpl u hu)) v h4
        rwa [hover, hover, if_neg h3, if_neg h3] at this

end Verif
