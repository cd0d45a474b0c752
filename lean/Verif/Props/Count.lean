import Verif.F.ModelCount
/-
C46: model counting.
-/
namespace Verif
open ER Bdd

section
variable {C : Canon} {cfg : FCfg} {c : AuxTy → Nat}

theorem Known.mono {c c' : AuxTy → Nat} {v : Var} (h : Known c v) (hle : ∀ t, c t ≤ c' t) : Known c' v := by
  cases v with
  | named n => trivial
  | aux t n => cases t <;> first | exact h.elim | exact Nat.lt_of_lt_of_le h (hle _)

theorem TReach.cnt_le (hcfg : cfg.cc.Good) {w es rs} (h : TReach C cfg c w es rs) : ∀ t, c t ≤ w.cnt t := by
  induction h with
  | fresh => exact fun _ => Nat.le_refl _
  | aux _ hle ih => exact fun t => Nat.le_trans (ih t) (hle t)
  | encoder _ _ _ ih => exact ih
  | nnf h hin e ih =>
    obtain ⟨E, i⟩ := h.inv hcfg
    obtain ⟨g', w', E', e', h', x', k'⟩ := nnf_ok (C := C) hcfg i.w hin.top
    rw [e] at e'; injection e' with e'; injection e' with e1 e2; subst e2
    exact fun t => Nat.le_trans (ih t) (x'.1 t)
  | @factor w es rs o f l r w' l' h hin e ih =>
    obtain ⟨E, i⟩ := h.inv hcfg
    obtain ⟨r', w2, l2, E', e', h', x', k'⟩ := factorize_ok (C := C) hcfg i.w hin.top o l
    rw [e] at e'; injection e' with e'; injection e' with e1 e2; injection e2 with e2 e3; subst e2
    exact fun t => Nat.le_trans (ih t) (x'.1 t)
  | @cnf w es rs a s f g s' w' n h hin hes e ih =>
    obtain ⟨E, i⟩ := h.inv hcfg
    obtain ⟨g', s2, w2, E', e', h', x', i', k'⟩ := transform_ok (C := C) hcfg a i.w (i.es _ (List.mem_of_getElem? hes)) hin.top
    rw [e] at e'; injection e' with e'; injection e' with e1 e2; injection e2 with e2 e3; subst e3
    exact fun t => Nat.le_trans (ih t) (x'.1 t)

/-- What the CNF of a formula without constraints satisfies. -/
structure CnfOf (cnt : AuxTy → Nat) (f g : Formula) : Prop where
  uniq : UniqOn (Occ · f) g
  norm : g.Norm
  noCon : NoCon g
  shape : IsCnf g
  sound : ∀ σ, g.eval σ = true → f.eval σ = true
  known : ∀ v, Occ v g → Known cnt v

theorem enc_step (hcfg : cfg.cc.Good) {w es rs} (h : TReach C cfg c w es rs) {i : Nat} {s} (he : es[i]? = some (countAlg, s)) {f : Formula}
    (hn : f.Norm) (hc : NoCon f) (hk : ∀ v, Occ v f → Known w.cnt v) :
    ∃ g s' w', countAlg.transform C cfg f s w = some (g, s', w') ∧ TReach C cfg c w' (es.set i (countAlg, s')) ((f, g) :: rs) ∧
      CnfOf w'.cnt f g ∧ ∀ t, w.cnt t ≤ w'.cnt t := by
  have hin : Input cfg w.cnt f := ⟨hn, fit_noCon hc, hk⟩
  obtain ⟨E, j⟩ := h.inv hcfg
  have hs := j.es _ (List.mem_of_getElem? he)
  obtain ⟨g, s', w', E', e, h', x', i', k⟩ := transform_ok (C := C) hcfg countAlg j.w hs hin.top
  refine ⟨g, s', w', e, .cnf i h hin he e, ⟨transform_uniq hcfg countAlg (by simp [countAlg, CnfAlg.NoPg]) j.w hs hin.top hc _ _ _ e, k.norm,
    ?_, k.shape, k.sound, fun v hv => known_iff.2 (k.old v hv)⟩, x'.1⟩
  have : IsCnf g := k.shape
  exact isNnf_noCon this.nnf

/-- `cf` counts the models of formulas in CNF over their variables, in every state of the factory. -/
def Counts (C : Canon) (cfg : FCfg) (c : AuxTy → Nat) (cf : Formula → World → Option Nat) : Prop :=
  ∀ w es rs g, TReach C cfg c w es rs → g.Norm → NoCon g → IsCnf g → (∀ v, Occ v g → Known w.cnt v) → cf g w = some (modelsOver g.varSet g).card

theorem vars_ne {f : Formula} : (∃ v, Occ v f) ↔ f.varSet ≠ ∅ := by
  rw [← Finset.nonempty_iff_ne_empty]
  exact exists_congr fun v => mem_varSet.symm

/-- **C46**, `count_models_with_vars` with any correct counter of CNFs: on a formula with at least one variable whose
constraints are at-most-one or exactly-one constraints, the result is the number of assignments of the relevant
variables that satisfy the formula. -/
theorem C46_with_vars_partial (hcfg : cfg.cc.Good) {w es rs} (h : TReach C cfg c w es rs) {cf} (hcf : Counts C cfg c cf) {f : Formula}
    (hone : OneCons f) (hv : ∃ v, Occ v f) {R : Finset Var} (hR : ∀ v, Occ v f → v ∈ R) (hk : ∀ v ∈ R, Known c v) (hsz : R.card < 2 ^ 32) :
    ∃ w' es' rs', countVars C cfg cf f R w = some ((modelsOver R f).card, w') ∧ TReach C cfg c w' es' rs' := by
  obtain ⟨f', e1⟩ := Option.isSome_iff_exists.1 ((pureExp_isSome C f).2 hone)
  have k := pureExp_ok C f f' e1
  have h0 := TReach.encoder countAlg true h
  have hle := h.cnt_le hcfg
  obtain ⟨g, s', w', e2, h1, k2, hle'⟩ := enc_step hcfg h0 (i := es.length) (s := .new) (by simp) k.norm k.noCon
    fun v hv => (hk v (hR v (k.occ v hv))).mono hle
  refine ⟨w', _, _, ?_, h1⟩
  have hsub : f.varSet ⊆ R := fun v hv => hR v (mem_varSet.1 hv)
  unfold countVars
  rw [if_neg (fun h => h hsub), if_neg (vars_ne.1 hv), e1]
  simp only [Option.bind_some, if_true] at e2 ⊢
  rw [e2, Option.bind_some, hcf w' _ _ g h1 k2.norm k2.noCon k2.shape k2.known, Option.bind_some,
    pow2_some (Nat.lt_of_le_of_lt (Finset.card_le_card Finset.sdiff_subset) hsz), Option.map_some]
  congr 2
  rw [modelsOver_eq, modelsOver_eq]
  refine (card_satOver_ext ((dep_varSet f).mono hsub) (dep_varSet g) (fun σ hs => (k.eval σ).symm.trans (k2.sound σ hs)) (fun σ hs => ?_) ?_).symm
  · obtain ⟨σ', ag, hg⟩ := (C14_conservative hcfg h1 (f := f') (g := g) (by simp) (fun v hv => hk v (hR v (k.occ v hv))) σ).2 ((k.eval σ).trans hs)
    exact ⟨σ', fun v hv => ag v (hk v hv), hg⟩
  · intro σ τ hs ht ag v hv
    exact k2.uniq σ τ hs ht (fun v hv => ag v (hR v (k.occ v hv))) v (mem_varSet.1 hv)

/-- **C46**, `count_models`: the number of assignments of the formula's own variables that satisfy it. -/
theorem C46_count_partial (hcfg : cfg.cc.Good) {w es rs} (h : TReach C cfg c w es rs) {cf} (hcf : Counts C cfg c cf) {f : Formula}
    (hone : OneCons f) (hv : ∃ v, Occ v f) (hk : ∀ v, Occ v f → Known c v) (hsz : f.varSet.card < 2 ^ 32) :
    ∃ w' es' rs', countModels C cfg cf f w = some ((modelsOver f.varSet f).card, w') ∧ TReach C cfg c w' es' rs' :=
  C46_with_vars_partial hcfg h hcf hone hv (fun _ => mem_varSet.2) (fun v hv => hk v (mem_varSet.1 hv)) hsz

/-! ### Conjunctions -/

theorem cnfAll_ok (hcfg : cfg.cc.Good) (fs : List Formula) : ∀ {w es rs} (_ : TReach C cfg c w es rs) {i : Nat} {s} (_ : es[i]? = some (countAlg, s))
    (_ : ∀ f ∈ fs, OneCons f) (_ : ∀ f ∈ fs, ∀ v, Occ v f → Known c v),
    ∃ gs s' w' es' rs', cnfAll C cfg fs s w = some (gs, s', w') ∧ TReach C cfg c w' es' rs' ∧ (∀ p ∈ rs, p ∈ rs') ∧ (∀ t, w.cnt t ≤ w'.cnt t) ∧
      List.Forall₂ (fun f g => ∃ f', ExpOk f f' ∧ (f', g) ∈ rs' ∧ CnfOf w'.cnt f' g) fs gs := by
  induction fs with
  | nil => intro w es rs h i s he _ _; exact ⟨[], s, w, es, rs, rfl, h, fun _ h => h, fun _ => Nat.le_refl _, .nil⟩
  | cons f fs ih =>
    intro w es rs h i s he ho hk
    obtain ⟨f', e1⟩ := Option.isSome_iff_exists.1 ((pureExp_isSome C f).2 (ho f (by simp)))
    have k := pureExp_ok C f f' e1
    obtain ⟨g, s1, w1, e2, h1, k2, hle⟩ := enc_step hcfg h he k.norm k.noCon fun v hv => (hk f (by simp) v (k.occ v hv)).mono (h.cnt_le hcfg)
    have hlt : i < es.length := (List.getElem?_eq_some_iff.1 he).1
    obtain ⟨gs, s2, w2, es2, rs2, e3, h2, hsub, hle2, hall⟩ := ih h1 (i := i) (s := s1) (by simp [hlt]) (fun f hf => ho f (by simp [hf])) fun f hf => hk f (by simp [hf])
    refine ⟨g :: gs, s2, w2, es2, rs2, ?_, h2, fun p hp => hsub p (by simp [hp]), fun t => Nat.le_trans (hle t) (hle2 t),
      .cons ⟨f', k, hsub _ (by simp), ⟨k2.uniq, k2.norm, k2.noCon, k2.shape, k2.sound, fun v hv => (k2.known v hv).mono hle2⟩⟩ hall⟩
    simp only [cnfAll, e1, Option.bind_some, e2, e3, Option.map_some]

theorem units_ok (gs : List Formula) : ∀ (A : PAsg) (B : Finset Var),
    (∀ v, v ∈ (units gs (A, B)).1.pos ↔ v ∈ A.pos ∨ .lit ⟨v, true⟩ ∈ gs) ∧ (∀ v, v ∈ (units gs (A, B)).1.neg ↔ v ∈ A.neg ∨ .lit ⟨v, false⟩ ∈ gs) ∧
    ∀ v, v ∈ (units gs (A, B)).2 ↔ v ∈ B ∨ ∃ p, .lit ⟨v, p⟩ ∈ gs := by
  induction gs with
  | nil => intro A B; simp [units]
  | cons g gs ih =>
    intro A B
    have other : (∀ l, g ≠ .lit l) → units (g :: gs) (A, B) = units gs (A, B) := by
      intro h; cases g <;> first | exact absurd rfl (h _) | rfl
    by_cases hl : ∃ l, g = .lit l
    · obtain ⟨⟨u, p⟩, rfl⟩ := hl
      obtain ⟨h1, h2, h3⟩ := ih (A.addLit ⟨u, p⟩) (insert u B)
      simp only [units]
      refine ⟨fun v => ?_, fun v => ?_, fun v => ?_⟩
      · rw [h1]; cases p <;> simp [PAsg.addLit, or_assoc, or_left_comm]
      · rw [h2]; cases p <;> simp [PAsg.addLit, or_assoc, or_left_comm]
      · rw [h3]
        simp only [Finset.mem_insert, List.mem_cons, Formula.lit.injEq, Lit.mk.injEq]
        constructor
        · rintro ((rfl | h) | ⟨q, h⟩)
          · exact .inr ⟨p, .inl ⟨rfl, rfl⟩⟩
          · exact .inl h
          · exact .inr ⟨q, .inr h⟩
        · rintro (h | ⟨q, ⟨rfl, rfl⟩ | h⟩)
          · exact .inl (.inr h)
          · exact .inl (.inl rfl)
          · exact .inr ⟨q, h⟩
    · have hl' : ∀ l, g ≠ .lit l := fun l e => hl ⟨l, e⟩
      rw [other hl']
      obtain ⟨h1, h2, h3⟩ := ih A B
      refine ⟨fun v => ?_, fun v => ?_, fun v => ?_⟩
      · rw [h1]; simp [(hl' _).symm]
      · rw [h2]; simp [(hl' _).symm]
      · rw [h3]; simp [(hl' _).symm]

theorem bounded_noCon {P : PBC → Prop} {f : Formula} (h : NoCon f) : Bounded P f := by
  induction f using Formula.ind with
  | tru => exact .tru
  | fls => exact .fls
  | lit l => exact .lit l
  | not f ih => exact .not (ih (noCon_op h (by simp [Formula.operands])))
  | impl a b iha ihb => exact .impl (iha (noCon_op h (by simp [Formula.operands]))) (ihb (noCon_op h (by simp [Formula.operands])))
  | equiv a b iha ihb => exact .equiv (iha (noCon_op h (by simp [Formula.operands]))) (ihb (noCon_op h (by simp [Formula.operands])))
  | nary o fs ih => exact .nary fun f hf => ih f hf (noCon_op h (by simpa [Formula.operands] using hf))
  | cc c => exact ((h _ (.refl _)).1 c rfl).elim
  | pbc p => exact ((h _ (.refl _)).2 p rfl).elim

theorem noCon_restrict (C : Canon) (A : PAsg) {f : Formula} (h : NoCon f) : ∀ g, f.restrict C A = some g → NoCon g := by
  induction f using Formula.ind with
  | tru => intro g e; simp only [Formula.restrict, Option.some.injEq] at e; subst e; exact noCon_tru
  | fls => intro g e; simp only [Formula.restrict, Option.some.injEq] at e; subst e; exact noCon_fls
  | lit l =>
    intro g e; simp only [Formula.restrict, Option.some.injEq] at e; subst e
    rcases A.restrictLit_cases l with ⟨h, _⟩ | ⟨h, _⟩ | ⟨h, _⟩ <;> rw [h]
    exacts [noCon_lit l, noCon_tru, noCon_fls]
  | not f ih =>
    intro g e
    simp only [Formula.restrict] at e
    have := ih (noCon_op h (by simp [Formula.operands]))
    cases e1 : f.restrict C A with
    | none => simp [e1] at e
    | some a => simp only [e1, Option.map_some, Option.some.injEq] at e; subst e; exact noCon_mkNot (this a e1)
  | impl a b iha ihb =>
    intro g e
    simp only [Formula.restrict] at e
    split at e
    · rename_i x y e1 e2
      cases e
      exact noCon_mkImpl (iha (noCon_op h (by simp [Formula.operands])) _ e1) (ihb (noCon_op h (by simp [Formula.operands])) _ e2)
    · cases e
  | equiv a b iha ihb =>
    intro g e
    simp only [Formula.restrict] at e
    split at e
    · rename_i x y e1 e2
      cases e
      exact noCon_mkEquiv (iha (noCon_op h (by simp [Formula.operands])) _ e1) (ihb (noCon_op h (by simp [Formula.operands])) _ e2)
    · cases e
  | nary o fs ih =>
    intro g e
    have key : ∀ fs : List Formula, (∀ f ∈ fs, ∀ g, f.restrict C A = some g → NoCon g) → ∀ gs, Formula.restricts C A fs = some gs → ∀ g ∈ gs, NoCon g := by
      intro fs
      induction fs with
      | nil => intro _ gs e; simp only [Formula.restricts, Option.some.injEq] at e; subst e; simp
      | cons f fs ih =>
        intro hf gs e
        simp only [Formula.restricts] at e
        split at e
        · rename_i x y e1 e2
          cases e
          intro g hg
          rcases List.mem_cons.1 hg with rfl | hg
          · exact hf f (by simp) _ e1
          · exact ih (fun f h => hf f (by simp [h])) _ e2 g hg
        · cases e
    simp only [Formula.restrict] at e
    cases e1 : Formula.restricts C A fs with
    | none => simp [e1] at e
    | some gs =>
      simp only [e1, Option.map_some, Option.some.injEq] at e
      subst e
      exact .mkNary (key fs (fun f hf => ih f hf (noCon_op h (by simpa [Formula.operands] using hf))) gs e1)
  | cc c => exact ((h _ (.refl _)).1 c rfl).elim
  | pbc p => exact ((h _ (.refl _)).2 p rfl).elim

/-- A restricted CNF is a CNF. -/
theorem isCnf_restrict (C : Canon) (A : PAsg) {f : Formula} (h : IsCnf f) : ∀ g, f.restrict C A = some g → IsCnf g := by
  have key : ∀ fs gs : List Formula, Formula.restricts C A fs = some gs → ∀ g ∈ gs, ∃ f ∈ fs, f.restrict C A = some g := by
    intro fs
    induction fs with
    | nil => intro gs e; simp only [Formula.restricts, Option.some.injEq] at e; subst e; simp
    | cons f fs ih =>
      intro gs e
      simp only [Formula.restricts] at e
      split at e
      · rename_i x y e1 e2
        cases e
        intro g hg
        rcases List.mem_cons.1 hg with rfl | hg
        · exact ⟨f, by simp, e1⟩
        · obtain ⟨f', hf, e⟩ := ih _ e2 g hg; exact ⟨f', by simp [hf], e⟩
      · cases e
  have hlit : ∀ l g, (Formula.lit l).restrict C A = some g → g = .lit l ∨ g = .tru ∨ g = .fls := by
    intro l g e; simp only [Formula.restrict, Option.some.injEq] at e; subst e
    rcases A.restrictLit_cases l with ⟨h, _⟩ | ⟨h, _⟩ | ⟨h, _⟩ <;> rw [h] <;> simp
  have hcl : ∀ f, IsClause f → ∀ g, f.restrict C A = some g → IsClause g := by
    intro f hf g e
    cases hf with
    | tru => simp only [Formula.restrict, Option.some.injEq] at e; subst e; exact .tru
    | fls => simp only [Formula.restrict, Option.some.injEq] at e; subst e; exact .fls
    | lit l => rcases hlit l g e with rfl | rfl | rfl <;> constructor
    | @or fs hf =>
      simp only [Formula.restrict] at e
      cases e1 : Formula.restricts C A fs with
      | none => simp [e1] at e
      | some gs =>
        simp only [e1, Option.map_some, Option.some.injEq] at e
        subst e
        have hg : ∀ g ∈ gs, (∃ l, g = .lit l) ∨ g = .tru ∨ g = .fls := fun g hg => by
          obtain ⟨f, hm, e⟩ := key fs gs e1 g hg
          obtain ⟨l, rfl⟩ := hf f hm
          exact (hlit l g e).imp_left fun h => ⟨l, h⟩
        have leaf : ∀ f ∈ gs, ∀ g, OLeaf .disj g f → g = f := fun f hf g hl => by
          cases hl with
          | self _ => rfl
          | nary => rcases hg _ hf with ⟨l, h⟩ | h | h <;> cases h
        rcases Formula.mkNary_cases C .disj gs with ⟨e, _⟩ | e | ⟨f, hf, hl⟩ | ⟨l, e, _, h5⟩
        · rw [e]; exact .tru
        · rw [e]; exact .fls
        · rw [leaf f hf _ hl]
          rcases hg f hf with ⟨l, rfl⟩ | rfl | rfl <;> constructor
        · rw [e]
          refine .or fun x hx => ?_
          obtain ⟨⟨f, hf, hl⟩, hc⟩ := h5 x hx
          rw [leaf f hf _ hl] at hc ⊢
          rcases hg f hf with h | rfl | rfl
          · exact h
          · cases hc
          · cases hc
  intro g e
  cases h with
  | clause h => exact .clause (hcl f h g e)
  | @and fs hf =>
    simp only [Formula.restrict] at e
    cases e1 : Formula.restricts C A fs with
    | none => simp [e1] at e
    | some gs =>
      simp only [e1, Option.map_some, Option.some.injEq] at e
      subst e
      refine isCnf_mkAnd C gs fun g hg => ?_
      obtain ⟨f, hm, e⟩ := key fs gs e1 g hg
      exact .clause (hcl f (hf f hm) g e)

theorem restrictAll_ok (C : Canon) (A : PAsg) (gs : List Formula) (h : ∀ g ∈ gs, g.Norm ∧ NoCon g) (hc : ∀ g ∈ gs, IsCnf g) :
    ∃ hs, restrictAll C A gs = some hs ∧ (∀ x ∈ hs, x.Norm ∧ (NoCon x ∧ IsCnf x) ∧ ∀ v, Occ v x → ¬ A.Dom v ∧ ∃ g ∈ gs, Occ v g) ∧
      ∀ σ, hs.all (fun x => x.eval σ) = gs.all (fun g => g.eval (A.over σ)) := by
  induction gs with
  | nil => exact ⟨[], rfl, by simp, by simp⟩
  | cons g gs ih =>
    obtain ⟨hs, e1, k1, k2⟩ := ih (fun g hg => h g (by simp [hg])) fun g hg => hc g (by simp [hg])
    obtain ⟨x, e2, r⟩ := restrict_ok C A (h g (by simp)).1 (bounded_noCon (h g (by simp)).2)
    have k1' : ∀ x ∈ hs, x.Norm ∧ (NoCon x ∧ IsCnf x) ∧ ∀ v, Occ v x → ¬ A.Dom v ∧ ∃ g' ∈ g :: gs, Occ v g' := fun x hx => by
      obtain ⟨a, b, d⟩ := k1 x hx
      refine ⟨a, b, fun v hv => ?_⟩
      obtain ⟨d1, g', hg', d2⟩ := d v hv
      exact ⟨d1, g', by simp [hg'], d2⟩
    by_cases ht : x = .tru
    · refine ⟨hs, by simp only [restrictAll, e2, Option.bind_some, e1, Option.map_some, if_pos ht], k1', fun σ => ?_⟩
      have := r.eval σ
      rw [ht, Formula.eval_tru] at this
      rw [k2, List.all_cons, ← this, Bool.true_and]
    · refine ⟨x :: hs, by simp only [restrictAll, e2, Option.bind_some, e1, Option.map_some, if_neg ht], fun y hy => ?_, fun σ => ?_⟩
      · rcases List.mem_cons.1 hy with rfl | hy
        · exact ⟨r.norm, ⟨noCon_restrict C A (h g (by simp)).2 _ e2, isCnf_restrict C A (hc g (by simp)) _ e2⟩, fun v hv => ⟨(r.occ v hv).1, g, by simp, (r.occ v hv).2⟩⟩
        · exact k1' y hy
      · rw [List.all_cons, List.all_cons, k2, r.eval]

theorem forall2_mem {α β : Type} {P : α → β → Prop} {l : List α} {l' : List β} (h : List.Forall₂ P l l') :
    (∀ a ∈ l, ∃ b ∈ l', P a b) ∧ ∀ b ∈ l', ∃ a ∈ l, P a b := by
  induction h with
  | nil => simp
  | cons h _ ih =>
    refine ⟨fun a ha => ?_, fun b hb => ?_⟩
    · rcases List.mem_cons.1 ha with rfl | ha
      · exact ⟨_, by simp, h⟩
      · obtain ⟨b, hb, k⟩ := ih.1 a ha; exact ⟨b, by simp [hb], k⟩
    · rcases List.mem_cons.1 hb with rfl | hb
      · exact ⟨_, by simp, h⟩
      · obtain ⟨a, ha, k⟩ := ih.2 b hb; exact ⟨a, by simp [ha], k⟩

/-- **C46**, `count_models_conjunction_with_vars` with any correct counter of CNFs: the number of assignments of the
relevant variables that satisfy all formulas. -/
theorem C46_conjunction_with_vars_partial (hcfg : cfg.cc.Good) {w es rs} (h : TReach C cfg c w es rs) {cf} (hcf : Counts C cfg c cf) {fs : List Formula}
    (hone : ∀ f ∈ fs, OneCons f) (hv : ∃ f ∈ fs, ∃ v, Occ v f) {R : Finset Var} (hR : ∀ f ∈ fs, ∀ v, Occ v f → v ∈ R)
    (hk : ∀ v ∈ R, Known c v) (hsz : R.card < 2 ^ 32) :
    ∃ w' es' rs', countConjVars C cfg cf fs R w = some ((satOver R fun σ => fs.all fun f => f.eval σ).card, w') ∧ TReach C cfg c w' es' rs' := by
  have h0 := TReach.encoder countAlg true h
  obtain ⟨gs, s', w', es', rs', e1, h1, _, _, hall⟩ := cnfAll_ok hcfg fs h0 (i := es.length) (s := .new) (by simp) hone fun f hf v hv => hk v (hR f hf v hv)
  obtain ⟨all1, all2⟩ := forall2_mem hall
  refine ⟨w', es', rs', ?_, h1⟩
  have hsub : varsOf fs ∅ ⊆ R := fun v hv => by
    rcases mem_varsOf.1 hv with hv | ⟨f, hf, hv⟩
    · simp at hv
    · exact hR f hf v hv
  have hne : varsOf fs ∅ ≠ ∅ := by
    obtain ⟨f, hf, v, hv⟩ := hv
    exact Finset.nonempty_iff_ne_empty.1 ⟨v, mem_varsOf.2 (.inr ⟨f, hf, hv⟩)⟩
  have hgs : ∀ g ∈ gs, g.Norm ∧ NoCon g ∧ (∀ v, Occ v g → Known w'.cnt v) ∧
      ∀ σ τ, g.eval σ = true → g.eval τ = true → (∀ v ∈ R, σ v = τ v) → ∀ v, Occ v g → σ v = τ v := fun g hg => by
    obtain ⟨f, hf, f', k, _, k2⟩ := all2 g hg
    exact ⟨k2.norm, k2.noCon, k2.known, fun σ τ hs ht ag v hv => k2.uniq σ τ hs ht (fun v hv => ag v (hR f hf v (k.occ v hv))) v hv⟩
  obtain ⟨u1, u2, u3⟩ := units_ok gs ⟨[], []⟩ ∅
  simp only [List.not_mem_nil, false_or, Finset.notMem_empty] at u1 u2 u3
  rcases eu : units gs (⟨[], []⟩, ∅) with ⟨A, B⟩
  rw [eu] at u1 u2 u3
  simp only at u1 u2 u3
  have hdom : ∀ v, A.Dom v ↔ v ∈ B := fun v => by
    unfold PAsg.Dom
    rw [u1, u2, u3]
    exact ⟨fun h => h.elim (fun h => ⟨_, h⟩) fun h => ⟨_, h⟩, fun ⟨p, h⟩ => by cases p; exacts [.inr h, .inl h]⟩
  obtain ⟨hs, e2, k1, k2⟩ := restrictAll_ok C A gs (fun g hg => ⟨(hgs g hg).1, (hgs g hg).2.1⟩) fun g hg => by
    obtain ⟨f, hf, f', k, _, k2⟩ := all2 g hg
    exact k2.shape
  have hH : ∀ σ, (Formula.mkAnd C hs).eval σ = hs.all fun x => x.eval σ := fun σ => by rw [Formula.mkAnd, Formula.eval_mkNary]; rfl
  have hcount : cf (Formula.mkAnd C hs) w' = some (satOver (varsOf hs ∅) fun σ => hs.all fun x => x.eval σ).card := by
    rw [hcf w' _ _ _ h1 (Formula.norm_mkNary C _ fun x hx => (k1 x hx).1) (.mkNary fun x hx => (k1 x hx).2.1.1) (isCnf_mkAnd C hs fun x hx => (k1 x hx).2.1.2) fun v hv => by
      obtain ⟨x, hx, hv⟩ := Formula.occ_mkNary hv
      obtain ⟨_, g, hg, hv⟩ := (k1 x hx).2.2 v hv
      exact (hgs g hg).2.2.1 v hv]
    congr 1
    rw [modelsOver_eq, satOver_congr hH]
    by_cases hf : Formula.mkAnd C hs = .fls
    · rw [satOver_false fun σ => by rw [← hH, hf, Formula.eval_fls], satOver_false fun σ => by rw [← hH, hf, Formula.eval_fls]]
    · congr 2
      ext v
      rw [mem_varSet, mem_varsOf]
      simp only [Finset.notMem_empty, false_or]
      constructor
      · exact fun hv => Formula.occ_mkNary hv
      · rintro ⟨x, hx, hv⟩
        exact (occ_mkNary_mono hx hv).resolve_right hf
  unfold countConjVars
  rw [if_neg (fun h => h hsub), if_neg hne, e1, Option.bind_some]
  simp only [eu, e2, Option.bind_some, hcount]
  rw [pow2_some (Nat.lt_of_le_of_lt (Finset.card_le_card Finset.sdiff_subset) hsz), Option.map_some]
  congr 2
  -- the models of the conjunction of the CNFs
  let Q : Asg → Bool := fun σ => gs.all fun g => g.eval σ
  have hQsound : ∀ σ, Q σ = true → (fs.all fun f => f.eval σ) = true := fun σ hq => by
    rw [List.all_eq_true] at hq ⊢
    intro f hf
    obtain ⟨g, hg, f', k, _, kk⟩ := all1 f hf
    rw [← k.eval]; exact kk.sound σ (hq g hg)
  have hQc : ∀ σ, (fs.all fun f => f.eval σ) = true → ∃ σ' : Asg, (∀ v ∈ R, σ' v = σ v) ∧ Q σ' = true := fun σ hp => by
    obtain ⟨σ', ag, ok⟩ := (C14_all_results_conservative hcfg h1).2 σ
    refine ⟨σ', fun v hv => ag v (hk v hv), ?_⟩
    rw [List.all_eq_true] at hp ⊢
    intro g hg
    obtain ⟨f, hf, f', k, hm, kk⟩ := all2 g hg
    rw [ok _ hm, k.eval, Formula.eval_congr (τ := σ) fun v hv => ag v (hk v (hR f hf v hv))]
    exact hp f hf
  have hP : DepOn R fun σ => fs.all fun f => f.eval σ := fun σ τ ag => by
    rw [Bool.eq_iff_iff, List.all_eq_true, List.all_eq_true]
    refine forall_congr' fun f => forall_congr' fun hf => ?_
    rw [Formula.eval_congr fun v hv => ag v (hR f hf v hv)]
  have hV : DepOn (varsOf hs ∅) fun σ => hs.all fun x => x.eval σ := fun σ τ ag => by
    rw [Bool.eq_iff_iff, List.all_eq_true, List.all_eq_true]
    refine forall_congr' fun f => forall_congr' fun hf => ?_
    rw [Formula.eval_congr fun v hv => ag v (mem_varsOf.2 (.inr ⟨f, hf, hv⟩))]
  have hU : varsOf hs B = B ∪ varsOf hs ∅ := by ext v; simp [mem_varsOf]
  have hunits : ∀ σ, Q σ = true → (∀ v ∈ A.pos, σ v = true) ∧ ∀ v ∈ A.neg, σ v = false := fun σ hq => by
    rw [List.all_eq_true] at hq
    refine ⟨fun v hv => ?_, fun v hv => ?_⟩
    · have := hq _ ((u1 v).1 hv); simpa [Lit.eval] using this
    · have := hq _ ((u2 v).1 hv); simpa [Lit.eval] using this
  rw [hU]
  by_cases hcons : ∃ v, v ∈ A.pos ∧ v ∈ A.neg
  · obtain ⟨v, h1, h2⟩ := hcons
    have hfalse : ∀ σ, Q σ = false := fun σ => by
      cases hq : Q σ with
      | false => rfl
      | true => have := hunits σ hq; have a := this.1 v h1; rw [this.2 v h2] at a; cases a
    have z1 : (satOver (varsOf hs ∅) fun σ => hs.all fun x => x.eval σ) = ∅ := satOver_false fun σ => (k2 σ).trans (hfalse _)
    have z2 : (satOver R fun σ => fs.all fun f => f.eval σ) = ∅ := satOver_false fun σ => by
      cases hp : fs.all fun f => f.eval σ with
      | false => rfl
      | true => obtain ⟨σ', _, h⟩ := hQc σ hp; rw [hfalse] at h; cases h
    rw [z1, z2]; simp
  · have hβ : ∀ v, v ∈ A.pos → v ∉ A.neg := fun v h1 h2 => hcons ⟨v, h1, h2⟩
    have hQ : ∀ σ, Q σ = true ↔ (∀ v ∈ B, σ v = decide (v ∈ A.pos)) ∧ (hs.all fun x => x.eval σ) = true := fun σ => by
      have key : (∀ v ∈ B, σ v = decide (v ∈ A.pos)) → A.over σ = σ := fun hb => by
        funext v
        unfold PAsg.over
        by_cases h1 : v ∈ A.pos
        · rw [if_pos h1, hb v ((hdom v).1 (.inl h1))]; simp [h1]
        · rw [if_neg h1]
          by_cases h2 : v ∈ A.neg
          · rw [if_pos h2, hb v ((hdom v).1 (.inr h2))]; simp [h1]
          · rw [if_neg h2]
      constructor
      · intro hq
        have hb : ∀ v ∈ B, σ v = decide (v ∈ A.pos) := fun v hv => by
          obtain ⟨q1, q2⟩ := hunits σ hq
          by_cases h1 : v ∈ A.pos
          · rw [q1 v h1]; simp [h1]
          · have h2 : v ∈ A.neg := ((hdom v).2 hv).resolve_left h1
            rw [q2 v h2]; simp [h1]
        refine ⟨hb, ?_⟩
        rw [k2, key hb]; exact hq
      · rintro ⟨hb, hq⟩
        rw [k2, key hb] at hq; exact hq
    have hdis : Disjoint B (varsOf hs ∅) := by
      rw [Finset.disjoint_left]
      intro v hb hv
      rcases mem_varsOf.1 hv with hv | ⟨x, hx, hv⟩
      · simp at hv
      · exact ((k1 x hx).2.2 v hv).1 ((hdom v).2 hb)
    have hQdep : DepOn (B ∪ varsOf hs ∅) Q := fun σ τ ag => by
      have ev : (hs.all fun x => x.eval σ) = hs.all fun x => x.eval τ := hV σ τ fun v hv => ag v (by simp [hv])
      rw [Bool.eq_iff_iff, hQ, hQ, ev]
      refine and_congr_left fun _ => forall_congr' fun v => forall_congr' fun hv => ?_
      rw [ag v (by simp [hv])]
    have := card_satOver_ext hP hQdep hQsound hQc fun σ τ hs' ht ag v hv => by
      have hocc : ∃ g ∈ gs, Occ v g := by
        rcases Finset.mem_union.1 hv with hv | hv
        · obtain ⟨p, hp⟩ := (u3 v).1 hv
          exact ⟨_, hp, by simp⟩
        · rcases mem_varsOf.1 hv with hv | ⟨x, hx, hv⟩
          · simp at hv
          · exact ((k1 x hx).2.2 v hv).2
      obtain ⟨g, hg, ho⟩ := hocc
      exact (hgs g hg).2.2.2 σ τ (List.all_eq_true.1 hs' g hg) (List.all_eq_true.1 ht g hg) ag v ho
    rw [this, card_satOver_fixed (fun v => decide (v ∈ A.pos)) hV hdis hQ]

/-- **C46**, `count_models_conjunction`. -/
theorem C46_conjunction_partial (hcfg : cfg.cc.Good) {w es rs} (h : TReach C cfg c w es rs) {cf} (hcf : Counts C cfg c cf) {fs : List Formula}
    (hone : ∀ f ∈ fs, OneCons f) (hv : ∃ f ∈ fs, ∃ v, Occ v f) (hk : ∀ f ∈ fs, ∀ v, Occ v f → Known c v) (hsz : (varsOf fs ∅).card < 2 ^ 32) :
    ∃ w' es' rs', countConj C cfg cf fs w = some ((satOver (varsOf fs ∅) fun σ => fs.all fun f => f.eval σ).card, w') ∧ TReach C cfg c w' es' rs' :=
  C46_conjunction_with_vars_partial hcfg h hcf hone hv (fun f hf _ hv => mem_varsOf.2 (.inr ⟨f, hf, hv⟩))
    (fun v hv => (mem_varsOf.1 hv).elim (fun h => by simp at h) fun ⟨f, hf, h⟩ => hk f hf v h) hsz

/-! ### Counting with BDDs -/

theorem vecs_nodup : ∀ n, (vecs n).Nodup
  | 0 => by simp [vecs]
  | n + 1 => by
    have ih := vecs_nodup n
    rw [vecs, List.nodup_append]
    refine ⟨ih.map fun a b h => by simpa using h, ih.map fun a b h => by simpa using h, ?_⟩
    intro a ha b hb e
    obtain ⟨x, _, rfl⟩ := List.mem_map.1 ha
    obtain ⟨y, _, rfl⟩ := List.mem_map.1 hb
    simp at e

/-- Assignments of a list of variables as bit vectors. -/
theorem card_satOver_vec {V : List Var} (hV : V.Nodup) {P : Asg → Bool} (hd : DepOn V.toFinset P) {ms : List (List Bool)} (hn : ms.Nodup)
    (hms : ∀ v, v ∈ ms ↔ v.length = V.length ∧ P (asgVec V v) = true) : (satOver V.toFinset P).card = ms.length := by
  rw [← List.toFinset_card_of_nodup hn]
  refine Finset.card_bij (fun A _ => V.map fun v => decide (v ∈ A)) ?_ ?_ ?_
  · intro A hA
    rw [mem_satOver] at hA
    rw [List.mem_toFinset, hms]
    refine ⟨by simp, ?_⟩
    rw [← hA.2]
    refine hd _ _ fun v hv => ?_
    have hv : v ∈ V := List.mem_toFinset.1 hv
    unfold asgVec
    rw [List.getD_eq_getElem?_getD, List.getElem?_map, List.getElem?_idxOf hv]
    rfl
  · intro A hA B hB e
    rw [mem_satOver] at hA hB
    ext v
    constructor
    · intro h
      have hv : v ∈ V := List.mem_toFinset.1 (hA.1 h)
      have := List.map_inj_left.1 e v hv
      simpa [h] using this
    · intro h
      have hv : v ∈ V := List.mem_toFinset.1 (hB.1 h)
      have := List.map_inj_left.1 e v hv
      simpa [h] using this
  · intro m hm
    rw [List.mem_toFinset, hms] at hm
    refine ⟨trueIn V.toFinset (asgVec V m), ?_, ?_⟩
    · rw [mem_satOver]
      exact ⟨Finset.filter_subset _ _, (hd.trueIn (Finset.Subset.refl _) _).trans hm.2⟩
    · refine List.ext_getElem (by simp [hm.1]) fun i h1 h2 => ?_
      simp only [List.length_map] at h1
      rw [List.getElem_map, dec_trueIn (List.mem_toFinset.2 (List.getElem_mem h1))]
      unfold asgVec
      rw [hV.idxOf_getElem, List.getD_eq_getElem?_getD, List.getElem?_eq_getElem h2]
      rfl

theorem bddCount_val (hcfg : cfg.cc.Good) {ord : Formula → List Var} (hord : ∀ f, (ord f).Nodup ∧ ∀ v, v ∈ ord f ↔ Occ v f) {size csize : Nat}
    {grow : Nat → Nat → Nat} (hs : 3 ≤ size) (hg : ∀ g n, n < grow g n) :
    ∀ w es rs f, TReach C cfg c w es rs → f.Norm → NoCon f → (∀ v, Occ v f → Known w.cnt v) → bddCount C cfg ord size csize grow f w = some (modelsOver f.varSet f).card := by
  intro w es rs f h hn hc hk
  obtain ⟨o1, o2⟩ := hord f
  obtain ⟨k, e1, hp, hvn, hidx⟩ := newOrd_ok (vs := ord f) (csize := csize) hs hg
  have hin : Input cfg (BSt.mk k w 0).w.cnt f := ⟨hn, fit_noCon hc, hk⟩
  have hr : BReach C cfg c ⟨k, w, 0⟩ [] := .ord h hs hg e1
  have hidx := hidx o1
  obtain ⟨E, i⟩ := hr.inv hcfg
  have tot := (C36_total hcfg hr hin hc (ord f) (by simp [hidx]) (fun v hv => (o2 v).2 hv) (by simp [hvn])).1 nop
  rcases build_nop (C := C) hcfg hin.top i.pub i.w with ⟨e, _⟩ | ⟨x, s', E', e, hp', st, _⟩
  · exact (tot e).elim
  have hr' : BReach C cfg c s' [(x, f)] := .step hr (.build hin e)
  have hvn' : s'.k.varnum = (ord f).length := st.adv.varnum.trans hvn
  have hpre : ord f <+: s'.k.idx := by have := st.adv.idx; rwa [show (BSt.mk k w 0).k.idx = ord f from hidx] at this
  have hidx' : s'.k.idx = ord f := (hpre.eq_of_length_le (by have := hp'.idxLen; omega)).symm
  have hset : f.varSet = (ord f).toFinset := by ext v; rw [mem_varSet, List.mem_toFinset, o2]
  let ms := (vecs (ord f).length).filter fun v => f.eval (asgVec (ord f) v)
  have hms : ∀ v, v ∈ ms ↔ v.length = (ord f).length ∧ f.eval (asgVec (ord f) v) = true := fun v => by
    simp only [ms, List.mem_filter, mem_vecs]
  have hnd : ms.Nodup := (vecs_nodup _).filter _
  obtain ⟨k', e2⟩ := C40_model_count (r := x) hcfg (.held hr' (.inr ⟨f, by simp⟩)) hnd fun v => by
    rw [hms, hidx', C36_construction hcfg hr hin hc nop e]; simp
  have hd : DepOn (ord f).toFinset f.eval := by rw [← hset]; exact dep_varSet f
  unfold bddCount
  rw [e1, Option.bind_some, e, Option.bind_some]
  simp only [Option.bind_some, e2, Option.map_some, Option.some.injEq]
  rw [modelsOver_eq, hset, card_satOver_vec o1 hd hnd hms, hidx', hvn']
  simp

/-- **C46**: the BDD counter is correct, for every variable ordering without repetitions of exactly the variables of the
formula, every initial size, and every growth policy. -/
theorem C46_bdd_counter (hcfg : cfg.cc.Good) {ord : Formula → List Var} (hord : ∀ f, (ord f).Nodup ∧ ∀ v, v ∈ ord f ↔ Occ v f) {size csize : Nat}
    {grow : Nat → Nat → Nat} (hs : 3 ≤ size) (hg : ∀ g n, n < grow g n) : Counts C cfg c (bddCount C cfg ord size csize grow) :=
  fun w es rs f h hn hc _ hk => bddCount_val hcfg hord hs hg w es rs f h hn hc hk

/-- **C46** for `count_models` with BDDs. -/
theorem C46_bdd_partial (hcfg : cfg.cc.Good) {w es rs} (h : TReach C cfg c w es rs) {ord : Formula → List Var}
    (hord : ∀ f, (ord f).Nodup ∧ ∀ v, v ∈ ord f ↔ Occ v f) {size csize : Nat} {grow : Nat → Nat → Nat} (hs : 3 ≤ size) (hg : ∀ g n, n < grow g n)
    {f : Formula} (hone : OneCons f) (hv : ∃ v, Occ v f) (hk : ∀ v, Occ v f → Known c v) (hsz : f.varSet.card < 2 ^ 32) :
    ∃ w' es' rs', countModels C cfg (bddCount C cfg ord size csize grow) f w = some ((modelsOver f.varSet f).card, w') ∧ TReach C cfg c w' es' rs' :=
  C46_count_partial hcfg h (C46_bdd_counter hcfg hord hs hg) hone hv hk hsz

/-- **C46** fails for constants: `verum` over a set of relevant variables counts as one model.  It has `2^n`. -/
theorem C46_verum_wrong (cf : Formula → World → Option Nat) (w : World) (R : Finset Var) :
    countVars C cfg cf .tru R w = some (1, w) ∧ countConjVars C cfg cf [.tru] R w = some (1, w) ∧ (modelsOver R .tru).card = 2 ^ R.card := by
  have e : (Formula.tru).varSet = ∅ := by ext v; simp [mem_varSet]
  refine ⟨by simp [countVars, e], by simp [countConjVars, varsOf, e], ?_⟩
  rw [modelsOver_eq, satOver, Finset.filter_true_of_mem (by simp), Finset.card_powerset]

/-- **C46**: any other constraint is a panic. -/
theorem C46_constraint_panics (cf : Formula → World → Option Nat) (w : World) {f : Formula} {R : Finset Var} (hv : ∃ v, Occ v f) (hone : ¬ OneCons f) :
    countVars C cfg cf f R w = none := by
  unfold countVars
  split
  · rfl
  · rw [if_neg (vars_ne.1 hv)]
    have : f.pureExp C = none := by
      cases e : f.pureExp C with
      | none => rfl
      | some g => exact (hone ((pureExp_isSome C f).1 (by rw [e]; rfl))).elim
    rw [this]; rfl

end

/-! ### d-DNNFs -/

/-- **C46**, `dnnf::count`: for a deterministic decomposable negation normal form over some of the original variables it
is the number of assignments of the original variables that satisfy it. -/
theorem C46_dnnf_count {f : Formula} (h : Ddnnf f) {orig : Finset Var} (ho : ∀ v, Occ v f → v ∈ orig) : dnnfCountOver orig f = some (modelsOver orig f).card := by
  unfold dnnfCountOver
  rw [dnnfCount_ok h, Option.map_some, modelsOver_eq, modelsOver_eq, card_satOver_free (dep_varSet f) fun v hv => ho v (mem_varSet.1 hv)]

private abbrev va : Var := .named 0
private abbrev vb : Var := .named 1
private abbrev vc : Var := .named 2
private abbrev vd : Var := .named 3

/-- `(a & b) | (~a & (c | (~c & d)))` over five variables: 20 models. -/
example : ∃ f, Ddnnf f ∧ (∀ v, Occ v f → v ∈ [va, vb, vc, vd, .named 4].toFinset) ∧ dnnfCountOver [va, vb, vc, vd, .named 4].toFinset f = some 20 := by
  refine ⟨.nary .disj [.nary .conj [.lit va.p, .lit vb.p], .nary .conj [.lit va.n, .nary .disj [.lit vc.p, .nary .conj [.lit vc.n, .lit vd.p]]]], ?_, ?_, by decide +kernel⟩
  · refine .or ?_ ?_
    · simp only [List.mem_cons, List.not_mem_nil, or_false]
      rintro f (rfl | rfl)
      · exact .and (by simp only [List.mem_cons, List.not_mem_nil, or_false]; rintro f (rfl | rfl) <;> exact .lit _) (by simp)
      · refine .and ?_ (by simp +decide [Formula.occ_nary])
        simp only [List.mem_cons, List.not_mem_nil, or_false]
        rintro f (rfl | rfl)
        · exact .lit _
        · refine .or ?_ (by simp +contextual [Formula.eval_nary, Op.eval, Lit.eval])
          simp only [List.mem_cons, List.not_mem_nil, or_false]
          rintro f (rfl | rfl)
          · exact .lit _
          · exact .and (by simp only [List.mem_cons, List.not_mem_nil, or_false]; rintro f (rfl | rfl) <;> exact .lit _) (by simp)
    · simp +contextual [Formula.eval_nary, Op.eval, Lit.eval]
  · intro v hv
    simp only [Formula.occ_nary, List.mem_cons, List.not_mem_nil, or_false, exists_eq_or_imp, exists_eq_left, Formula.occ_lit] at hv
    simp only [List.mem_toFinset, List.mem_cons]
    tauto

/-- `(a + b + c = 1) | (a & ~d)`. -/
def exCount : Formula := .nary .disj [.cc ⟨[va, vb, vc], .eq, 1⟩, .nary .conj [.lit va.p, .lit vd.n]]
/-- `b`, `a + b + c <= 1`, `a <=> (c | ~d)`. -/
def exConj : List Formula := [.lit vb.p, .cc ⟨[va, vb, vc], .le, 1⟩, .equiv (.lit va.p) (.nary .disj [.lit vc.p, .lit vd.n])]

theorem exB_good : exB.cc.Good := trivial

/-- The hypotheses are met: the counter with the variables in order of occurrence, and formulas with constraints. -/
example : Counts canon0 exB (fun _ => 0) (bddCount canon0 exB fnVars.val 50 50 growR) ∧ TReach canon0 exB (fun _ => 0) (World.fresh fun _ => 0) [] [] ∧
    OneCons exCount ∧ (∃ v, Occ v exCount) ∧ (∀ v, Occ v exCount → Known (fun _ => 0) v) ∧ exCount.varSet.card < 2 ^ 32 ∧
    (countModels canon0 exB (bddCount canon0 exB fnVars.val 50 50 growR) exCount (World.fresh fun _ => 0)).map (·.1) = some 9 ∧
    (∀ f ∈ exConj, OneCons f) ∧ (∀ f ∈ exConj, ∀ v, Occ v f → Known (fun _ => 0) v) ∧
    (countConjVars canon0 exB (bddCount canon0 exB fnVars.val 50 50 growR) exConj {va, vb, vc, vd, .named 7} (World.fresh fun _ => 0)).map (·.1) = some 2 := by
  have named : ∀ f : Formula, (fnVars.val f).all (fun v => match v with | .named _ => true | _ => false) = true → ∀ v, Occ v f → Known (fun _ => 0) v := fun f h v hv => by
    have := List.all_eq_true.1 h v (((vars_val f).1 v).2 hv)
    cases v with
    | named n => trivial
    | aux t n => cases this
  refine ⟨C46_bdd_counter exB_good (fun f => ⟨(vars_val f).2, (vars_val f).1⟩) (by decide) growR_lt, .fresh, ?_, ⟨va, ?_⟩, named _ (by decide), by decide, by decide +kernel,
    ?_, ?_, by decide +kernel⟩
  · exact (pureExp_isSome canon0 _).1 (by decide)
  · exact ((vars_val _).1 _).1 (by decide)
  · simp only [exConj, List.mem_cons, List.not_mem_nil, or_false]
    rintro f (rfl | rfl | rfl) <;> exact (pureExp_isSome canon0 _).1 (by decide)
  · simp only [exConj, List.mem_cons, List.not_mem_nil, or_false]
    rintro f (rfl | rfl | rfl) <;> exact named _ (by decide)

end Verif
