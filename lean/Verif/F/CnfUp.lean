import Verif.F.Count
/-
Unit propagation on the results of the CNF algorithms (cnf/mod.rs:42-69).
-/
namespace Verif
open ER

/-- The variables of `g` are decided. -/
def Decided (S : Lit → Prop) (g : Formula) : Prop := ∀ v, Occ v g → S v.p ∨ S v.n

theorem lazyAnd_up (C : Canon) {S : Lit → Prop} {σ : Asg} {dec : Prop} (hS : LitCons S) {c0 cS ES} {run : Formula → EncSt → World → Option (Formula × EncSt × World)}
    (fs : List Formula)
    (hrun : ∀ f ∈ fs, ∀ s w E, WInv c0 w E → EncInv E w.cnt s → GExt cS ES w.cnt E → AlgStep c0 w E (It.wk f) (run f s w) ∧
      ∀ g s' w', run f s w = some (g, s', w') → SCd S g → f.eval σ = true ∧ (dec → Decided S g)) :
    ∀ acc s w E, WInv c0 w E → EncInv E w.cnt s → GExt cS ES w.cnt E → (∀ g ∈ acc, SCd S g → dec → Decided S g) →
      ∀ g s' w', lazyAnd C run fs acc s w = some (g, s', w') → SCd S g →
        (∀ f ∈ fs, f.eval σ = true) ∧ (∀ a ∈ acc, SCd S a) ∧ (dec → Decided S g) := by
  have decAnd : ∀ gs : List Formula, SCd S (Formula.mkAnd C gs) → (∀ g ∈ gs, SCd S g → dec → Decided S g) → dec → Decided S (Formula.mkAnd C gs) := by
    intro gs h hd hdec v hv
    obtain ⟨g, hg, ho⟩ := Formula.occ_mkNary hv
    exact hd g hg (h.op hS hg) hdec v ho
  induction fs with
  | nil =>
    intro acc s w E h hi hx ha g s' w' e hg
    simp only [lazyAnd, Option.some.injEq, Prod.mk.injEq] at e
    rw [← e.1] at hg ⊢
    exact ⟨by simp, fun a ha => hg.op hS ha, decAnd acc hg ha⟩
  | cons f fs ih =>
    intro acc s w E h hi hx ha g s' w' e hg
    obtain ⟨⟨g1, s1, w1, E1, e1, h1, x1, i1, k1⟩, u⟩ := hrun f (by simp) s w E h hi hx
    have hu := u _ _ _ e1
    have ha' : ∀ g ∈ acc ++ [g1], SCd S g → dec → Decided S g := fun g hg => by
      rcases List.mem_append.1 hg with hg | hg
      · exact ha g hg
      · rw [List.mem_singleton.1 hg]; exact fun h => (hu h).2
    simp only [lazyAnd, e1] at e
    by_cases hn : Formula.flats .conj (acc ++ [g1]) [] = none
    · rw [if_pos hn] at e
      simp only [Option.some.injEq, Prod.mk.injEq] at e
      rw [← e.1] at hg
      refine absurd (hg .fls ?_) (SC.not_fls hS fun σ _ => by simp)
      unfold Formula.mkAnd Formula.mkNary
      rw [hn]
      exact .self (by simp)
    · rw [if_neg hn] at e
      obtain ⟨r1, r2, r3⟩ := ih (fun f hf => hrun f (by simp [hf])) _ s1 w1 E1 h1 i1 (hx.trans x1) ha' g s' w' e hg
      refine ⟨fun f' hf' => ?_, fun a ha => r2 a (by simp [ha]), r3⟩
      rcases List.mem_cons.1 hf' with rfl | hf'
      · exact (hu (r2 g1 (by simp))).1
      · exact r1 f' hf'

/-- Without constraints, propagation from the values of the variables finds a contradiction if the formula is
false; without Plaisted-Greenbaum it decides all variables. -/
theorem transform_up {C : Canon} {cfg : FCfg} (hcfg : cfg.cc.Good) {c0} (a : CnfAlg) : ∀ {f s w E}, WInv c0 w E → EncInv E w.cnt s →
    PTop cfg w.cnt f → NoCon f → ∀ g s' w', a.transform C cfg f s w = some (g, s', w') → UpOk f g ∧ (a.NoPg → UpDec f g) := by
  have self : ∀ f : Formula, UpOk f f ∧ UpDec f f := fun f => upOk_plain (fun _ h => h) fun _ h => h
  induction a with
  | factorization =>
    intro f s w E h hi hp hn g s' w' e
    unfold CnfAlg.transform at e
    split at e
    · simp only [Option.some.injEq, Prod.mk.injEq] at e; rw [← e.1]; exact ⟨(self f).1, fun _ => (self f).2⟩
    · obtain ⟨g', w2, E', e', h', x, k⟩ := factorizationCnf_ok (C := C) hcfg h hp
      rw [e'] at e
      simp only [Option.map_some, Option.some.injEq, Prod.mk.injEq] at e
      have := upOk_plain k.sound (k.vars hn)
      rw [← e.1]; exact ⟨this.1, fun _ => this.2⟩
  | tseitin b =>
    intro f s w E h hi hp hn g s' w' e
    unfold CnfAlg.transform at e
    split at e
    · simp only [Option.some.injEq, Prod.mk.injEq] at e; rw [← e.1]; exact ⟨(self f).1, fun _ => (self f).2⟩
    · have ht : TsInv E w.cnt (s.ts.getD .empty) := by
        cases hs : s.ts with
        | none => exact TsInv.empty _ _
        | some t => exact hi.ts t hs
      obtain ⟨g', t, w2, E', e', h', x, i', k, u⟩ := tseitin_ok (C := C) hcfg h ht b hp
      rw [e'] at e
      simp only [Option.map_some, Option.some.injEq, Prod.mk.injEq] at e
      rw [← e.1]; exact ⟨(u hn).2.1, fun _ => (u hn).2.2⟩
  | pg b =>
    intro f s w E h hi hp hn g s' w' e
    unfold CnfAlg.transform at e
    split at e
    · simp only [Option.some.injEq, Prod.mk.injEq] at e; rw [← e.1]; exact ⟨(self f).1, fun _ => (self f).2⟩
    · have ht : PgInv E w.cnt (s.pg.getD .empty) := by
        cases hs : s.pg with
        | none => exact PgInv.empty _ _
        | some t => exact hi.pg t hs
      obtain ⟨g', t, w2, E', e', h', x, i', k, u⟩ := pgCnf_ok (C := C) hcfg h ht b hp
      rw [e'] at e
      simp only [Option.map_some, Option.some.injEq, Prod.mk.injEq] at e
      rw [← e.1]; exact ⟨u hn, fun h => h.elim⟩
  | advanced dl cl fb ih =>
    intro f s w E h hi hp hn g s' w' e
    have single : ∀ {f s w E}, WInv c0 w E → EncInv E w.cnt s → PTop cfg w.cnt f → NoCon f →
        AlgStep c0 w E (It.wk f) (singleAdvanced C cfg dl cl (fb.transform C cfg) f s w) ∧
        ∀ g s' w', singleAdvanced C cfg dl cl (fb.transform C cfg) f s w = some (g, s', w') → UpOk f g ∧ (fb.NoPg → UpDec f g) := by
      intro f s w E h hi hp hn
      obtain ⟨r, w1, l1, E1, e, h1, x1, k⟩ := factorize_ok (C := C) hcfg h hp .conj ⟨0, 0, some dl, some cl⟩
      unfold singleAdvanced
      rw [e]
      cases r with
      | some g =>
        refine ⟨⟨g, s, w1, E1, rfl, h1, x1, hi.mono x1, TrOk.wk (k g rfl)⟩, fun g' s' w' e' => ?_⟩
        simp only [Option.some.injEq, Prod.mk.injEq] at e'
        have := upOk_plain (k g rfl).sound ((k g rfl).vars hn)
        rw [← e'.1]; exact ⟨this.1, fun _ => this.2⟩
      | none =>
        obtain ⟨g, s2, w2, E2, e2, h2, x2, i2, k2⟩ := transform_ok (C := C) hcfg fb h1 (hi.mono x1) (hp.mono x1)
        exact ⟨⟨g, s2, w2, E2, e2, h2, x1.trans x2, i2, k2⟩, ih h1 (hi.mono x1) (hp.mono x1) hn⟩
    unfold CnfAlg.transform at e
    split at e
    · simp only [Option.some.injEq, Prod.mk.injEq] at e; rw [← e.1]; exact ⟨(self f).1, fun _ => (self f).2⟩
    · split at e
      · rename_i fs _
        have key : ∀ S σ, LitCons S → SCd S g → Sets S (.nary .conj fs) σ →
            (∀ f ∈ fs, f.eval σ = true) ∧ (∀ a ∈ ([] : List Formula), SCd S a) ∧ (fb.NoPg → Decided S g) := by
          intro S σ hS hg hσ
          refine lazyAnd_up C (c0 := c0) (cS := w.cnt) (ES := E) hS fs (fun f hf s w1 E1 h1 i1 x1 => ?_) [] s w E h hi (GExt.refl _ _) (by simp) g s' w' e hg
          have hf' : f ∈ (Formula.nary .conj fs).operands := by simpa [Formula.operands] using hf
          obtain ⟨p, q⟩ := single h1 i1 ((hp.op hf').mono x1) (noCon_op hn hf')
          have hσ' : Sets S f σ := fun v hv => hσ v ((Formula.occ_nary ..).2 ⟨f, hf, hv⟩)
          exact ⟨p, fun g s' w' e hg => ⟨(q g s' w' e).1 S σ hS hg hσ', fun hd => (q g s' w' e).2 hd S σ hS hg hσ'⟩⟩
        refine ⟨fun S σ hS hg hσ => ?_, fun hd S σ hS hg hσ => (key S σ hS hg hσ).2.2 hd⟩
        rw [Formula.eval_nary, Op.eval, List.all_eq_true]
        exact (key S σ hS hg hσ).1
      · exact (single h hi hp hn).2 g s' w' e

end Verif
