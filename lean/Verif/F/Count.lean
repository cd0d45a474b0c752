import Verif.F.CnfAlg
import Verif.F.Expand
import Verif.F.SatOver
/-
Model counting: src/operations/functions/model_count.rs and src/knowledge_compilation/dnnf/dnnf_model_counting.rs.
-/
namespace Verif
open ER

/-! ### The extension to the auxiliary variables is unique -/

/-- The algorithm does not use Plaisted-Greenbaum, whose auxiliary variables are not determined. -/
def CnfAlg.NoPg : CnfAlg → Prop
  | .factorization => True
  | .tseitin _ => True
  | .pg _ => False
  | .advanced _ _ fb => fb.NoPg

/-- Two models of `g` that agree on `V` agree on all variables of `g`. -/
def UniqOn (V : Var → Prop) (g : Formula) : Prop :=
  ∀ σ τ, g.eval σ = true → g.eval τ = true → (∀ v, V v → σ v = τ v) → ∀ v, Occ v g → σ v = τ v

theorem uniqOn_mkAnd (C : Canon) {V : Var → Prop} {gs : List Formula} (h : ∀ g ∈ gs, UniqOn V g) : UniqOn V (Formula.mkAnd C gs) := by
  intro σ τ hs ht ag v hv
  obtain ⟨g, hg, ho⟩ := Formula.occ_mkNary hv
  have key : ∀ ρ, (Formula.mkAnd C gs).eval ρ = true → g.eval ρ = true := fun ρ h => by
    rw [Formula.mkAnd, Formula.eval_mkNary] at h
    simp only [Op.eval, List.all_eq_true] at h
    exact h g hg
  exact h g hg σ τ (key σ hs) (key τ ht) ag v ho

theorem lazyAnd_uniq (C : Canon) {V : Var → Prop} {c0 cS ES} {run : Formula → EncSt → World → Option (Formula × EncSt × World)} (fs : List Formula)
    (hrun : ∀ f ∈ fs, ∀ s w E, WInv c0 w E → EncInv E w.cnt s → GExt cS ES w.cnt E → AlgStep c0 w E (It.wk f) (run f s w) ∧
      ∀ g s' w', run f s w = some (g, s', w') → UniqOn V g) :
    ∀ acc s w E, WInv c0 w E → EncInv E w.cnt s → GExt cS ES w.cnt E → (∀ g ∈ acc, UniqOn V g) →
      ∀ g s' w', lazyAnd C run fs acc s w = some (g, s', w') → UniqOn V g := by
  induction fs with
  | nil =>
    intro acc s w E h hi hx ha g s' w' e
    simp only [lazyAnd, Option.some.injEq, Prod.mk.injEq] at e
    rw [← e.1]; exact uniqOn_mkAnd C ha
  | cons f fs ih =>
    intro acc s w E h hi hx ha g s' w' e
    obtain ⟨⟨g1, s1, w1, E1, e1, h1, x1, i1, k1⟩, u⟩ := hrun f (by simp) s w E h hi hx
    have hu := u _ _ _ e1
    have ha' : ∀ g ∈ acc ++ [g1], UniqOn V g := fun g hg => by
      rcases List.mem_append.1 hg with hg | hg
      · exact ha g hg
      · rw [List.mem_singleton.1 hg]; exact hu
    simp only [lazyAnd, e1] at e
    split at e
    · simp only [Option.some.injEq, Prod.mk.injEq] at e
      rw [← e.1]; exact uniqOn_mkAnd C ha'
    · exact ih (fun f hf => hrun f (by simp [hf])) _ s1 w1 E1 h1 i1 (hx.trans x1) ha' g s' w' e

theorem noCon_op {f g : Formula} (h : NoCon f) (hg : g ∈ f.operands) : NoCon g := fun x hx => h x (hx.trans (op_sub hg))

theorem transform_uniq {C : Canon} {cfg : FCfg} (hcfg : cfg.cc.Good) {c0} (a : CnfAlg) (ha : a.NoPg) : ∀ {f s w E}, WInv c0 w E → EncInv E w.cnt s →
    PTop cfg w.cnt f → NoCon f → ∀ g s' w', a.transform C cfg f s w = some (g, s', w') → UniqOn (Occ · f) g := by
  have self : ∀ f : Formula, UniqOn (Occ · f) f := fun f σ τ _ _ h v hv => h v hv
  have sub : ∀ f g : Formula, (∀ v, Occ v g → Occ v f) → UniqOn (Occ · f) g := fun f g hs σ τ _ _ h v hv => h v (hs v hv)
  induction a with
  | factorization =>
    intro f s w E h hi hp hn g s' w' e
    unfold CnfAlg.transform at e
    split at e
    · simp only [Option.some.injEq, Prod.mk.injEq] at e; rw [← e.1]; exact self f
    · obtain ⟨g', w2, E', e', h', x, k⟩ := factorizationCnf_ok (C := C) hcfg h hp
      rw [e'] at e
      simp only [Option.map_some, Option.some.injEq, Prod.mk.injEq] at e
      rw [← e.1]; exact sub f g' (k.vars hn)
  | tseitin b =>
    intro f s w E h hi hp hn g s' w' e
    unfold CnfAlg.transform at e
    split at e
    · simp only [Option.some.injEq, Prod.mk.injEq] at e; rw [← e.1]; exact self f
    · have ht : TsInv E w.cnt (s.ts.getD .empty) := by
        cases hs : s.ts with
        | none => exact TsInv.empty _ _
        | some t => exact hi.ts t hs
      obtain ⟨g', t, w2, E', e', h', x, i', k, u⟩ := tseitin_ok (C := C) hcfg h ht b hp
      rw [e'] at e
      simp only [Option.map_some, Option.some.injEq, Prod.mk.injEq] at e
      rw [← e.1]; exact (u hn).1
  | pg b => exact ha.elim
  | advanced dl cl fb ih =>
    intro f s w E h hi hp hn g s' w' e
    have single : ∀ {f s w E}, WInv c0 w E → EncInv E w.cnt s → PTop cfg w.cnt f → NoCon f →
        AlgStep c0 w E (It.wk f) (singleAdvanced C cfg dl cl (fb.transform C cfg) f s w) ∧
        ∀ g s' w', singleAdvanced C cfg dl cl (fb.transform C cfg) f s w = some (g, s', w') → UniqOn (Occ · f) g := by
      intro f s w E h hi hp hn
      obtain ⟨r, w1, l1, E1, e, h1, x1, k⟩ := factorize_ok (C := C) hcfg h hp .conj ⟨0, 0, some dl, some cl⟩
      unfold singleAdvanced
      rw [e]
      cases r with
      | some g =>
        refine ⟨⟨g, s, w1, E1, rfl, h1, x1, hi.mono x1, TrOk.wk (k g rfl)⟩, fun g' s' w' e' => ?_⟩
        simp only [Option.some.injEq, Prod.mk.injEq] at e'
        rw [← e'.1]; exact sub f g ((k g rfl).vars hn)
      | none =>
        obtain ⟨g, s2, w2, E2, e2, h2, x2, i2, k2⟩ := transform_ok (C := C) hcfg fb h1 (hi.mono x1) (hp.mono x1)
        exact ⟨⟨g, s2, w2, E2, e2, h2, x1.trans x2, i2, k2⟩, ih ha h1 (hi.mono x1) (hp.mono x1) hn⟩
    unfold CnfAlg.transform at e
    split at e
    · simp only [Option.some.injEq, Prod.mk.injEq] at e; rw [← e.1]; exact self f
    · split at e
      · rename_i fs _
        refine lazyAnd_uniq C (c0 := c0) (cS := w.cnt) (ES := E) (V := (Occ · (.nary .conj fs))) fs (fun f hf s w1 E1 h1 i1 x1 => ?_) [] s w E h hi (GExt.refl _ _) (by simp) g s' w' e
        have hf' : f ∈ (Formula.nary .conj fs).operands := by simpa [Formula.operands] using hf
        obtain ⟨p, q⟩ := single h1 i1 ((hp.op hf').mono x1) (noCon_op hn hf')
        refine ⟨p, fun g s' w' e σ τ hs ht ag v hv => q g s' w' e σ τ hs ht (fun v hv => ag v ?_) v hv⟩
        exact .nary hf hv
      · exact (single h hi hp hn).2 g s' w' e

/-! ### Variables of a conjunction -/

theorem occ_addOp_mono {v o f acc r} (h : Formula.addOp o f acc = some r) (hv : Occ v f ∨ ∃ g ∈ acc, Occ v g) : ∃ g ∈ r, Occ v g := by
  unfold Formula.addOp at h
  split at h
  · rename_i e; subst e
    split at h
    · simp at h
    · cases h; exact hv.elim (by simp) id
  split at h
  · rename_i e; subst e
    split at h
    · simp at h
    · cases h; exact hv.elim (by simp) id
  split at h
  · simp at h
  split at h
  · rename_i hm; cases h
    exact hv.elim (fun hv => ⟨f, hm, hv⟩) id
  · cases h
    rcases hv with hv | ⟨g, hg, hv⟩
    · exact ⟨f, by simp, hv⟩
    · exact ⟨g, by simp [hg], hv⟩

theorem occ_flats_mono_of {v o} (fs : List Formula)
    (h : ∀ f ∈ fs, ∀ acc r, Formula.flat1 o f acc = some r → Occ v f ∨ (∃ g ∈ acc, Occ v g) → ∃ g ∈ r, Occ v g) :
    ∀ acc r, Formula.flats o fs acc = some r → (∃ f ∈ fs, Occ v f) ∨ (∃ g ∈ acc, Occ v g) → ∃ g ∈ r, Occ v g := by
  induction fs with
  | nil => intro acc r e hr; simp only [Formula.flats, Option.some.injEq] at e; subst e; simpa using hr
  | cons f fs ih =>
    intro acc r e hr
    simp only [Formula.flats] at e
    split at e
    · simp at e
    · rename_i acc' he
      refine ih (fun g hg => h g (by simp [hg])) acc' r e ?_
      rcases hr with ⟨g, hg, ho⟩ | hr
      · rcases List.mem_cons.1 hg with rfl | hg
        · exact .inr (h g (by simp) acc acc' he (.inl ho))
        · exact .inl ⟨g, hg, ho⟩
      · exact .inr (h f (by simp) acc acc' he (.inr hr))

theorem occ_flat1_mono {v o} (f : Formula) : ∀ acc r, Formula.flat1 o f acc = some r → Occ v f ∨ (∃ g ∈ acc, Occ v g) → ∃ g ∈ r, Occ v g := by
  induction f using Formula.ind with
  | nary o' fs ih =>
    intro acc r e hr
    simp only [Formula.flat1] at e
    split at e
    · exact occ_flats_mono_of fs ih acc r e (hr.imp (fun h => (Formula.occ_nary ..).1 h) id)
    · exact occ_addOp_mono e hr
  | _ => intro acc r e hr; simp only [Formula.flat1] at e; exact occ_addOp_mono e hr

/-- A conjunction or disjunction keeps the variables of its operands unless it is constant. -/
theorem occ_mkNary_mono {C : Canon} {v o fs f} (hf : f ∈ fs) (hv : Occ v f) : Occ v (Formula.mkNary C o fs) ∨ Formula.mkNary C o fs = Formula.absorbing o := by
  unfold Formula.mkNary
  cases e : Formula.flats o fs [] with
  | none => exact .inr rfl
  | some r =>
    left
    obtain ⟨g, hg, ho⟩ := occ_flats_mono_of fs (fun f _ => occ_flat1_mono f) [] r e (.inl ⟨f, hf, hv⟩)
    rcases r with _ | ⟨a, _ | ⟨b, l⟩⟩
    · simp at hg
    · simp only [List.mem_singleton] at hg; subst hg; exact ho
    · simp only [Formula.finish]
      exact (Formula.occ_nary ..).2 ⟨g, (C.ord_perm o _).mem_iff.2 hg, ho⟩

end Verif
