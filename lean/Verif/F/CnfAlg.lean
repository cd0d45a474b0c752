import Verif.F.Pg
/-
Model of src/operations/transformations/cnf/mod.rs and cnf/advanced.rs: the CNF algorithms behind `CnfEncoder`.
`CnfAlgorithm::Bdd` is modelled on its own in Props/BddCnf.lean.
-/
namespace Verif
open ER

/-- `CnfAlgorithm`, cnf/mod.rs:23-38, without `Bdd`. The two variants with and without a boundary are one
(default 12, cnf/mod.rs:19); `advanced` carries the two limits of the handler and the fallback algorithm
(advanced.rs:37-42; `atom_boundary` is not used by the code). -/
inductive CnfAlg where
  | factorization
  | tseitin (bound : Nat)
  | pg (bound : Nat)
  | advanced (dl cl : Nat) (fallback : CnfAlg)

/-- `CnfEncoder`'s two states, cnf/mod.rs:77-82; `none` in a stateless encoder. -/
structure EncSt where
  ts : Option TState
  pg : Option TState

/-- `CnfEncoder::new`, cnf/mod.rs:91. -/
def EncSt.new : EncSt := ⟨some .empty, some .empty⟩
/-- `CnfEncoder::stateless`, cnf/mod.rs:100. -/
def EncSt.stateless : EncSt := ⟨none, none⟩

/-- `state.as_mut().unwrap_or(&mut default)`: the default is dropped afterwards. -/
def putSt (old : Option TState) (new : TState) : Option TState :=
  match old with
  | some _ => some new
  | none => none

/-- `f.and` of a lazily mapped iterator (advanced.rs:17-18): stops once the conjunction is known to be false. -/
def lazyAnd (C : Canon) (run : Formula → EncSt → World → Option (Formula × EncSt × World)) :
    List Formula → List Formula → EncSt → World → Option (Formula × EncSt × World)
  | [], acc, s, w => some (Formula.mkAnd C acc, s, w)
  | f :: fs, acc, s, w =>
    match run f s w with
    | none => none
    | some (g, s, w) =>
      if Formula.flats .conj (acc ++ [g]) [] = none then some (Formula.mkAnd C (acc ++ [g]), s, w)
      else lazyAnd C run fs (acc ++ [g]) s w

/-- `single_advanced_encoding`, advanced.rs:24-33. -/
def singleAdvanced (C : Canon) (cfg : FCfg) (dl cl : Nat) (fallback : Formula → EncSt → World → Option (Formula × EncSt × World))
    (f : Formula) (s : EncSt) (w : World) : Option (Formula × EncSt × World) :=
  match factorize C cfg .conj f ⟨0, 0, some dl, some cl⟩ w with
  | none => none
  | some (some g, w, _) => some (g, s, w)
  | some (none, w, _) => fallback f s w

/-- `CnfAlgorithm::transform`, cnf/mod.rs:42-69, with `advanced_cnf_encoding`, advanced.rs:10-22. `none` is a panic. -/
def CnfAlg.transform (C : Canon) (cfg : FCfg) : CnfAlg → Formula → EncSt → World → Option (Formula × EncSt × World)
  | .factorization, f, s, w =>
    if f.isCnfF then some (f, s, w)
    else (factorizationCnf C cfg f w).map fun r => (r.1, s, r.2)
  | .tseitin b, f, s, w =>
    if f.isCnfF then some (f, s, w)
    else (Verif.tseitin C cfg b f (s.ts.getD .empty) w).map fun r => (r.1, { s with ts := putSt s.ts r.2.1 }, r.2.2)
  | .pg b, f, s, w =>
    if f.isCnfF then some (f, s, w)
    else (pgCnf C cfg b f (s.pg.getD .empty) w).map fun r => (r.1, { s with pg := putSt s.pg r.2.1 }, r.2.2)
  | .advanced dl cl fb, f, s, w =>
    if f.isCnfF then some (f, s, w)
    else match f with
      | .nary .conj fs => lazyAnd C (singleAdvanced C cfg dl cl (fb.transform C cfg)) fs [] s w
      | f => singleAdvanced C cfg dl cl (fb.transform C cfg) f s w

/-! ### Correctness -/

/-- What a CNF with auxiliary variables promises. -/
def It.wk (f : Formula) : It := ⟨fun σ => f.eval σ = true, False, (Occ · f)⟩

theorem TrOk.wk {S E c f g} (h : TrI S E c (It.of true f) g) : TrI S E c (It.wk f) g :=
  ⟨h.sound, h.compl, fun h => h.elim, fun h => h.elim, h.shape, h.norm, h.old, h.aux⟩

structure EncInv (E : List Ent) (c : AuxTy → Nat) (s : EncSt) : Prop where
  ts : ∀ t, s.ts = some t → TsInv E c t
  pg : ∀ t, s.pg = some t → PgInv E c t

theorem EncInv.mono {E c E' c' s} (h : EncInv E c s) (hx : GExt c E c' E') : EncInv E' c' s :=
  ⟨fun t e => (h.ts t e).mono hx, fun t e => (h.pg t e).mono hx⟩
theorem EncInv.new (E c) : EncInv E c .new :=
  ⟨fun t e => by injection e with e; subst e; exact TsInv.empty _ _, fun t e => by injection e with e; subst e; exact PgInv.empty _ _⟩
theorem EncInv.stateless (E c) : EncInv E c .stateless := ⟨fun _ e => (nomatch e), fun _ e => (nomatch e)⟩

/-- Outcome of a CNF algorithm. -/
def AlgStep (c0 : AuxTy → Nat) (w : World) (E : List Ent) (i : It) (r : Option (Formula × EncSt × World)) : Prop :=
  ∃ g s' w' E', r = some (g, s', w') ∧ WInv c0 w' E' ∧ GExt w.cnt E w'.cnt E' ∧ EncInv E' w'.cnt s' ∧ TrI IsCnf E' w'.cnt i g

theorem isCnf_mkAnd (C : Canon) (gs : List Formula) (h : ∀ g ∈ gs, IsCnf g) : IsCnf (Formula.mkNary C .conj gs) :=
  isNf_conj.1 (isNf_mkNary C _ fun g hg => isNf_conj.2 (h g hg))

theorem lazyAnd_ok (C : Canon) {c0 cS ES} {run : Formula → EncSt → World → Option (Formula × EncSt × World)} (fs : List Formula)
    (hrun : ∀ f ∈ fs, ∀ s w E, WInv c0 w E → EncInv E w.cnt s → GExt cS ES w.cnt E → AlgStep c0 w E (It.wk f) (run f s w)) :
    ∀ acc is s w E, WInv c0 w E → EncInv E w.cnt s → GExt cS ES w.cnt E → List.Forall₂ (TrI IsCnf E w.cnt) is acc →
      AlgStep c0 w E (It.op .conj (is ++ fs.map It.wk)) (lazyAnd C run fs acc s w) := by
  induction fs with
  | nil =>
    intro acc is s w E h hi hx ha
    simp only [List.map_nil, List.append_nil, lazyAnd]
    exact ⟨_, s, w, E, rfl, h, GExt.refl _ _, hi, trI_nary C .conj (isCnf_mkAnd C) ha⟩
  | cons f fs ih =>
    intro acc is s w E h hi hx ha
    obtain ⟨g, s1, w1, E1, e1, h1, x1, i1, k1⟩ := hrun f (by simp) s w E h hi hx
    have ha1 : List.Forall₂ (TrI IsCnf E1 w1.cnt) (is ++ [It.wk f]) (acc ++ [g]) := List.rel_append (forall2_mono x1 ha) (.cons k1 .nil)
    simp only [lazyAnd, e1]
    have hsp : is ++ List.map It.wk (f :: fs) = (is ++ [It.wk f]) ++ fs.map It.wk := by simp
    rw [hsp]
    split
    · rename_i hab
      exact ⟨_, s1, w1, E1, rfl, h1, x1, i1, trI_prefix C .conj (isCnf_mkAnd C) ha1 hab⟩
    · obtain ⟨g2, s2, w2, E2, e2, h2, x2, i2, k2⟩ := ih (fun f hf => hrun f (by simp [hf])) (acc ++ [g]) (is ++ [It.wk f]) s1 w1 E1 h1 i1 (hx.trans x1) ha1
      exact ⟨g2, s2, w2, E2, e2, h2, x1.trans x2, i2, k2⟩

theorem alg_self {cfg c0 w E s} {f : Formula} (h : WInv c0 w E) (hi : EncInv E w.cnt s) (hp : PTop cfg w.cnt f) (hc : f.isCnfF = true) :
    AlgStep c0 w E (It.wk f) (some (f, s, w)) :=
  ⟨f, s, w, E, rfl, h, GExt.refl _ _, hi, (trI_self ((isCnfF_iff hp.1).1 hc) hp.1 hp.2.2).wk⟩

theorem transform_ok {C : Canon} {cfg : FCfg} (hcfg : cfg.cc.Good) {c0} (a : CnfAlg) : ∀ {f s w E}, WInv c0 w E → EncInv E w.cnt s →
    PTop cfg w.cnt f → AlgStep c0 w E (It.wk f) (a.transform C cfg f s w) := by
  induction a with
  | factorization =>
    intro f s w E h hi hp
    unfold CnfAlg.transform
    split
    · rename_i hc; exact alg_self h hi hp hc
    · obtain ⟨g, w', E', e, h', x, k⟩ := factorizationCnf_ok (C := C) hcfg h hp
      exact ⟨g, s, w', E', by rw [e]; rfl, h', x, hi.mono x, k.wk⟩
  | tseitin b =>
    intro f s w E h hi hp
    unfold CnfAlg.transform
    split
    · rename_i hc; exact alg_self h hi hp hc
    · have ht : TsInv E w.cnt (s.ts.getD .empty) := by
        cases hs : s.ts with
        | none => exact TsInv.empty _ _
        | some t => exact hi.ts t hs
      obtain ⟨g, t, w', E', e, h', x, i', k, _⟩ := tseitin_ok (C := C) hcfg h ht b hp
      refine ⟨g, { s with ts := putSt s.ts t }, w', E', by rw [e]; rfl, h', x, ⟨fun t' e' => ?_, (hi.mono x).pg⟩, k⟩
      cases hs : s.ts <;> simp [hs, putSt] at e'
      subst e'; exact i'
  | pg b =>
    intro f s w E h hi hp
    unfold CnfAlg.transform
    split
    · rename_i hc; exact alg_self h hi hp hc
    · have ht : PgInv E w.cnt (s.pg.getD .empty) := by
        cases hs : s.pg with
        | none => exact PgInv.empty _ _
        | some t => exact hi.pg t hs
      obtain ⟨g, t, w', E', e, h', x, i', k, _⟩ := pgCnf_ok (C := C) hcfg h ht b hp
      refine ⟨g, { s with pg := putSt s.pg t }, w', E', by rw [e]; rfl, h', x, ⟨(hi.mono x).ts, fun t' e' => ?_⟩, k⟩
      cases hs : s.pg <;> simp [hs, putSt] at e'
      subst e'; exact i'
  | advanced dl cl fb ih =>
    intro f s w E h hi hp
    have single : ∀ {f s w E}, WInv c0 w E → EncInv E w.cnt s → PTop cfg w.cnt f →
        AlgStep c0 w E (It.wk f) (singleAdvanced C cfg dl cl (fb.transform C cfg) f s w) := by
      intro f s w E h hi hp
      obtain ⟨r, w1, l1, E1, e, h1, x1, k⟩ := factorize_ok (C := C) hcfg h hp .conj ⟨0, 0, some dl, some cl⟩
      unfold singleAdvanced
      rw [e]
      cases r with
      | some g => exact ⟨g, s, w1, E1, rfl, h1, x1, hi.mono x1, TrOk.wk (k g rfl)⟩
      | none =>
        obtain ⟨g, s2, w2, E2, e2, h2, x2, i2, k2⟩ := ih h1 (hi.mono x1) (hp.mono x1)
        exact ⟨g, s2, w2, E2, e2, h2, x1.trans x2, i2, k2⟩
    unfold CnfAlg.transform
    split
    · rename_i hc; exact alg_self h hi hp hc
    · split
      · rename_i fs _
        obtain ⟨g, s1, w1, E1, e1, h1, x1, i1, k1⟩ := lazyAnd_ok C (c0 := c0) (cS := w.cnt) (ES := E) fs
          (fun f hf s w1 E1 h1 i1 x1 => single h1 i1 ((hp.op (by simpa [Formula.operands] using hf)).mono x1)) [] [] s w E h hi (GExt.refl _ _) .nil
        refine ⟨g, s1, w1, E1, e1, h1, x1, i1, TrOk.congr k1 (fun σ => ?_) (fun h => h.elim) (fun v hv => ?_)⟩
        rotate_right
        · obtain ⟨i, hi, hv⟩ := hv
          simp only [List.nil_append, List.mem_map] at hi
          obtain ⟨f, hf, rfl⟩ := hi
          exact (Formula.occ_nary ..).2 ⟨f, hf, hv⟩
        simp [It.op, It.wk, Op.eval]
      · exact single h hi hp

end Verif
