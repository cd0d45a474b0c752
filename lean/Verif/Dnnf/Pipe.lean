import Verif.Dnnf.Whole
import Verif.Ext.MaxSat
import Verif.Props.SatPred
import Verif.Props.DS
/-
The whole of `compile_dnnf`, src/knowledge_compilation/dnnf/dnnf_compiler.rs:30-36: CNF, backbone simplification, subsumption and compilation.
-/
namespace Verif.Dnnf
open Verif.Sat Verif.Sat.St

section
variable {F : Type} [LinearOrder F] [Flt F]

/-- `is_sat(cnf)` where `compile` gets to it, dnnf_compiler.rs:68-71. -/
def satCnf (E : PEnv F) (fuel : Nat) (f : Formula) (s : PState) : St.Res (Bool × PState) :=
  if (initClauses E.K f).2.isAtomic then .ok (true, s) else isSat E fuel f s

/-- `compile_dnnf`, dnnf_compiler.rs:30-36: the formula, its original variables, the last state of the solver and the factory.  `ord` orders the literals of a clause and `byName`
variables, as in `compile`; `ordS` orders the literal sets in the subsumption.  Simplified: running out of fuel in the compilation counts as a panic. -/
def compileDnnf [LinearOrder Lit] (E : PEnv F) (ordS : List Nat → List Nat) (ord : List Lit → List Lit) (byName : List Var → List Var) (fuel : Nat) (f : Formula) (s : PState) :
    St.Res (Formula × List Var × DSt F × PState) :=
  match MaxSat.cnfOf E.K E.cfg E.alg f s.w with
  | none => .panic
  | some (cnf, w) =>
    match backboneSimp E fuel cnf { s with w := w } with
    | .panic => .panic
    | .diverge => .diverge
    | .ok (simp, s) =>
      match cnfSubsumption E.K ordS simp with
      | none => .panic
      | some sub =>
        match satCnf E fuel sub s with
        | .panic => .panic
        | .diverge => .diverge
        | .ok (b, s) =>
          match compile E.K E.C.toCfg ord byName b fuel sub with
          | none => .panic
          | some (g, d) => .ok (g, fnVars.val f, d, s)

end

/-! ### What the simplifications leave -/

theorem oleaf_occ {o : Op} {g f : Formula} (h : OLeaf o g f) {v : Var} (hv : Occ v g) : Occ v f := by
  induction h with
  | self _ => exact hv
  | nary hm _ ih => exact .nary hm ih

theorem occ_part {f : Formula} {v : Var} (h : Occ v f) : ∃ p ∈ f.parts .conj, Occ v p := by
  unfold Formula.parts
  cases f with
  | nary o fs =>
    simp only
    split
    · cases h with | nary hm hv => exact ⟨_, hm, hv⟩
    · exact ⟨_, List.mem_singleton.2 rfl, h⟩
  | _ => exact ⟨_, List.mem_singleton.2 rfl, h⟩

theorem parts_occ {f p : Formula} (hp : p ∈ f.parts .conj) {v : Var} (hv : Occ v p) : Occ v f := by
  unfold Formula.parts at hp
  cases f with
  | nary o fs =>
    simp only at hp
    split at hp
    · exact .nary hp hv
    · rw [List.mem_singleton] at hp; rwa [hp] at hv
  | _ => rw [List.mem_singleton] at hp; rwa [hp] at hv

/-- The operands of a conjunction come from its arguments. -/
theorem mem_parts_mkAnd {K : Canon} {fs : List Formula} {p : Formula} (h : p ∈ (Formula.mkNary K .conj fs).parts .conj) : p.isConst = true ∨ ∃ f ∈ fs, OLeaf .conj p f := by
  rcases Formula.mkNary_cases K .conj fs with ⟨e, _⟩ | e | ⟨f, hf, hl⟩ | ⟨l, e, _, h5⟩
  · rw [e] at h; rw [List.mem_singleton.1 h]; exact .inl rfl
  · rw [e] at h; rw [List.mem_singleton.1 h]; exact .inl rfl
  · refine .inr ⟨f, hf, ?_⟩
    have hp : (Formula.mkNary K .conj fs).parts .conj = [Formula.mkNary K .conj fs] := by
      unfold Formula.parts
      split
      · rename_i o gs e
        have := Formula.OLeaf.flat hl gs
        rw [if_neg]
        rintro rfl
        exact this e
      · rfl
    rw [hp, List.mem_singleton] at h
    rw [h]
    exact hl
  · rw [e] at h
    simp only [Formula.parts, if_true] at h
    exact .inr (h5 p h).1

theorem oleaf_parts {g f : Formula} (h : OLeaf .conj g f) (hn : f.Norm) : g ∈ f.parts .conj := by
  cases h with
  | self hs =>
    unfold Formula.parts
    split
    · rename_i o fs
      rw [if_neg (by rintro rfl; exact hs fs rfl)]
      exact List.mem_singleton.2 rfl
    · exact List.mem_singleton.2 rfl
  | @nary fs f hm hl =>
    simp only [Formula.parts, if_true]
    cases hn with
    | nary _ _ hg => rwa [oleaf_atom hl (hg.flat f hm)]

/-- The literals put in front of a satisfiable formula without their variables are operands of the result. -/
theorem lit_part {K : Canon} {ls : List Lit} {r : Formula} {l : Lit} (hl : l ∈ ls) (hr : ¬ Occ l.v r)
    (hs : ∃ σ, (Formula.mkAnd K [Formula.mkAnd K (ls.map .lit), r]).eval σ = true) : .lit l ∈ (Formula.mkAnd K [Formula.mkAnd K (ls.map .lit), r]).parts .conj := by
  obtain ⟨σ, hσ⟩ := hs
  have hev : ∀ τ, (Formula.mkAnd K [Formula.mkAnd K (ls.map .lit), r]).eval τ = true → ∀ k ∈ ls, k.eval τ = true := by
    intro τ h
    simp only [Formula.eval_mkAnd, List.all_cons, List.all_nil, List.all_map, Bool.and_true, Bool.and_eq_true, List.all_eq_true, Function.comp] at h
    exact fun k hk => h.1 k hk
  by_contra hno
  have hocc : ¬ Occ l.v (Formula.mkAnd K [Formula.mkAnd K (ls.map .lit), r]) := by
    intro ho
    obtain ⟨p, hp, hv⟩ := occ_part ho
    rcases mem_parts_mkAnd hp with hc | ⟨f, hf, hlf⟩
    · cases p <;> simp [Formula.isConst] at hc <;> cases hv
    · simp only [List.mem_cons, List.not_mem_nil, or_false] at hf
      rcases hf with rfl | rfl
      · have hnn : (Formula.mkAnd K (ls.map .lit)).Norm := Formula.norm_mkNary _ _ fun f hf => by obtain ⟨k, _, rfl⟩ := List.mem_map.1 hf; exact .lit k
        rcases mem_parts_mkAnd (oleaf_parts hlf hnn) with hc | ⟨f, hf, hlf⟩
        · cases p <;> simp [Formula.isConst] at hc <;> cases hv
        · obtain ⟨k, hk, rfl⟩ := List.mem_map.1 hf
          have := oleaf_atom hlf (fun gs => by simp)
          subst this
          have hvk : k.v = l.v := by simpa using hv
          have h1 := hev σ hσ k hk
          have h2 := hev σ hσ l hl
          have : k = l := by
            rcases k with ⟨kv, kp⟩
            rcases l with ⟨lv, lp⟩
            simp only at hvk
            subst hvk
            simp only [Lit.eval] at h1 h2
            cases kp <;> cases lp <;> simp_all
          subst this
          exact hno hp
      · exact hr (oleaf_occ hlf hv)
  have h2 := hev (fun v => if v = l.v then !σ v else σ v) (by
    rw [Formula.eval_congr (τ := σ)]
    · exact hσ
    · intro v hv
      rw [if_neg]
      rintro rfl
      exact hocc hv) l hl
  have h1 := hev σ hσ l hl
  rcases l with ⟨v, b⟩
  simp only [Lit.eval] at h1 h2
  cases b <;> simp_all

/-- A CNF that contains the literals it entails (specification). -/
def Units (f : Formula) : Prop := ∀ l : Lit, Occ l.v f → (∀ σ, f.eval σ = true → l.eval σ = true) → Formula.lit l ∈ f.parts .conj

theorem units_simp {K : Canon} {c : AuxTy → Nat} {f g : Formula} (hf : Direct c f) (h : SimpOk K c f g) : Units g := by
  intro l hv he
  by_cases hs : ∃ σ, f.eval σ = true
  · obtain ⟨ls, r, h1, h2, h3⟩ := h.shape hf hs
    have hl : l ∈ ls := (h1 l).2 ⟨h.occ _ hv, fun σ hσ => he σ (by rwa [h.eval hf])⟩
    rw [if_neg (by rintro rfl; cases hl)] at h3
    rw [h3]
    obtain ⟨σ, hσ⟩ := hs
    exact lit_part hl (h2 l hl) ⟨σ, by rw [← h3, h.eval hf]; exact hσ⟩
  · have : g = .fls := h.unsat hf fun σ => by
      cases e : f.eval σ with
      | false => rfl
      | true => exact absurd ⟨σ, e⟩ hs
    rw [this] at hv; cases hv

theorem occL_occ {l : Lit} {f : Formula} (h : OccL l f) (hc : IsCnf f) : Occ l.v f := by
  have clause : ∀ {f}, IsClause f → OccL l f → Occ l.v f := by
    intro f hc h
    cases hc with
    | tru => cases h with | op h _ => cases h
    | fls => cases h with | op h _ => cases h
    | lit k => rw [occL_lit] at h; subst h; simp
    | or hl =>
      obtain ⟨g, hg, hgl⟩ := occL_nary.1 h
      obtain ⟨k, rfl⟩ := hl g hg
      rw [occL_lit] at hgl; subst hgl
      exact .nary hg (by simp)
  cases hc with
  | clause hc => exact clause hc h
  | and hl =>
    obtain ⟨g, hg, hgl⟩ := occL_nary.1 h
    exact .nary hg (clause (hl g hg) hgl)

theorem occ_occL {v : Var} {f : Formula} (h : Occ v f) (hc : IsCnf f) : ∃ l : Lit, l.v = v ∧ OccL l f := by
  have clause : ∀ {f}, IsClause f → Occ v f → ∃ l : Lit, l.v = v ∧ OccL l f := by
    intro f hc h
    cases hc with
    | tru => cases h
    | fls => cases h
    | lit k => exact ⟨k, by simpa using h, .lit⟩
    | or hl =>
      obtain ⟨g, hg, hgl⟩ := (Formula.occ_nary ..).1 h
      obtain ⟨k, rfl⟩ := hl g hg
      exact ⟨k, by simpa using hgl, occL_nary.2 ⟨_, hg, .lit⟩⟩
  cases hc with
  | clause hc => exact clause hc h
  | and hl =>
    obtain ⟨g, hg, hgl⟩ := (Formula.occ_nary ..).1 h
    obtain ⟨l, e, h⟩ := clause (hl g hg) hgl
    exact ⟨l, e, occL_nary.2 ⟨_, hg, h⟩⟩

theorem parts_clause {f p : Formula} (hc : IsCnf f) (h : p ∈ f.parts .conj) : IsClause p := by
  cases hc with
  | clause hc => cases hc <;> (simp only [Formula.parts, reduceCtorEq, if_false, List.mem_singleton] at h; subst h; constructor; try assumption)
  | and hl => simp only [Formula.parts, if_true] at h; exact hl p h

theorem parts_norm {f p : Formula} (hn : f.Norm) (h : p ∈ f.parts .conj) : p.Norm := by
  unfold Formula.parts at h
  cases f with
  | nary o fs =>
    simp only at h
    split at h
    · cases hn with | nary _ hf _ => exact hf p h
    · rw [List.mem_singleton.1 h]; exact hn
  | _ => rw [List.mem_singleton.1 h]; exact hn

theorem units_subsume {f g : Formula} (hc : IsCnf f) (hu : Units f) (h : SubsumeOk .conj f g) : (∀ v, Occ v g → Occ v f) ∧ Units g := by
  have hg := isNf_conj.1 h.shape
  have hocc : ∀ v, Occ v g → Occ v f := by
    intro v hv
    obtain ⟨p, hp, hv⟩ := occ_part hv
    obtain ⟨l, rfl, hl⟩ := occ_occL hv (.clause (parts_clause hg hp))
    obtain ⟨d, hd, hdl⟩ := h.kept p hp
    exact parts_occ hd (occL_occ ((hdl l).1 hl) (.clause (parts_clause hc hd)))
  refine ⟨hocc, fun l hv he => ?_⟩
  have hl := hu l (hocc _ hv) fun σ hσ => he σ (by rwa [h.eval])
  obtain ⟨p, hp, hs⟩ := h.dropped _ hl
  have hpl : ∀ k, OccL k p → k = l := fun k hk => (by have := hs k hk; rw [occL_lit] at this; first | exact this | exact this.symm)
  have hpc := parts_clause hg hp
  have hpn := parts_norm h.norm hp
  have hconst : p.isConst = false := by
    cases hgf : g with
    | nary o fs =>
      rw [hgf] at hp
      have hn := h.norm
      rw [hgf] at hn
      unfold Formula.parts at hp
      simp only at hp
      cases hn with
      | nary _ _ hgo =>
        split at hp
        · exact hgo.notConst p hp
        · rw [List.mem_singleton.1 hp]; rfl
    | lit k => rw [hgf] at hp; rw [List.mem_singleton.1 hp]; rfl
    | tru => rw [hgf] at hv; cases hv
    | fls => rw [hgf] at hv; cases hv
    | not | impl | equiv | cc | pbc => rw [hgf] at hg; cases hg with | clause hg => cases hg
  cases hpc with
  | tru => cases hconst
  | fls => cases hconst
  | lit k =>
    have := hpl k .lit
    rw [← this]; exact hp
  | @or fs hls =>
    cases hpn with
    | nary h2 _ hgo =>
      match fs, h2 with
      | a :: b :: fs, _ =>
        obtain ⟨ka, rfl⟩ := hls a (by simp)
        obtain ⟨kb, rfl⟩ := hls b (by simp)
        have h1 := hpl ka (occL_nary.2 ⟨_, by simp, .lit⟩)
        have h2 := hpl kb (occL_nary.2 ⟨.lit kb, by simp, .lit⟩)
        have := hgo.nodup
        simp [h1, h2] at this

theorem cnf_noCon {f : Formula} (h : IsCnf f) : NoCon f := isNnf_noCon h.nnf

theorem cnf_bounded {f : Formula} (h : IsCnf f) : Bounded PBC.Bounded f := by
  have clause : ∀ {f}, IsClause f → Bounded PBC.Bounded f := by
    intro f h
    cases h with
    | tru => exact .tru
    | fls => exact .fls
    | lit l => exact .lit l
    | or hl => exact .nary fun g hg => by obtain ⟨l, rfl⟩ := hl g hg; exact .lit l
  cases h with
  | clause h => exact clause h
  | and h => exact .nary fun g hg => clause (h g hg)

theorem cnf_input {cfg : FCfg} {c : AuxTy → Nat} {f : Formula} (hn : f.Norm) (h : IsCnf f) (hk : ∀ v, Occ v f → (cER c).Old v) : Input cfg c f :=
  ⟨hn, ⟨fun k hk => absurd rfl ((cnf_noCon h _ hk).1 k), fun p hp => absurd rfl ((cnf_noCon h _ hp).2 p)⟩, fun v hv => known_iff.2 (hk v hv)⟩

section
variable {F : Type} [LinearOrder F] [Flt F] {E : PEnv F} {c : AuxTy → Nat} {s : PState} {G : List Verif.Ent}

theorem cnfOf_ok (hcfg : E.cfg.cc.Good) (h : PInv E.K c s G) {f : Formula} (hin : Input E.cfg s.w.cnt f) :
    ∃ cnf w G', MaxSat.cnfOf E.K E.cfg E.alg f s.w = some (cnf, w) ∧ PInv E.K c { s with w := w } G' ∧ TrI IsCnf G' w.cnt (It.wk f) cnf ∧ (∀ t, s.w.cnt t ≤ w.cnt t) := by
  obtain ⟨cnf, st, w, G', e, hw, hx, _, k⟩ := transform_ok (C := E.K) hcfg E.alg h.w (EncInv.stateless _ _) hin.top
  exact ⟨cnf, w, G', by simp [MaxSat.cnfOf, e], ⟨hw, fun p hp => (h.es p hp).mono hx, h.sat, h.bbs⟩, k, hx.le⟩

theorem backboneSimp_cnt (h : WInv c s.w G) {f : Formula} (hn : f.Norm) (hc : IsCnf f) {fuel : Nat} {g : Formula} {s' : PState} (e : backboneSimp E fuel f s = .ok (g, s')) :
    s'.w.cnt = s.w.cnt := by
  unfold backboneSimp at e
  cases hs : s.bbs f with
  | some g' => simp only [hs] at e; cases e; rfl
  | none =>
    simp only [hs] at e
    have hadd : ∀ x, (E.solver .pg s).2.add (E.solver .pg s).1 f = .ok x → x.w.cnt = s.w.cnt := by
      intro x ex
      have ex : (E.solver .pg s).2.addPg (E.solver .pg s).1 false f = .ok x := by
        cases f with
        | cc k => cases hc with | clause hc => cases hc
        | _ => exact ex
      unfold FMini.addPg at ex
      match ec : addCnfToSolver (E.solver .pg s).1.K (E.solver .pg s).1.cfg false f ⟨(E.solver .pg s).2.cache, (E.solver .pg s).2.w, []⟩ with
      | none => simp only [ec] at ex; cases ex
      | some r =>
        simp only [ec] at ex
        have hcn := addCnf_cnt h hn hc ec
        unfold FMini.known at ex
        split at ex
        · cases ex
        · cases ex
        · split at ex
          · cases ex
          · cases ex
          · cases ex; exact hcn
    match ea : (E.solver .pg s).2.add (E.solver .pg s).1 f with
    | .panic => simp only [ea] at e; cases e
    | .diverge => simp only [ea] at e; cases e
    | .ok x =>
      simp only [ea] at e
      match eb : x.m.backbone E.C fuel (fnVars.val f) .positiveAndNegative with
      | .panic => simp only [eb] at e; cases e
      | .diverge => simp only [eb] at e; cases e
      | .ok (m, b) =>
        simp only [eb] at e
        match es : simplifyWith E.K f b with
        | none => simp only [es] at e; cases e
        | some g' => simp only [es] at e; cases e; exact hadd x ea

/-- What `compile_dnnf` hands to the compiler: a CNF that entails the formula, follows from it if the auxiliary variables are chosen as intended, and contains the literals it entails. -/
structure Prep (c : AuxTy → Nat) (f g : Formula) : Prop where
  norm : g.Norm
  cnf : IsCnf g
  units : Units g
  sound : ∀ σ, g.eval σ = true → f.eval σ = true
  compl : (∀ v, Occ v f → Verif.Known c v) → ∀ σ, f.eval σ = true → ∃ σ' : Asg, (∀ v, Verif.Known c v → σ' v = σ v) ∧ g.eval σ' = true
  same : IsCnf f → (∀ σ, g.eval σ = f.eval σ) ∧ ∀ v, Occ v g → Occ v f

theorem compileDnnf_prep [LinearOrder Lit] (hm : E.C.clauseMin ≠ .none) (hcfg : E.cfg.cc.Good) {ordS : List Nat → List Nat} (hord : ∀ l n, n ∈ ordS l ↔ n ∈ l)
    {ord : List Lit → List Lit} {byName : List Var → List Var} {fuel : Nat} (h : PInv E.K c s G) {f : Formula} (hin : Input E.cfg s.w.cnt f) :
    compileDnnf E ordS ord byName fuel f s = .diverge ∨
    ∃ sub b s', Prep c f sub ∧ ((initClauses E.K sub).2.isAtomic = false → (b = true ↔ ∃ σ, sub.eval σ = true)) ∧ (∃ G', PInv E.K c s' G') ∧
      compileDnnf E ordS ord byName fuel f s = match compile E.K E.C.toCfg ord byName b fuel sub with | none => .panic | some (g, d) => .ok (g, fnVars.val f, d, s') := by
  obtain ⟨cnf, w, G1, e1, h1, k1, _⟩ := cnfOf_ok hcfg h hin
  have hin1 : Input E.cfg w.cnt cnf := cnf_input k1.norm k1.shape k1.old
  have h2 := backboneSimp_ok hm hcfg h1 hin1 (cnf_bounded k1.shape) fuel
  have h2c := fun g s' => backboneSimp_cnt (E := E) (s := { s with w := w }) (fuel := fuel) (g := g) (s' := s') h1.w k1.norm k1.shape
  unfold compileDnnf
  simp only [e1]
  revert h2 h2c
  match backboneSimp E fuel cnf { s with w := w } with
  | .panic => exact fun h => h.elim
  | .diverge => exact fun _ _ => .inl rfl
  | .ok (simp, s2) =>
    rintro ⟨hs, G2, i2⟩ hle
    have hle : s2.w.cnt = w.cnt := hle simp s2 rfl
    have hd : Direct c cnf := .inr k1.shape
    have hsc := hs.cnf k1.shape
    obtain ⟨sub, e3, hsub⟩ := subsume_ok E.K ordS hord .conj hs.norm (isNf_conj.2 hsc)
    have e3 : cnfSubsumption E.K ordS simp = some sub := by
      unfold cnfSubsumption; rw [(isCnfF_iff hs.norm).2 hsc]; exact e3
    obtain ⟨ho, hu⟩ := units_subsume hsc (units_simp hd hs) hsub
    have hc := isNf_conj.1 hsub.shape
    have hev : ∀ σ, sub.eval σ = cnf.eval σ := fun σ => (hsub.eval σ).trans (hs.eval hd σ)
    have hp : Prep c f sub := by
      refine ⟨hsub.norm, hc, hu, fun σ hσ => k1.sound σ (by rwa [← hev]), fun hk σ hσ => ?_, fun hf => ?_⟩
      · obtain ⟨σ', ag, ok⟩ := h1.w.base.ext σ
        have hag : ∀ v, Verif.Known c v → σ' v = σ v := fun v hv => (ag v (known_iff.1 hv)).symm
        refine ⟨σ', hag, ?_⟩
        rw [hev]
        refine k1.compl σ' ok ?_
        show f.eval σ' = true
        rw [Formula.eval_congr (τ := σ) fun v hv => hag v (hk v hv)]
        exact hσ
      · have : cnf = f := by
          simp only [MaxSat.cnfOf, transform_cnf hin.norm hf, Option.map_some, Option.some.injEq, Prod.mk.injEq] at e1
          exact e1.1.symm
        subst this
        exact ⟨hev, fun v hv => hs.occ v (ho v hv)⟩
    simp only [e3]
    unfold satCnf
    by_cases ha : (initClauses E.K sub).2.isAtomic = true
    · simp only [ha, if_true]
      exact .inr ⟨sub, true, s2, hp, (fun h => by cases h.symm.trans ha), ⟨G2, i2⟩, rfl⟩
    · rw [if_neg ha]
      have hin3 : Input E.cfg s2.w.cnt sub := cnf_input hsub.norm hc fun v hv => by rw [hle]; exact k1.old v (hs.occ v (ho v hv))
      have h4 := isSat_ok hm hcfg i2 hin3 fuel
      revert h4
      match isSat E fuel sub s2 with
      | .panic => exact fun h => h.elim
      | .diverge => exact fun _ => .inl rfl
      | .ok (b, s3) =>
        rintro ⟨hb, hi⟩
        exact .inr ⟨sub, b, s3, hp, fun _ => hb (.inr hc), hi, rfl⟩

end
end Verif.Dnnf
