import Verif.Sat.Pred
import Verif.Sat.EnumF
import Verif.Props.SatFormula
import Verif.Props.Count
/-
Properties C57 (`is_sat`, `is_tautology`) and C58 (backbone simplification), for all sequences of calls on a factory with its caches.

As specification only `Formula.eval` is used.  `PRuns E c s` relates the configuration and the state of the factory after any sequence of calls from a factory with empty caches and
counters `c` of auxiliary variables.  The default configuration of the solver has clause minimization switched on, which is all that is used about it.
-/
namespace Verif.Sat
open St

section
variable {F : Type} [LinearOrder F] [Flt F]

/-- The state of the factory after a sequence of calls. -/
inductive PRuns (E : PEnv F) (c : AuxTy → Nat) : PState → Prop
  | new : PRuns E c ⟨World.fresh c, [], fun _ => none, fun _ => none⟩
  | world {s w es} : PRuns E c s → WStep E.K E.cfg s.w s.es w es → PRuns E c { s with w := w, es := es }
  | sat {s s' fuel f b} : PRuns E c s → Input E.cfg s.w.cnt f → isSat E fuel f s = .ok (b, s') → PRuns E c s'
  | taut {s s' fuel f b} : PRuns E c s → f.Norm → Input E.cfg s.w.cnt (Formula.mkNeg E.K f) → isTautology E fuel f s = .ok (b, s') → PRuns E c s'
  | simp {s s' fuel f g} : PRuns E c s → Input E.cfg s.w.cnt f → Bounded PBC.Bounded f → backboneSimp E fuel f s = .ok (g, s') → PRuns E c s'
  | enum {s s' fuel cfg f ms} : PRuns E c s → Input E.cfg s.w.cnt f → enumFormula E fuel cfg f s = .ok (ms, s') → PRuns E c s'

/-- The variables of a formula existed at the start. -/
def OverF (c : AuxTy → Nat) (f : Formula) : Prop := ∀ v, Occ v f → Verif.Known c v

/-- Formulas for which the solver is asked about exactly their models: those over variables that existed at the start, and every CNF. -/
def Direct (c : AuxTy → Nat) (f : Formula) : Prop := OverF c f ∨ IsCnf f

/-- A right answer. -/
def SatOk (c : AuxTy → Nat) (f : Formula) (b : Bool) : Prop := Direct c f → (b = true ↔ ∃ σ, f.eval σ = true)

/-- A right simplification: equivalent, without new variables, a CNF if the formula is one; an unsatisfiable formula becomes false, and otherwise it consists of the literals that hold in all
models and a rest without their variables. -/
structure SimpOk (K : Canon) (c : AuxTy → Nat) (f g : Formula) : Prop where
  norm : g.Norm
  cnf : IsCnf f → IsCnf g
  occ : ∀ v, Occ v g → Occ v f
  eval : Direct c f → ∀ σ, g.eval σ = f.eval σ
  unsat : Direct c f → (∀ σ, f.eval σ = false) → g = .fls
  shape : Direct c f → (∃ σ, f.eval σ = true) → ∃ ls r, (∀ l : Lit, l ∈ ls ↔ Occ l.v f ∧ ∀ σ, f.eval σ = true → l.eval σ = true) ∧ (∀ l ∈ ls, ¬ Occ l.v r) ∧
    if ls = [] then g = f else g = Formula.mkAnd K [Formula.mkAnd K (ls.map .lit), r]

structure PInv (K : Canon) (c : AuxTy → Nat) (s : PState) (G : List Verif.Ent) : Prop where
  w : WInv c s.w G
  es : ∀ p ∈ s.es, EncInv G s.w.cnt p.2
  sat : ∀ f b, s.sat f = some b → SatOk c f b
  bbs : ∀ f g, s.bbs f = some g → SimpOk K c f g

variable {E : PEnv F} {c : AuxTy → Nat} {s : PState} {G : List Verif.Ent}

theorem PInv.solver (h : PInv E.K c s G) (me : CnfMethod) : FInv (E.solver me s).1 c .empty (E.solver me s).2 .empty G :=
  ⟨.new, pgGood_none h.w, h.es, ⟨by simp [FSpec.empty], fun σ _ _ d hd => (by cases hd)⟩, .nil, rfl⟩

theorem overF_spec {f : Formula} (h : OverF c f) : FSpec.Over c { FSpec.empty with fs := FSpec.empty.fs ++ [f] } := by
  intro g hg
  simp only [FSpec.empty, List.nil_append, List.mem_singleton] at hg
  rw [hg]
  exact h

/-- What a new solver makes of a formula: its models, possibly extended to new auxiliary variables. -/
theorem direct_sat {me : CnfMethod} {x : FMini F} {Y : NSpec} {G' : List Verif.Ent} {f : Formula} (i : FInv (E.solver me s).1 c { FSpec.empty with fs := FSpec.empty.fs ++ [f] } x Y G')
    (ha : Added G .empty f G' Y) (ho : Direct c f) {σ : Asg} (hσ : f.eval σ = true) : ∃ σ', (∀ v, Occ v f → σ' v = σ v) ∧ Sats σ' Y.cls := by
  rcases ho with ho | ho
  · obtain ⟨σ', h1, h2⟩ := i.models.2 (overF_spec ho) σ (by
      intro g hg
      simp only [FSpec.empty, List.nil_append, List.mem_singleton] at hg
      rw [hg]
      exact hσ)
    exact ⟨σ', fun v hv => h1 v (ho v hv), h2⟩
  · obtain ⟨L, e, _, h⟩ := ha.cls
    refine ⟨σ, fun _ _ => rfl, ?_⟩
    rw [e]
    exact h ho σ hσ

theorem isSat_ok (hm : E.C.clauseMin ≠ .none) (hcfg : E.cfg.cc.Good) (h : PInv E.K c s G) {f : Formula} (hin : Input E.cfg s.w.cnt f) (fuel : Nat) :
    match isSat E fuel f s with
    | .panic => False
    | .diverge => True
    | .ok (b, s') => SatOk c f b ∧ ∃ G', PInv E.K c s' G' := by
  unfold isSat
  cases hs : s.sat f with
  | some b => exact ⟨h.sat f b hs, G, h⟩
  | none =>
    obtain ⟨x, e, Y, G', i, ha⟩ := (h.solver (E := E) .factory).add hm hcfg hin
    simp only [e]
    have hsol := (i.runs.holds hm).solve hm fuel [] []
    revert hsol
    match he : x.m.solve E.C fuel [] [] with
    | .panic => exact fun h => h
    | .diverge => exact fun _ => trivial
    | .ok (m, b) =>
      intro _
      have hb : SatOk c f b := by
        intro ho
        cases b with
        | true =>
          have := i.models.1 _ (C28_named_partial hm i.runs he).1
          exact iff_of_true rfl ⟨_, this f (by simp)⟩
        | false =>
          refine iff_of_false (by simp) ?_
          rintro ⟨σ, hσ⟩
          obtain ⟨σ', _, hs⟩ := direct_sat i ha ho hσ
          exact C29_named_partial hm i.runs he σ' hs (by simp)
      refine ⟨hb, G', i.pg.w, ?_, fun g d hg => ?_, h.bbs⟩
      · exact i.es
      · simp only at hg
        split at hg
        · rcases insKeep_some hg with hg | ⟨rfl, _, rfl⟩
          · exact h.sat g d hg
          · exact hb
        · exact h.sat g d hg

theorem isTautology_ok (hm : E.C.clauseMin ≠ .none) (hcfg : E.cfg.cc.Good) (h : PInv E.K c s G) {f : Formula} (hn : f.Norm)
    (hin : Input E.cfg s.w.cnt (Formula.mkNeg E.K f)) (fuel : Nat) :
    match isTautology E fuel f s with
    | .panic => False
    | .diverge => True
    | .ok (b, s') => (OverF c f → (b = true ↔ ∀ σ, f.eval σ = true)) ∧ ∃ G', PInv E.K c s' G' := by
  have h1 := isSat_ok hm hcfg h hin fuel
  unfold isTautology
  revert h1
  match isSat E fuel (Formula.mkNeg E.K f) s with
  | .panic => exact fun h => h
  | .diverge => exact fun h => h
  | .ok (b, s') =>
    rintro ⟨hb, hi⟩
    refine ⟨fun ho => ?_, hi⟩
    have := hb (.inl fun v hv => ho v (Formula.occ_mkNeg hv))
    simp only [Formula.eval_mkNeg _ _ _ hn.fits1, Bool.not_eq_true'] at this
    cases b with
    | true =>
      obtain ⟨σ, hσ⟩ := this.1 rfl
      exact iff_of_false (by simp) fun hh => by rw [hh σ] at hσ; cases hσ
    | false =>
      refine iff_of_true rfl fun σ => ?_
      cases e : f.eval σ with
      | true => rfl
      | false => exact absurd (this.2 ⟨σ, e⟩) (by simp)

theorem mem_lits {b : Backbone Var} {l : Lit} : l ∈ b.lits ↔ if l.pos then l.v ∈ b.pos.getD [] else l.v ∈ b.neg.getD [] := by
  rcases l with ⟨v, _ | _⟩ <;> simp [Backbone.lits, Var.p, Var.n]

theorem restricts_all {K : Canon} {A : PAsg} {P Q : Formula → Prop} (hp : ∀ f g, P f → f.restrict K A = some g → Q g) :
    ∀ {fs gs}, (∀ f ∈ fs, P f) → Formula.restricts K A fs = some gs → ∀ g ∈ gs, Q g := by
  intro fs
  induction fs with
  | nil => intro gs _ e g hg; simp only [Formula.restricts, Option.some.injEq] at e; subst e; cases hg
  | cons f fs ih =>
    intro gs h e g hg
    simp only [Formula.restricts] at e
    match e1 : Formula.restrict K A f, e2 : Formula.restricts K A fs, e with
    | some g', some gs', e =>
      injection e with e; subst e
      rcases List.mem_cons.1 hg with rfl | hg
      · exact hp f _ (h f (by simp)) e1
      · exact ih (fun f hf => h f (by simp [hf])) e2 g hg
    | none, _, e => cases e
    | some _, none, e => cases e

/-- The restriction of a CNF is a CNF. -/
theorem restrict_cnf {K : Canon} {A : PAsg} {f g : Formula} (h : IsCnf f) (e : f.restrict K A = some g) : IsCnf g := by
  have lit : ∀ l, IsClause (A.restrictLit l) := fun l => by
    rcases A.restrictLit_cases l with h | h | h <;> rw [h.1]
    · exact .lit l
    · exact .tru
    · exact .fls
  have clause : ∀ f g, IsClause f → f.restrict K A = some g → IsClause g := by
    intro f g h e
    cases h with
    | tru => cases e; exact .tru
    | fls => cases e; exact .fls
    | lit l => cases e; exact lit l
    | or h =>
      simp only [Formula.restrict] at e
      obtain ⟨gs, e1, rfl⟩ := Option.map_eq_some_iff.1 e
      refine isCl_disj.1 (isCl_mkNary K ?_)
      refine restricts_all (P := fun f => ∃ l, f = .lit l) (fun f g hf e => ?_) h e1
      obtain ⟨l, rfl⟩ := hf
      cases e
      rcases A.restrictLit_cases l with h | h | h <;> rw [h.1]
      · exact .lit l
      · exact .tru
      · exact .fls
  cases h with
  | clause h => exact .clause (clause _ _ h e)
  | and h =>
    simp only [Formula.restrict] at e
    obtain ⟨gs, e1, rfl⟩ := Option.map_eq_some_iff.1 e
    exact isCnf_mkAnd K _ fun g hg => .clause (restricts_all (P := IsClause) clause h e1 g hg)

theorem simplifyWith_ok {K : Canon} {f : Formula} (hn : f.Norm) (hbd : Bounded PBC.Bounded f) (r : Option (Backbone Var))
    (hr : ∀ b, r = some b → ∀ l ∈ b.lits, Occ l.v f)
    (hu : Direct c f → r = none → ∀ σ, f.eval σ = false)
    (hs : Direct c f → ∀ b, r = some b → (∃ σ, f.eval σ = true) ∧ ∀ l : Lit, l ∈ b.lits ↔ Occ l.v f ∧ ∀ σ, f.eval σ = true → l.eval σ = true) :
    ∃ g, simplifyWith K f r = some g ∧ SimpOk K c f g := by
  cases r with
  | none =>
    refine ⟨.fls, rfl, .fls, fun _ => .clause .fls, fun v hv => (by cases hv), fun ho σ => ?_, fun _ _ => rfl, fun ho ⟨σ, hσ⟩ => ?_⟩
    · rw [hu ho rfl σ]; rfl
    · rw [hu ho rfl σ] at hσ; cases hσ
  | some b =>
    have hr := hr b rfl
    unfold simplifyWith
    by_cases hne : b.pos.getD [] ≠ [] ∨ b.neg.getD [] ≠ []
    · simp only [hne, if_true]
      obtain ⟨g, e, hgn, hge, hgo⟩ := C09_restrict_partial K ⟨b.pos.getD [], b.neg.getD []⟩ hn hbd
      have hln : ∀ h ∈ b.lits.map Formula.lit, h.Norm := fun h hh => by obtain ⟨l, _, rfl⟩ := List.mem_map.1 hh; exact .lit l
      have hev : ∀ σ, (Formula.mkAnd K [Formula.mkAnd K (b.lits.map .lit), g]).eval σ = true ↔ (∀ l ∈ b.lits, l.eval σ = true) ∧ g.eval σ = true := by
        intro σ
        simp [Formula.eval_mkAnd]
      have hover : ∀ σ, (∀ l ∈ b.lits, l.eval σ = true) → (⟨b.pos.getD [], b.neg.getD []⟩ : PAsg).over σ = σ := by
        intro σ hl
        funext v
        simp only [PAsg.over]
        split
        · rename_i h; exact (hl v.p (mem_lits.2 (by simpa [Var.p] using h))).symm
        · split
          · rename_i h; have := hl v.n (mem_lits.2 (by simpa [Var.n] using h)); simp only [Lit.eval, Var.n] at this; cases e : σ v <;> simp_all
          · rfl
      refine ⟨Formula.mkAnd K [Formula.mkAnd K (b.lits.map .lit), g], by rw [e]; rfl, ?_, fun hc => ?_, ?_, fun ho σ => ?_, fun ho hf => ?_, fun ho _ => ?_⟩
      · refine Formula.norm_mkNary K _ fun h hh => ?_
        simp only [List.mem_cons, List.not_mem_nil, or_false] at hh
        rcases hh with rfl | rfl
        · exact Formula.norm_mkNary K _ hln
        · exact hgn
      · refine isCnf_mkAnd K _ fun h hh => ?_
        simp only [List.mem_cons, List.not_mem_nil, or_false] at hh
        rcases hh with rfl | rfl
        · refine isCnf_mkAnd K _ fun h hh => ?_
          obtain ⟨l, _, rfl⟩ := List.mem_map.1 hh
          exact .clause (.lit l)
        · exact restrict_cnf hc e
      · intro v hv
        obtain ⟨h, hh, hv'⟩ := Formula.occ_mkNary hv
        simp only [List.mem_cons, List.not_mem_nil, or_false] at hh
        rcases hh with rfl | rfl
        · obtain ⟨k, hk, hk'⟩ := Formula.occ_mkNary hv'
          obtain ⟨l, hl, rfl⟩ := List.mem_map.1 hk
          cases hk'
          exact hr _ hl
        · exact (hgo v hv').2.2
      · rw [Bool.eq_iff_iff, hev, hge]
        constructor
        · rintro ⟨h1, h2⟩
          rwa [hover σ h1] at h2
        · intro h
          have h1 : ∀ l ∈ b.lits, l.eval σ = true := fun l hl => (((hs ho b rfl).2 l).1 hl).2 σ h
          exact ⟨h1, by rwa [hover σ h1]⟩
      · obtain ⟨σ, hσ⟩ := (hs ho b rfl).1
        rw [hf σ] at hσ; cases hσ
      · refine ⟨b.lits, g, (hs ho b rfl).2, fun l hl ho => ?_, ?_⟩
        · have h1 := hgo _ ho
          have h2 := mem_lits.1 hl
          split at h2
          · exact h1.1 h2
          · exact h1.2.1 h2
        · rw [if_neg]
          simpa [Backbone.lits, or_iff_not_imp_left] using hne
    · simp only [hne, if_false]
      have hnil : b.lits = [] := by
        simp only [not_or, not_not] at hne
        simp [Backbone.lits, hne.1, hne.2]
      refine ⟨f, rfl, hn, fun h => h, fun _ h => h, fun _ _ => rfl, fun ho hf => ?_, fun ho _ => ⟨[], f, ?_, by simp, by simp⟩⟩
      · obtain ⟨σ, hσ⟩ := (hs ho b rfl).1
        rw [hf σ] at hσ; cases hσ
      · rw [← hnil]; exact (hs ho b rfl).2

theorem backboneSimp_ok (hm : E.C.clauseMin ≠ .none) (hcfg : E.cfg.cc.Good) (h : PInv E.K c s G) {f : Formula} (hin : Input E.cfg s.w.cnt f)
    (hbd : Bounded PBC.Bounded f) (fuel : Nat) :
    match backboneSimp E fuel f s with
    | .panic => False
    | .diverge => True
    | .ok (g, s') => SimpOk E.K c f g ∧ ∃ G', PInv E.K c s' G' := by
  unfold backboneSimp
  cases hs : s.bbs f with
  | some g => exact ⟨h.bbs f g hs, G, h⟩
  | none =>
    obtain ⟨x, e, Y, G', i, ha⟩ := (h.solver (E := E) .pg).add hm hcfg hin
    simp only [e]
    match he : x.m.backbone E.C fuel (fnVars.val f) .positiveAndNegative with
    | .panic => exact C34_no_panic_partial hm i.runs fuel _ _ he
    | .diverge => trivial
    | .ok (m, r) =>
      have hb := (C34_backbone_partial hm i.runs he).1
      have sat1 : ∀ σ, Sats σ Y.cls → f.eval σ = true := fun σ hσ => i.models.1 σ hσ f (by simp)
      have sat2 : Direct c f → ∀ σ, f.eval σ = true → ∃ σ', (∀ v, Occ v f → σ' v = σ v) ∧ Sats σ' Y.cls := fun ho σ hσ => direct_sat i ha ho hσ
      obtain ⟨g, eg, hg⟩ := simplifyWith_ok (c := c) (K := E.K) hin.norm hbd r
        (by
          rintro b rfl l hl
          obtain ⟨_, h1, h2, _⟩ := hb
          simp only [reduceCtorEq, if_false] at h1 h2
          obtain ⟨l1, e1, k1⟩ := h1
          obtain ⟨l2, e2, k2⟩ := h2
          rw [mem_lits, e1, e2] at hl
          split at hl
          · exact ((vars_val f).1 _).1 ((k1 _).1 hl).1
          · exact ((vars_val f).1 _).1 ((k2 _).1 hl).1)
        (by
          rintro ho rfl σ
          cases ef : f.eval σ with
          | false => rfl
          | true =>
            obtain ⟨σ', _, h'⟩ := sat2 ho σ ef
            exact absurd h' (hb σ'))
        (by
          rintro ho b rfl
          obtain ⟨⟨σ, hσ⟩, h1, h2, _⟩ := hb
          refine ⟨⟨σ, sat1 σ hσ⟩, fun l => ?_⟩
          have hfc : Occ l.v f → (Forced Y.cls l.v l.pos ↔ ∀ σ, f.eval σ = true → l.eval σ = true) := by
            intro hv
            constructor
            · intro hf σ hσ
              obtain ⟨σ', hag, hs⟩ := sat2 ho σ hσ
              have := hf σ' hs
              rw [hag _ hv] at this
              rcases l with ⟨v, _ | _⟩ <;> simpa [Lit.eval] using this
            · intro hf σ hσ
              have := hf σ (sat1 σ hσ)
              rcases l with ⟨v, _ | _⟩ <;> simpa [Lit.eval] using this
          simp only [reduceCtorEq, if_false] at h1 h2
          obtain ⟨l1, e1, k1⟩ := h1
          obtain ⟨l2, e2, k2⟩ := h2
          rw [mem_lits, e1, e2]
          rcases l with ⟨v, _ | _⟩
          · exact (k2 v).trans (and_congr_left' ((vars_val f).1 v) |>.trans (and_congr_right hfc))
          · exact (k1 v).trans (and_congr_left' ((vars_val f).1 v) |>.trans (and_congr_right hfc)))
      simp only [eg]
      refine ⟨hg, G', i.pg.w, i.es, h.sat, fun f' g' hh => ?_⟩
      simp only at hh
      split at hh
      · rcases insKeep_some hh with hh | ⟨rfl, _, rfl⟩
        · exact h.bbs _ _ hh
        · exact hg
      · exact h.bbs _ _ hh

theorem PRuns.inv (hm : E.C.clauseMin ≠ .none) (hcfg : E.cfg.cc.Good) (h : PRuns E c s) : ∃ G, PInv E.K c s G := by
  induction h with
  | new => exact ⟨[], WInv.fresh c, by simp, fun f b h => (by cases h), fun f g h => (by cases h)⟩
  | world _ hw ih =>
    obtain ⟨G, i⟩ := ih
    obtain ⟨G', h1, _, h3⟩ := hw.ok hcfg i.w i.es
    exact ⟨G', h1, h3, i.sat, i.bbs⟩
  | @sat s s' fuel f b _ hin e ih =>
    obtain ⟨G, i⟩ := ih
    have := isSat_ok hm hcfg i hin fuel
    rw [e] at this
    exact this.2
  | @taut s s' fuel f b _ hn hin e ih =>
    obtain ⟨G, i⟩ := ih
    have := isTautology_ok hm hcfg i hn hin fuel
    rw [e] at this
    exact this.2
  | @simp s s' fuel f b _ hin hb e ih =>
    obtain ⟨G, i⟩ := ih
    have := backboneSimp_ok hm hcfg i hin hb fuel
    rw [e] at this
    exact this.2
  | @enum s s' fuel cfg f ms _ hin e ih =>
    obtain ⟨G, i⟩ := ih
    obtain ⟨x, e1, Y, G', j, _⟩ := (i.solver (E := E) .pg).add hm hcfg hin
    unfold enumFormula at e
    simp only [e1] at e
    split at e
    · cases e
    · cases e
    · cases e
      exact ⟨G', j.pg.w, j.es, i.sat, i.bbs⟩

/-- C57: `is_sat` never panics. -/
theorem C57_sat_no_panic (hm : E.C.clauseMin = .deep) (hcfg : E.cfg.cc.Good) (h : PRuns E c s) {f : Formula} (hin : Input E.cfg s.w.cnt f) (fuel : Nat) :
    isSat E fuel f s ≠ .panic := by
  have hm : E.C.clauseMin ≠ .none := by rw [hm]; exact fun h => by cases h
  obtain ⟨G, i⟩ := h.inv hm hcfg
  intro e
  have := isSat_ok hm hcfg i hin fuel
  rw [e] at this
  exact this

/-- C57: the answer of `is_sat`, whether from the cache or the solver, tells whether the formula has a model.  The formula is over variables that existed at the start,
or it is a CNF, which may contain auxiliary variables. -/
theorem C57_sat (hm : E.C.clauseMin = .deep) (hcfg : E.cfg.cc.Good) (h : PRuns E c s) {f : Formula} (hin : Input E.cfg s.w.cnt f)
    (ho : (∀ v, Occ v f → Verif.Known c v) ∨ IsCnf f) {fuel : Nat} {b : Bool} {s' : PState} (e : isSat E fuel f s = .ok (b, s')) :
    b = true ↔ ∃ σ, f.eval σ = true := by
  have hm : E.C.clauseMin ≠ .none := by rw [hm]; exact fun h => by cases h
  obtain ⟨G, i⟩ := h.inv hm hcfg
  have := isSat_ok hm hcfg i hin fuel
  rw [e] at this
  exact this.1 ho

/-- C57: `is_tautology` never panics. -/
theorem C57_tautology_no_panic (hm : E.C.clauseMin = .deep) (hcfg : E.cfg.cc.Good) (h : PRuns E c s) {f : Formula} (hn : f.Norm)
    (hin : Input E.cfg s.w.cnt (Formula.mkNeg E.K f)) (fuel : Nat) : isTautology E fuel f s ≠ .panic := by
  have hm : E.C.clauseMin ≠ .none := by rw [hm]; exact fun h => by cases h
  obtain ⟨G, i⟩ := h.inv hm hcfg
  intro e
  have := isTautology_ok hm hcfg i hn hin fuel
  rw [e] at this
  exact this

/-- C57: the answer of `is_tautology` tells whether all assignments are models. -/
theorem C57_tautology (hm : E.C.clauseMin = .deep) (hcfg : E.cfg.cc.Good) (h : PRuns E c s) {f : Formula} (hn : f.Norm)
    (hin : Input E.cfg s.w.cnt (Formula.mkNeg E.K f)) (ho : ∀ v, Occ v f → Verif.Known c v) {fuel : Nat} {b : Bool} {s' : PState}
    (e : isTautology E fuel f s = .ok (b, s')) : b = true ↔ ∀ σ, f.eval σ = true := by
  have hm : E.C.clauseMin ≠ .none := by rw [hm]; exact fun h => by cases h
  obtain ⟨G, i⟩ := h.inv hm hcfg
  have := isTautology_ok hm hcfg i hn hin fuel
  rw [e] at this
  exact this.1 ho

/-- C58: backbone simplification never panics.  Partial: pseudo-Boolean constraints have to satisfy the bounds of `PBC.Bounded`, as in C09. -/
theorem C58_no_panic_partial (hm : E.C.clauseMin = .deep) (hcfg : E.cfg.cc.Good) (h : PRuns E c s) {f : Formula} (hin : Input E.cfg s.w.cnt f)
    (hbd : Bounded PBC.Bounded f) (fuel : Nat) : backboneSimp E fuel f s ≠ .panic := by
  have hm : E.C.clauseMin ≠ .none := by rw [hm]; exact fun h => by cases h
  obtain ⟨G, i⟩ := h.inv hm hcfg
  intro e
  have := backboneSimp_ok hm hcfg i hin hbd fuel
  rw [e] at this
  exact this

/-- C58: the simplified formula is equivalent, has no new variables, is false if there is no model and otherwise consists of the literals that hold in all models and a
rest without their variables.  Partial: as `C58_no_panic_partial`. -/
theorem C58_simplified_partial (hm : E.C.clauseMin = .deep) (hcfg : E.cfg.cc.Good) (h : PRuns E c s) {f : Formula} (hin : Input E.cfg s.w.cnt f)
    (hbd : Bounded PBC.Bounded f) (ho : (∀ v, Occ v f → Verif.Known c v) ∨ IsCnf f) {fuel : Nat} {g : Formula} {s' : PState}
    (e : backboneSimp E fuel f s = .ok (g, s')) :
    g.Norm ∧ (∀ v, Occ v g → Occ v f) ∧ (∀ σ, g.eval σ = f.eval σ) ∧ ((∀ σ, f.eval σ = false) → g = .fls) ∧
    ((∃ σ, f.eval σ = true) → ∃ ls r, (∀ l : Lit, l ∈ ls ↔ Occ l.v f ∧ ∀ σ, f.eval σ = true → l.eval σ = true) ∧ (∀ l ∈ ls, ¬ Occ l.v r) ∧
      if ls = [] then g = f else g = Formula.mkAnd E.K [Formula.mkAnd E.K (ls.map .lit), r]) := by
  have hm : E.C.clauseMin ≠ .none := by rw [hm]; exact fun h => by cases h
  obtain ⟨G, i⟩ := h.inv hm hcfg
  have := backboneSimp_ok hm hcfg i hin hbd fuel
  rw [e] at this
  exact ⟨this.1.norm, this.1.occ, this.1.eval ho, this.1.unsat ho, this.1.shape ho⟩

/-- C58: the simplification of a CNF is a CNF. -/
theorem C58_cnf_partial (hm : E.C.clauseMin = .deep) (hcfg : E.cfg.cc.Good) (h : PRuns E c s) {f : Formula} (hin : Input E.cfg s.w.cnt f)
    (hbd : Bounded PBC.Bounded f) (hc : IsCnf f) {fuel : Nat} {g : Formula} {s' : PState} (e : backboneSimp E fuel f s = .ok (g, s')) : IsCnf g := by
  have hm : E.C.clauseMin ≠ .none := by rw [hm]; exact fun h => by cases h
  obtain ⟨G, i⟩ := h.inv hm hcfg
  have := backboneSimp_ok hm hcfg i hin hbd fuel
  rw [e] at this
  exact this.1.cnf hc

end

/-! ### The hypotheses can be met -/

def exP : PEnv Int := ⟨canon0, exFCfg .swc true, .tseitin 0, demoM, true, true⟩

/-- A factory with empty caches. -/
def exP0 : PState := ⟨World.fresh fun _ => 7, [], fun _ => none, fun _ => none⟩

/-- `A ∧ (B ∨ ¬A) ∧ (C ∨ B ∨ ¬A) ∧ (C ∨ ¬D)` -/
def exB : Formula := Formula.mkAnd canon0 ([[vA.p], [vB.p, vA.n], [vC.p, vB.p, vA.n], [vC.p, (Var.named 5).n]].map fun c => Formula.mkOr canon0 (c.map .lit))

theorem exB_con : NoCon exB := by
  have hl : ∀ l, NoCon (.lit l) := fun l => noCon_node (by simp) (by simp [Formula.operands])
  have e : exB = .nary .conj [.lit vA.p, .nary .disj [.lit vB.p, .lit vA.n], .nary .disj [.lit vC.p, .lit vB.p, .lit vA.n], .nary .disj [.lit vC.p, .lit (Var.named 5).n]] := by
    decide +kernel
  have hd : ∀ ls : List Lit, NoCon (.nary .disj (ls.map .lit)) := fun ls => noCon_node (by simp) fun g hg => by
    obtain ⟨l, _, rfl⟩ := List.mem_map.1 hg
    exact hl l
  rw [e]
  refine noCon_node (by simp) ?_
  simp only [Formula.operands, List.mem_cons, List.not_mem_nil, or_false, forall_eq_or_imp, forall_eq]
  exact ⟨hl _, hd [_, _], hd [_, _, _], hd [_, _]⟩

theorem exB_input : Input (exFCfg .swc true) (fun _ => 7) exB := by
  refine ⟨Formula.norm_mkNary _ _ fun f hf => ?_, ⟨fun c hc => absurd rfl ((exB_con _ hc).1 c), fun p hp => absurd rfl ((exB_con _ hp).2 p)⟩, fun v hv => ?_⟩
  · obtain ⟨c, _, rfl⟩ := List.mem_map.1 hf
    refine Formula.norm_mkNary _ _ fun f hf => ?_
    obtain ⟨l, _, rfl⟩ := List.mem_map.1 hf
    exact .lit l
  · obtain ⟨f, hf, hv⟩ := Formula.occ_mkNary hv
    obtain ⟨c, hc, rfl⟩ := List.mem_map.1 hf
    obtain ⟨f, hf, hv⟩ := Formula.occ_mkNary hv
    obtain ⟨l, hl, rfl⟩ := List.mem_map.1 hf
    have hv : v = l.v := by cases hv; rfl
    have h : ∀ c ∈ [[vA.p], [vB.p, vA.n], [vC.p, vB.p, vA.n], [vC.p, (Var.named 5).n]], ∀ l ∈ c, ∃ n, l.v = .named n := by
      simp [Var.p, Var.n]
    obtain ⟨n, e⟩ := h c hc l hl
    rw [hv, e]
    trivial

/-- The hypotheses of C57 and C58, with a call answered by the cache: `exT` is satisfiable and no tautology, and `exB` becomes `A ∧ B ∧ (C ∨ ¬D)`. -/
example : ∃ s1 s2 s3, PRuns exP (fun _ => 7) s3 ∧ exP.C.clauseMin = .deep ∧ exP.cfg.cc.Good ∧
    (Input exP.cfg exP0.w.cnt exT ∧ isSat exP 1000 exT exP0 = .ok (true, s1)) ∧
    (Input exP.cfg s1.w.cnt (Formula.mkNeg exP.K exT) ∧ isTautology exP 1000 exT s1 = .ok (false, s2)) ∧
    (Input exP.cfg s2.w.cnt exB ∧ backboneSimp exP 1000 exB s2 =
      .ok (.nary .conj [.lit vA.p, .lit vB.p, .nary .disj [.lit vC.p, .lit (Var.named 5).n]], s3)) ∧
    isSat exP 0 exT s3 = .ok (true, s3) := by
  have hm : exP.C.clauseMin ≠ .none := fun h => by cases h
  have hc : exP.cfg.cc.Good := trivial
  have hneg : Formula.mkNeg exP.K exT = .not exT := rfl
  have hin : Input exP.cfg (fun _ => 7) (Formula.mkNeg exP.K exT) := by
    rw [hneg]
    have hn : NoCon (.not exT) := noCon_node (by simp) (by simpa [Formula.operands] using exT_input.2)
    exact ⟨.not exT_input.1.norm rfl rfl rfl, ⟨fun c hc => absurd rfl ((hn _ hc).1 c), fun p hp => absurd rfl ((hn _ hp).2 p)⟩,
      fun v hv => exT_input.1.known v (by cases hv; assumption)⟩
  have hex : okB (isSat exP 1000 exT exP0) (fun r => r.1 && okB (isTautology exP 1000 exT r.2) fun r => !r.1 && okB (backboneSimp exP 1000 exB r.2) fun r =>
      decide (r.1 = .nary .conj [.lit vA.p, .lit vB.p, .nary .disj [.lit vC.p, .lit (Var.named 5).n]]) && decide (r.2.sat exT = some true)) = true := by decide +kernel
  obtain ⟨⟨b1, s1⟩, e1, h1⟩ := okB_ok hex
  simp only [Bool.and_eq_true, Bool.not_eq_true', decide_eq_true_eq] at h1
  obtain ⟨rfl, h1⟩ := h1
  obtain ⟨⟨b2, s2⟩, e2, h2⟩ := okB_ok h1
  simp only [Bool.and_eq_true, Bool.not_eq_true', decide_eq_true_eq] at h2
  obtain ⟨rfl, h2⟩ := h2
  obtain ⟨⟨g, s3⟩, e3, h3⟩ := okB_ok h2
  simp only [Bool.and_eq_true, decide_eq_true_eq] at h3
  obtain ⟨rfl, h3⟩ := h3
  have r1 : PRuns exP (fun _ => 7) s1 := .sat .new exT_input.1 e1
  obtain ⟨_, i1⟩ := r1.inv hm hc
  have r2 : PRuns exP (fun _ => 7) s2 := .taut r1 exT_input.1.norm (Input.le hin i1.w.base.le) e2
  obtain ⟨_, i2⟩ := r2.inv hm hc
  have hb : Bounded PBC.Bounded exB := bounded_noCon exB_con
  refine ⟨s1, s2, s3, .simp r2 (Input.le exB_input i2.w.base.le) hb e3, rfl, hc, ⟨exT_input.1, e1⟩, ⟨Input.le hin i1.w.base.le, e2⟩, ⟨Input.le exB_input i2.w.base.le, e3⟩, ?_⟩
  unfold isSat
  rw [h3]

end Verif.Sat
