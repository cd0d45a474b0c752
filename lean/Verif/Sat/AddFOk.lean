import Verif.Sat.AddF
import Verif.F.PgSolverOk
import Verif.Props.SatFun
import Verif.Props.Transform
/-
Formulas added to `MiniSat`: the clauses on the solver stand for the formulas.
-/
namespace Verif.Sat
open St

section
variable {F : Type} [LinearOrder F] [Flt F]

/-- Something done with the factory and the user's encoders, apart from the solver (as in `TReach`). -/
inductive WStep (K : Canon) (cfg : FCfg) : World → List (CnfAlg × EncSt) → World → List (CnfAlg × EncSt) → Prop
  /-- some other use of the factory's auxiliary variables -/
  | aux {w es c'} : (∀ t, w.cnt t ≤ c' t) → WStep K cfg w es { w with cnt := c' } es
  | encoder {w es} (a : CnfAlg) (stateful : Bool) : WStep K cfg w es w (es ++ [(a, if stateful then .new else .stateless)])
  | nnf {w es f g w'} : Input cfg w.cnt f → Verif.nnf K cfg f w = some (g, w') → WStep K cfg w es w' es
  | factor {w es o f l r w' l'} : Input cfg w.cnt f → factorize K cfg o f l w = some (r, w', l') → WStep K cfg w es w' es
  | cnf {w es a s f g s' w'} (i : Nat) : Input cfg w.cnt f → es[i]? = some (a, s) → a.transform K cfg f s w = some (g, s', w') →
      WStep K cfg w es w' (es.set i (a, s'))

/-- The specification, the solver, the factory and the encoders after a sequence of calls that starts with a new solver and a factory with empty caches and counters
`c`.  States are loaded under the same condition as in `NRuns`; formulas added were built by the factory and are small enough for the encoders; the solver
is reset only while no state can be loaded (`C63_reset_wrong`). -/
inductive FRuns (E : Env F) (c : AuxTy → Nat) : FSpec → FMini F → Prop
  | new : FRuns E c .empty ⟨.new E.C, fun _ => none, World.fresh c, []⟩
  | world {X x w es} : FRuns E c X x → WStep E.K E.cfg x.w x.es w es → FRuns E c X { x with w := w, es := es }
  | add {X x x' f} : FRuns E c X x → Input E.cfg x.w.cnt f → x.add E f = .ok x' → FRuns E c { X with fs := X.fs ++ [f] } x'
  | addProp {X x x' f} : FRuns E c X x → Input E.cfg x.w.cnt f → x.addProp E f = .ok x' → FRuns E c { X with fs := X.fs ++ [f] } x'
  | solve {X x m fuel sel as b} : FRuns E c X x → x.m.solve E.C fuel sel as = .ok (m, b) → FRuns E c X { x with m := m }
  | save {X x m k} : FRuns E c X x → E.C.incremental = true → x.m.save E.C = .ok (m, k) → FRuns E c X.save { x with m := m }
  | load {X X' x x' k} : FRuns E c X x → E.C.incremental = true → x.m.y.Separate k → X.load k = some X' → x.load E k = .ok x' → FRuns E c X' x'
  | enumerate {X x m fuel cfg ms} : FRuns E c X x → E.C.incremental = true → (∀ v ∈ relVars E.C cfg x.m.names, isRelevant E.C v = true) →
      x.m.enumerate E.C fuel cfg = .ok (m, ms) → FRuns E c X.save { x with m := m, cache := fun _ => none }
  | backbone {X x m fuel vars t b} : FRuns E c X x → x.m.backbone E.C fuel vars t = .ok (m, b) →
      FRuns E c (if E.C.incremental then X.save else X) { x with m := m, cache := if E.C.incremental then fun _ => none else x.cache }
  | optimize {X x m fuel o sm r c'} : FRuns E c X x → E.C.incremental = true → OptOK { NSpec.empty with names := x.m.names } o sm x.w.cnt →
      x.m.optimize E.C E.cfg.cc fuel o sm x.w.cnt = .ok (m, r) → (∀ t, x.w.cnt t ≤ c' t) →
      FRuns E c X.save { x with m := m, cache := fun _ => none, w := { x.w with cnt := c' } }
  | reset {X x} : FRuns E c X x → X.saved = [] → FRuns E c { X with fs := [] } (x.reset E)

/-! ### Clauses for formulas -/

/-- The clauses stand for the formulas: they imply them, and follow if the auxiliary variables are chosen as intended. -/
structure Cov (E : List Verif.Ent) (cls : List Clause) (fs : List Formula) : Prop where
  sound : ∀ σ, LSat σ cls → ∀ f ∈ fs, f.eval σ = true
  compl : ∀ σ, EncOk E σ → (∀ f ∈ fs, f.eval σ = true) → LSat σ cls

theorem Cov.mono {E E' cls fs} (h : Cov E cls fs) (hs : ∀ e ∈ E, e ∈ E') : Cov E' cls fs :=
  ⟨h.sound, fun σ ho => h.compl σ fun e he => ho e (hs e he)⟩

theorem Cov.add {E E' cls fs f L} (h : Cov E cls fs) (hs : ∀ e ∈ E, e ∈ E') (h1 : ∀ σ, LSat σ (cls ++ L) → f.eval σ = true)
    (h2 : ∀ σ, EncOk E' σ → f.eval σ = true → LSat σ L) : Cov E' (cls ++ L) (fs ++ [f]) := by
  refine ⟨fun σ hσ g hg => ?_, fun σ ho hf c hc => ?_⟩
  · rcases List.mem_append.1 hg with hg | hg
    · exact h.sound σ (fun c hc => hσ c (List.mem_append_left _ hc)) g hg
    · rw [List.mem_singleton.1 hg]; exact h1 σ hσ
  · rcases List.mem_append.1 hc with hc | hc
    · exact (h.mono hs).compl σ ho (fun g hg => hf g (List.mem_append_left _ hg)) c hc
    · exact h2 σ ho (hf f (by simp)) c hc

/-- Invariant of `FRuns`. -/
structure FInv (E : Env F) (c : AuxTy → Nat) (X : FSpec) (x : FMini F) (Y : NSpec) (G : List Verif.Ent) : Prop where
  runs : NRuns E.C Y x.m
  pg : PgGood c Y.cls idle G ⟨x.cache, x.w, []⟩
  es : ∀ p ∈ x.es, EncInv G x.w.cnt p.2
  cov : Cov G Y.cls X.fs
  saved : List.Forall₂ (fun s t => s.1 = t.1 ∧ Cov G s.2.2 t.2) Y.saved X.saved
  count : Y.count = X.count

variable {E : Env F} {c : AuxTy → Nat} {X : FSpec} {x : FMini F} {Y : NSpec} {G : List Verif.Ent}

theorem FInv.world (h : FInv E c X x Y G) {w : World} {es : List (CnfAlg × EncSt)} {G' : List Verif.Ent} (hw : WInv c w G') (hx : GExt x.w.cnt G w.cnt G')
    (hes : ∀ p ∈ es, EncInv G' w.cnt p.2) : FInv E c X { x with w := w, es := es } Y G' :=
  ⟨h.runs, h.pg.world hw hx, hes, h.cov.mono hx.sub, h.saved.imp fun _ _ hs => ⟨hs.1, hs.2.mono hx.sub⟩, h.count⟩

theorem WStep.ok {K : Canon} {cfg : FCfg} (hcfg : cfg.cc.Good) {w es w' es'} (h : WStep K cfg w es w' es') (hw : WInv c w G) (hes : ∀ p ∈ es, EncInv G w.cnt p.2) :
    ∃ G', WInv c w' G' ∧ GExt w.cnt G w'.cnt G' ∧ ∀ p ∈ es', EncInv G' w'.cnt p.2 := by
  cases h with
  | aux hle =>
    have hx : GExt w.cnt G _ G := ⟨hle, fun _ h => h⟩
    exact ⟨G, hw.grow (hw.base.mono hle) hx, hx, fun p hp => (hes p hp).mono hx⟩
  | encoder a st =>
    refine ⟨G, hw, GExt.refl _ _, fun p hp => ?_⟩
    rcases List.mem_append.1 hp with hp | hp
    · exact hes p hp
    · rw [List.mem_singleton.1 hp]
      cases st
      · exact EncInv.stateless _ _
      · exact EncInv.new _ _
  | nnf hin e =>
    obtain ⟨g', w', E', e', h', x', _⟩ := nnf_ok (C := K) hcfg hw hin.top
    rw [e] at e'; injection e' with e'; injection e' with e1 e2; subst e1; subst e2
    exact ⟨E', h', x', fun p hp => (hes p hp).mono x'⟩
  | @factor o f l r _ l' hin e =>
    obtain ⟨r', w2, l2, E', e', h', x', _⟩ := factorize_ok (C := K) hcfg hw hin.top o l
    rw [e] at e'; injection e' with e'; injection e' with e1 e2; injection e2 with e2 e3; subst e1; subst e2
    exact ⟨E', h', x', fun p hp => (hes p hp).mono x'⟩
  | @cnf a s f g s' w' i hin hi e =>
    obtain ⟨g', s2, w2, E', e', h', x', i', _⟩ := transform_ok (C := K) hcfg a hw (hes _ (List.mem_of_getElem? hi)) hin.top
    rw [e] at e'; injection e' with e'; injection e' with e1 e2; injection e2 with e2 e3; subst e1; subst e2; subst e3
    refine ⟨E', h', x', fun p hp => ?_⟩
    rcases List.mem_or_eq_of_mem_set hp with hp | rfl
    · exact (hes p hp).mono x'
    · exact i'

/-! ### The solver -/

theorem NRuns.knowAll {C : MCfg F} {X : NSpec} {m : Mini F} (hm : C.clauseMin ≠ .none) (phase : Bool) (vs : List Var) (h : NRuns C X m) :
    ∃ m', m.knowAll C phase vs = .ok m' ∧ NRuns C { X with names := NSpec.learn X.names vs } m' := by
  induction vs generalizing X m with
  | nil => exact ⟨m, rfl, h⟩
  | cons v vs ih =>
    obtain ⟨m1, e1, _⟩ := (h.holds hm).know phase v
    have h1 : NRuns C { X with names := NSpec.learn X.names [v] } m1 :=
      h.step (op := .know phase v) (r := none) (by rintro (h | ⟨_, h⟩) <;> cases h) (fun _ h => by cases h) rfl (by unfold Mini.step; simp only; rw [e1])
    obtain ⟨m2, e2, h2⟩ := ih h1
    refine ⟨m2, ?_, ?_⟩
    · unfold Mini.knowAll
      rw [e1]
      exact e2
    · rw [show v :: vs = [v] ++ vs from rfl, learn_append]
      exact h2

theorem NRuns.addAll {C : MCfg F} {X : NSpec} {m : Mini F} (hm : C.clauseMin ≠ .none) (cs : List Clause) (h : NRuns C X m) :
    ∃ m', m.addAll C cs = .ok m' ∧ NRuns C { X with names := NSpec.learn X.names (varsOf cs), cls := X.cls ++ cs } m' := by
  induction cs generalizing X m with
  | nil => exact ⟨m, rfl, by rw [List.append_nil]; exact h⟩
  | cons d cs ih =>
    obtain ⟨m1, e1, _⟩ := (h.holds hm).addClause d
    have h1 : NRuns C { X with names := NSpec.learn X.names (d.map Lit.v), cls := X.cls ++ [d] } m1 :=
      h.step (op := .add d) (r := none) (by rintro (h | ⟨_, h⟩) <;> cases h) (fun _ h => by cases h) rfl (by unfold Mini.step; simp only; rw [e1])
    obtain ⟨m2, e2, h2⟩ := ih h1
    refine ⟨m2, ?_, ?_⟩
    · unfold Mini.addAll
      rw [e1]
      exact e2
    · rw [show varsOf (d :: cs) = d.map Lit.v ++ varsOf cs from rfl, learn_append]
      simp only [List.append_assoc, List.singleton_append] at h2 ⊢
      exact h2

/-- The variables of a formula are made known after its clauses have been added. -/
theorem FInv.learnt (hm : E.C.clauseMin ≠ .none) (h : FInv E c X x Y G) (f : Formula) :
    ∃ x', FMini.known E f x (.ok x.m) = .ok x' ∧ ∃ Y', FInv E c X x' Y' G ∧ Y'.cls = Y.cls ∧ Y'.saved = Y.saved := by
  obtain ⟨m, e, hr⟩ := h.runs.knowAll hm (!E.C.initialPhase) (fnVars.val f)
  refine ⟨{ x with m := m }, ?_, _, ⟨hr, h.pg, h.es, h.cov, h.saved, h.count⟩, rfl, rfl⟩
  unfold FMini.known
  simp only [e]

/-- Clauses for the formula `f` have been added: they follow from it if the auxiliary variables are chosen as intended, and in any case if it is a CNF. -/
structure Added (G : List Verif.Ent) (Y : NSpec) (f : Formula) (G' : List Verif.Ent) (Y' : NSpec) : Prop where
  sub : ∀ e ∈ G, e ∈ G'
  saved : Y'.saved = Y.saved
  cls : ∃ L, Y'.cls = Y.cls ++ L ∧ (∀ σ, EncOk G' σ → f.eval σ = true → LSat σ L) ∧ (IsCnf f → ∀ σ, f.eval σ = true → LSat σ L)

/-- Clauses for a formula have been added. -/
theorem FInv.addLits (hm : E.C.clauseMin ≠ .none) (h : FInv E c X x Y G) {f : Formula} {L : List Clause} {cache : Formula → Option PgEntry} {w : World} {G' : List Verif.Ent}
    {m : Mini F} {Y' : NSpec} (hr : NRuns E.C Y' m) (hY : Y'.cls = Y.cls ++ L) (hs : Y'.saved = Y.saved) (hc : Y'.count = Y.count)
    (hx : GExt x.w.cnt G w.cnt G') (hp : PgGood c (Y.cls ++ L) idle G' ⟨cache, w, []⟩) (h1 : ∀ σ, LSat σ (Y.cls ++ L) → f.eval σ = true)
    (h2 : ∀ σ, EncOk G' σ → f.eval σ = true → LSat σ L) (h3 : IsCnf f → ∀ σ, f.eval σ = true → LSat σ L) :
    FInv E c { X with fs := X.fs ++ [f] } ⟨m, cache, w, x.es⟩ Y' G' ∧ Added G Y f G' Y' ∧
    ∃ x', FMini.known E f { x with cache := cache, w := w } (.ok m) = .ok x' ∧ ∃ Y', FInv E c { X with fs := X.fs ++ [f] } x' Y' G' ∧ Added G Y f G' Y' := by
  have hi : FInv E c { X with fs := X.fs ++ [f] } ⟨m, cache, w, x.es⟩ Y' G' :=
    ⟨hr, by rw [hY]; exact hp, fun p hp => (h.es p hp).mono hx, by rw [hY]; exact h.cov.add hx.sub h1 h2,
      by rw [hs]; exact h.saved.imp fun _ _ hs => ⟨hs.1, hs.2.mono hx.sub⟩, hc.trans h.count⟩
  obtain ⟨x', e, Y2, h', e1, e2⟩ := hi.learnt hm f
  exact ⟨hi, ⟨hx.sub, hs, L, hY, h2, h3⟩, x', e, Y2, h', hx.sub, e2.trans hs, L, e1.trans hY, h2, h3⟩

/-- More clauses do no harm. -/
theorem pgGood_base {base L B G s} (h : PgGood c base B G s) : PgGood c (base ++ L) B G s := by
  refine ⟨h.w, h.var, fun f e pol he hB hf σ hs => h.flag f e pol he hB hf σ fun d hd => hs d ?_⟩
  rcases List.mem_append.1 hd with hd | hd
  · exact List.mem_append_left _ (List.mem_append_left _ hd)
  · exact List.mem_append_right _ hd

theorem pgGood_none {base B G} {w : World} (h : WInv c w G) : PgGood c base B G ⟨fun _ => none, w, []⟩ :=
  ⟨h, fun _ _ e => (by cases e), fun _ _ _ e => (by cases e)⟩

theorem clauseLits_of : ClauseLits litsOf := by
  intro f l hf
  cases hf with
  | tru => simp [litsOf]
  | fls => simp [litsOf]
  | lit k => simp [litsOf, eq_comm]
  | @or fs hfs =>
    simp only [litsOf, List.mem_filterMap]
    constructor
    · rintro ⟨g, hg, e⟩
      split at e
      · injection e with e; subst e; exact .inr ⟨fs, rfl, hg⟩
      · cases e
    · rintro (h | ⟨gs, h, hl⟩)
      · cases h
      · injection h with _ h; subst h; exact ⟨_, hl, rfl⟩

/-- A CNF is left as it is by the algorithms of the factory. -/
theorem transform_cnf {K : Canon} {cfg : FCfg} {alg : CnfAlg} {f : Formula} (hn : f.Norm) (hc : IsCnf f) {s : EncSt} {w : World} : alg.transform K cfg f s w = some (f, s, w) := by
  have := (isCnfF_iff hn).2 hc
  cases alg <;> simp [CnfAlg.transform, this]

/-- A CNF is its negation normal form. -/
theorem nnf_cnf {K : Canon} {cfg : FCfg} {w : World} {G : List Verif.Ent} (h : WInv c w G) {f : Formula} (hn : f.Norm) (hc : IsCnf f) :
    ∃ w', nnf K cfg f w = some (f, w') ∧ w'.cnt = w.cnt := by
  have hit : cnfCached f = true → w.nnfHit f = some f := fun hh => by simp [World.nnfHit, hh]
  have leaf : leafF f = true → ∀ g, w.nnfHit f = some g → g = f := by
    intro hl g e
    unfold World.nnfHit at e
    split at e
    · injection e with e; exact e.symm
    · exact (h.nnf f g e).2 hl
  have key : ∀ body : World → Option (Formula × World), (leafF f = true → body w = some (f, w)) → (leafF f = true ∨ cnfCached f = true) →
      ∃ w', nnfMemo cfg f true body w = some (f, w') ∧ w'.cnt = w.cnt := by
    intro body hb hf
    unfold nnfMemo
    simp only [if_true]
    cases hh : w.nnfHit f with
    | some g =>
      rcases hf with hf | hf
      · exact ⟨w, by rw [leaf hf g hh], rfl⟩
      · rw [hit hf] at hh; injection hh with hh; exact ⟨w, by rw [hh], rfl⟩
    | none =>
      rcases hf with hf | hf
      · simp only [hb hf]
        refine ⟨_, rfl, ?_⟩
        unfold World.nnfPut
        split <;> rfl
      · rw [hit hf] at hh; cases hh
  unfold nnf
  cases f with
  | tru => simp only [nnfG]; exact key _ (fun _ => rfl) (.inl rfl)
  | fls => simp only [nnfG]; exact key _ (fun _ => rfl) (.inl rfl)
  | lit l => simp only [nnfG]; exact key _ (fun _ => rfl) (.inl rfl)
  | nary o fs => simp only [nnfG]; exact key _ (fun h => by cases h) (.inr ((isCnfF_iff hn).2 hc))
  | not | impl | equiv | cc | pbc => cases hc with | clause hc => cases hc

/-- The clauses of a CNF are those added to the solver. -/
theorem addCnf_cnf {K : Canon} {cfg : FCfg} {full : Bool} {cache : Formula → Option PgEntry} {w : World} {G : List Verif.Ent} (h : WInv c w G) {f : Formula} (hn : f.Norm) (hc : IsCnf f)
    {s : PgS} (e : addCnfToSolver K cfg full f ⟨cache, w, []⟩ = some s) (σ : Asg) (hf : f.eval σ = true) : LSat σ s.out := by
  obtain ⟨w', hw, _⟩ := nnf_cnf (K := K) (cfg := cfg) h hn hc
  obtain ⟨L, eL, hL⟩ := cnfClauses_ok clauseLits_fn hc hn
  unfold addCnfToSolver at e
  have hg : ∃ w1, (if (!full || (f.containsPbc false fun _ => none).1 == some true) = true then nnf K cfg f w else some (f, w)) = some (f, w1) := by
    split
    · exact ⟨w', hw⟩
    · exact ⟨w, rfl⟩
  obtain ⟨w1, hg⟩ := hg
  simp only [hg, (isCnfF_iff hn).2 hc, if_true, eL, Option.map_some, List.nil_append, Option.some.injEq] at e
  rw [← e]
  exact (hL σ).2 hf

/-- Nor are there new auxiliary variables. -/
theorem addCnf_cnt {K : Canon} {cfg : FCfg} {full : Bool} {cache : Formula → Option PgEntry} {w : World} {G : List Verif.Ent} (h : WInv c w G) {f : Formula} (hn : f.Norm) (hc : IsCnf f)
    {s : PgS} (e : addCnfToSolver K cfg full f ⟨cache, w, []⟩ = some s) : s.w.cnt = w.cnt := by
  obtain ⟨w', hw, hcn⟩ := nnf_cnf (K := K) (cfg := cfg) h hn hc
  obtain ⟨L, eL, hL⟩ := cnfClauses_ok clauseLits_fn hc hn
  unfold addCnfToSolver at e
  have hg : ∃ w1, (if (!full || (f.containsPbc false fun _ => none).1 == some true) = true then nnf K cfg f w else some (f, w)) = some (f, w1) ∧ w1.cnt = w.cnt := by
    split
    · exact ⟨w', hw, hcn⟩
    · exact ⟨w, rfl, rfl⟩
  obtain ⟨w1, hg, hc1⟩ := hg
  simp only [hg, (isCnfF_iff hn).2 hc, if_true, eL, Option.map_some, List.nil_append, Option.some.injEq] at e
  rw [← e]
  exact hc1

/-- Adding a formula never panics, and the invariant is kept. -/
theorem FInv.add (hm : E.C.clauseMin ≠ .none) (hcfg : E.cfg.cc.Good) (h : FInv E c X x Y G) {f : Formula} (hin : Input E.cfg x.w.cnt f) :
    ∃ x', x.add E f = .ok x' ∧ ∃ Y' G', FInv E c { X with fs := X.fs ++ [f] } x' Y' G' ∧ Added G Y f G' Y' := by
  have factory : ∃ x', x.addFactory E f = .ok x' ∧ ∃ Y' G', FInv E c { X with fs := X.fs ++ [f] } x' Y' G' ∧ Added G Y f G' Y' := by
    obtain ⟨g, s', w', G', e, h', hx, _, k⟩ := transform_ok (C := E.K) hcfg E.alg h.pg.w (EncInv.stateless _ _) hin.top
    obtain ⟨L, eL, hL⟩ := cnfClauses_ok clauseLits_of k.shape k.norm
    obtain ⟨m, em, hr⟩ := h.runs.addAll hm L
    obtain ⟨_, _, x', ex, Y', hi⟩ := h.addLits hm (f := f) (cache := x.cache) hr rfl rfl rfl hx (pgGood_base (h.pg.world h' hx))
      (fun σ hs => k.sound σ ((hL σ).1 fun d hd => hs d (List.mem_append_right _ hd))) (fun σ ho hf => (hL σ).2 (k.compl σ ho hf))
      (fun hc σ hf => (hL σ).2 (by rw [transform_cnf hin.norm hc] at e; injection e with e; injection e with e _; rwa [← e]))
    refine ⟨x', ?_, Y', G', hi⟩
    unfold FMini.addFactory
    simp only [e, eL, em]
    exact ex
  have pg : ∀ full, ∃ x', x.addPg E full f = .ok x' ∧ ∃ Y' G', FInv E c { X with fs := X.fs ++ [f] } x' Y' G' ∧ Added G Y f G' Y' := by
    intro full
    obtain ⟨s', G', e, hg, hmv, hs⟩ := addCnfToSolver_ok (C := E.K) hcfg h.pg full hin.top
    obtain ⟨L, hL, hL2⟩ := hmv.new
    simp only [List.nil_append] at hL
    obtain ⟨m, em, hr⟩ := h.runs.addAll hm s'.out
    have hp : PgGood c (Y.cls ++ s'.out) idle G' ⟨s'.cache, s'.w, []⟩ :=
      ⟨hg.w, hg.var, fun f e pol he hB hf σ hs => hg.flag f e pol he hB hf σ (by simpa using hs)⟩
    obtain ⟨_, _, x', ex, Y', hi⟩ := h.addLits hm (f := f) hr rfl rfl rfl hmv.ext hp hs (fun σ ho hf => by rw [hL]; exact hL2 σ ho hf)
      (fun hc => addCnf_cnf h.pg.w hin.norm hc e)
    refine ⟨x', ?_, Y', G', hi⟩
    unfold FMini.addPg
    simp only [e, em]
    exact ex
  have cc : ∀ k, f = .cc k → ∃ x', x.addCc E k = .ok x' ∧ ∃ Y' G', FInv E c { X with fs := X.fs ++ [f] } x' Y' G' ∧ Added G Y f G' Y' := by
    rintro k rfl
    have ft := hin.fit.cc k (.refl _)
    have hok : k.Ok := by cases hin.norm with | cc hok => exact hok
    have ho : ∀ v ∈ k.vars, (cER x.w.cnt).Old v := fun v hv => hin.top.2.2 v ((Formula.occ_cc ..).2 hv)
    obtain ⟨s', e, he⟩ := C24_encode_constraint E.cfg.cc hcfg k (cER x.w.cnt) (k.vars.length + 1) (by omega) (by simpa [CC.terms] using Nat.lt_of_succ_lt ft.len) (cER_wf _) ho
      (fun hc => by simpa [CC.terms, Function.comp_def] using ft.nodup hc)
      (by intro hc; have := hok.isCc; rw [hc] at this; simp [Formula.isCc] at this; omega)
    have he : ER.Encodes (cER x.w.cnt) s' (fun σ => k.eval σ = true) := he.congr (CC.holds_iff k)
    have hb := h.pg.w.base.encode (Dep.cc ho) he
    have hx : GExt x.w.cnt G s'.cnt (G ++ [⟨fun σ => k.eval σ = true, fun σ => LSat σ s'.clauses⟩]) :=
      ⟨he.le.1, fun e he => List.mem_append_left _ he⟩
    obtain ⟨m1, em1, hr1⟩ := h.runs.knowAll hm E.C.initialPhase (newAuxVars (cER x.w.cnt) s')
    obtain ⟨m, em, hr⟩ := hr1.addAll hm s'.clauses
    have ew : x.m.write E.C (cER x.w.cnt) s' = .ok m := by
      unfold Mini.write
      rw [em1]
      exact em
    obtain ⟨_, _, x', ex, Y', hi⟩ := h.addLits hm (f := .cc k) (cache := x.cache) (L := s'.clauses) hr rfl rfl rfl hx (pgGood_base (h.pg.world (h.pg.w.grow hb hx) hx))
      (fun σ hs => by simpa using he.sound fun d hd => hs d (List.mem_append_right _ hd))
      (fun σ ho hf => ho ⟨fun σ => k.eval σ = true, fun σ => LSat σ s'.clauses⟩ (by simp) (by simpa using hf))
      (fun hc => by cases hc with | clause hc => cases hc)
    refine ⟨x', ?_, Y', _, hi⟩
    unfold FMini.addCc
    simp only [e, ew]
    exact ex
  unfold FMini.add
  cases f with
  | cc k => exact cc k rfl
  | _ => cases E.me with
    | factory => exact factory
    | pg => exact pg false
    | fullPg => exact pg true

/-- Adding a proposition never panics, and the invariant is kept. -/
theorem FInv.addProp (hm : E.C.clauseMin ≠ .none) (hcfg : E.cfg.cc.Good) (h : FInv E c X x Y G) {f : Formula} (hin : Input E.cfg x.w.cnt f) :
    ∃ x', x.addProp E f = .ok x' ∧ ∃ Y' G', FInv E c { X with fs := X.fs ++ [f] } x' Y' G' ∧ Added G Y f G' Y' := by
  have pg : ∀ full, ∃ s m, addCnfToSolver E.K E.cfg full f ⟨x.cache, x.w, []⟩ = some s ∧ x.m.addAll E.C s.out = .ok m ∧
      ∃ Y' G', FInv E c { X with fs := X.fs ++ [f] } ⟨m, s.cache, s.w, x.es⟩ Y' G' ∧ Added G Y f G' Y' := by
    intro full
    obtain ⟨s', G', e, hg, hmv, hs⟩ := addCnfToSolver_ok (C := E.K) hcfg h.pg full hin.top
    obtain ⟨L, hL, hL2⟩ := hmv.new
    simp only [List.nil_append] at hL
    obtain ⟨m, em, hr⟩ := h.runs.addAll hm s'.out
    have hp : PgGood c (Y.cls ++ s'.out) idle G' ⟨s'.cache, s'.w, []⟩ :=
      ⟨hg.w, hg.var, fun f e pol he hB hf σ hs => hg.flag f e pol he hB hf σ (by simpa using hs)⟩
    obtain ⟨h1, h2, _⟩ := h.addLits hm (f := f) hr rfl rfl rfl hmv.ext hp hs (fun σ ho hf => by rw [hL]; exact hL2 σ ho hf)
      (fun hc => addCnf_cnf h.pg.w hin.norm hc e)
    exact ⟨s', m, e, em, _, G', h1, h2⟩
  unfold FMini.addProp
  cases E.me with
  | factory =>
    obtain ⟨g, s', w', G', e, h', hx, _, k⟩ := transform_ok (C := E.K) hcfg .factorization h.pg.w (EncInv.stateless _ _) hin.top
    obtain ⟨L, eL, hL⟩ := cnfClauses_ok clauseLits_of k.shape k.norm
    obtain ⟨m, em, hr⟩ := h.runs.addAll hm L
    obtain ⟨h1, h2, _⟩ := h.addLits hm (f := f) (cache := x.cache) hr rfl rfl rfl hx (pgGood_base (h.pg.world h' hx))
      (fun σ hs => k.sound σ ((hL σ).1 fun d hd => hs d (List.mem_append_right _ hd))) (fun σ ho hf => (hL σ).2 (k.compl σ ho hf))
      (fun hc σ hf => (hL σ).2 (by rw [transform_cnf hin.norm hc] at e; injection e with e; injection e with e _; rwa [← e]))
    simp only [e, eL, em]
    exact ⟨_, rfl, _, G', h1, h2⟩
  | pg =>
    obtain ⟨s, m, e, em, r⟩ := pg false
    simp only [show decide (CnfMethod.pg = CnfMethod.fullPg) = false from rfl, e, em]
    exact ⟨_, rfl, r⟩
  | fullPg =>
    obtain ⟨s, m, e, em, r⟩ := pg true
    simp only [decide_true, e, em]
    exact ⟨_, rfl, r⟩

/-! ### Saved states -/

theorem FInv.saveSpec (h : FInv E c X x Y G) {m : Mini F} (hr : NRuns E.C Y.after m) : FInv E c X.save { x with m := m } Y.after G :=
  ⟨hr, h.pg, h.es, h.cov, .cons ⟨h.count, h.cov⟩ h.saved, congrArg (· + 1) h.count⟩

theorem FInv.forget (h : FInv E c X x Y G) : FInv E c X { x with cache := fun _ => none } Y G :=
  ⟨h.runs, pgGood_none h.pg.w, h.es, h.cov, h.saved, h.count⟩

theorem cut_cov {k : Nat} {ys : List (Nat × Nat × List Clause)} {xs : List (Nat × List Formula)} (h : List.Forall₂ (fun s t => s.1 = t.1 ∧ Cov G s.2.2 t.2) ys xs) :
    ∀ {r}, FSpec.cut k xs = some r → ∃ r', NSpec.cut k ys = some r' ∧ Cov G r'.1.2.2 r.1.2 ∧ List.Forall₂ (fun s t => s.1 = t.1 ∧ Cov G s.2.2 t.2) r'.2 r.2 := by
  induction h with
  | nil => intro r e; cases e
  | @cons a b ys xs hab hr ih =>
    intro r e
    unfold FSpec.cut at e
    unfold NSpec.cut
    rw [hab.1]
    by_cases hk : b.1 = k
    · rw [if_pos hk] at e ⊢
      injection e with e
      subst e
      exact ⟨_, rfl, hab.2, .cons hab hr⟩
    · rw [if_neg hk] at e ⊢
      exact ih e

theorem FInv.load (h : FInv E c X x Y G) (hm : E.C.clauseMin ≠ .none) (hi : E.C.incremental = true) {k : Nat} (hk : x.m.y.Separate k) {X' : FSpec} (hX : X.load k = some X') :
    ∃ x', x.load E k = .ok x' ∧ ∃ Y', FInv E c X' x' Y' G := by
  obtain ⟨r, hr, rfl⟩ := Option.map_eq_some_iff.1 hX
  obtain ⟨r', hr', hc, hs⟩ := cut_cov h.saved hr
  obtain ⟨m, em, _⟩ := (h.runs.holds hm).load hm hi hk hr'
  refine ⟨{ x with m := m, cache := fun _ => none }, by unfold FMini.load; rw [em], { Y with names := Y.names.take r'.1.2.1, cls := r'.1.2.2, saved := r'.2 }, ?_, pgGood_none h.pg.w, h.es, hc, hs, h.count⟩
  exact h.runs.step (op := .load k) (r := none) (fun _ => hi) (by intro k' e; cases e; exact hk) (by show Option.map _ _ = _; rw [hr']; rfl) (by unfold Mini.step; simp only; rw [em])

theorem optOK_names {Y Y' : NSpec} (hn : Y.names = Y'.names) {o : OptF} {sm : List (Var × Lit)} {cnt : AuxTy → Nat} (h : OptOK Y o sm cnt) : OptOK Y' o sm cnt :=
  ⟨h.lits, h.nodup, h.named, by rw [← hn]; exact h.fresh, by rw [← hn]; exact h.old, h.small⟩

/-- The invariant holds after every sequence of calls. -/
theorem FRuns.inv (hm : E.C.clauseMin ≠ .none) (hcfg : E.cfg.cc.Good) (h : FRuns E c X x) : ∃ Y G, FInv E c X x Y G := by
  induction h with
  | new =>
    refine ⟨.empty, [], .new, pgGood_none (WInv.fresh c), by simp, ⟨by simp [FSpec.empty], fun σ _ _ d hd => (by cases hd)⟩, .nil, rfl⟩
  | world _ hw ih =>
    obtain ⟨Y, G, i⟩ := ih
    obtain ⟨G', h1, h2, h3⟩ := hw.ok hcfg i.pg.w i.es
    exact ⟨Y, G', i.world h1 h2 h3⟩
  | add _ hin e ih =>
    obtain ⟨Y, G, i⟩ := ih
    obtain ⟨x', e', Y', G', i', _⟩ := i.add hm hcfg hin
    rw [e] at e'; injection e' with e'; subst e'
    exact ⟨Y', G', i'⟩
  | addProp _ hin e ih =>
    obtain ⟨Y, G, i⟩ := ih
    obtain ⟨x', e', Y', G', i', _⟩ := i.addProp hm hcfg hin
    rw [e] at e'; injection e' with e'; subst e'
    exact ⟨Y', G', i'⟩
  | @solve X x m fuel sel as b _ e ih =>
    obtain ⟨Y, G, i⟩ := ih
    refine ⟨{ Y with names := NSpec.learn Y.names (as.map Lit.v) }, G, ?_, i.pg, i.es, i.cov, i.saved, i.count⟩
    exact i.runs.step (op := .solve fuel sel as) (r := some b) (by rintro (h | ⟨_, h⟩) <;> cases h) (fun _ h => by cases h) rfl (by unfold Mini.step; simp only; rw [e])
  | reset _ hs ih =>
    obtain ⟨Y, G, i⟩ := ih
    have hY : Y.saved = [] := by
      have := i.saved
      rw [hs] at this
      exact List.forall₂_nil_right_iff.1 this
    refine ⟨_, G, i.runs.reset hY, pgGood_none i.pg.w, i.es, ⟨fun σ _ f hf => (by cases hf), fun σ _ _ d hd => (by cases hd)⟩, ?_, i.count⟩
    show List.Forall₂ _ [] _
    rw [hs]
    exact .nil
  | save _ hi e ih =>
    obtain ⟨Y, G, i⟩ := ih
    exact ⟨_, G, i.saveSpec (i.runs.step (op := .save) (r := none) (fun _ => hi) (fun _ h => by cases h) rfl (by unfold Mini.step; simp only; rw [e]))⟩
  | load _ hi hk hX e ih =>
    obtain ⟨Y, G, i⟩ := ih
    obtain ⟨x', e', Y', i'⟩ := i.load hm hi hk hX
    rw [e] at e'; injection e' with e'; subst e'
    exact ⟨Y', G, i'⟩
  | enumerate _ hi hrel e ih =>
    obtain ⟨Y, G, i⟩ := ih
    exact ⟨_, G, (i.saveSpec (i.runs.enumerate hi (by rw [← (i.runs.holds hm).names]; exact hrel) e)).forget⟩
  | @backbone X x m fuel vars t b _ e ih =>
    obtain ⟨Y, G, i⟩ := ih
    have hr := i.runs.backbone e
    unfold NSpec.afterIf at hr
    by_cases hi : E.C.incremental = true
    · simp only [hi, if_true] at hr ⊢
      exact ⟨_, G, (i.saveSpec hr).forget⟩
    · simp only [hi] at hr ⊢
      exact ⟨Y, G, hr, i.pg, i.es, i.cov, i.saved, i.count⟩
  | @optimize X x m fuel o sm r c' _ hi ho e hle ih =>
    obtain ⟨Y, G, i⟩ := ih
    have hr := i.runs.optimize hi (optOK_names (i.runs.holds hm).names ho) e
    have hx : GExt x.w.cnt G c' G := ⟨hle, fun _ h => h⟩
    exact ⟨_, G, (i.saveSpec hr).forget.world (w := { x.w with cnt := c' }) (i.pg.w.grow (i.pg.w.base.mono hle) hx) hx fun p hp => (i.es p hp).mono hx⟩

/-- Assignments of the variables that existed at the start can be extended to the auxiliary variables. -/
theorem FInv.models (h : FInv E c X x Y G) :
    (∀ σ, Sats σ Y.cls → ∀ f ∈ X.fs, f.eval σ = true) ∧
    ((∀ f ∈ X.fs, ∀ v, Occ v f → Verif.Known c v) → ∀ σ, (∀ f ∈ X.fs, f.eval σ = true) → ∃ σ', (∀ v, Verif.Known c v → σ' v = σ v) ∧ Sats σ' Y.cls) := by
  refine ⟨h.cov.sound, fun hk σ hσ => ?_⟩
  obtain ⟨σ', ag, ok⟩ := h.pg.w.base.ext σ
  have hag : ∀ v, Verif.Known c v → σ' v = σ v := fun v hv => (ag v (known_iff.1 hv)).symm
  refine ⟨σ', hag, h.cov.compl σ' ok fun f hf => ?_⟩
  rw [Formula.eval_congr (τ := σ) fun v hv => hag v (hk f hf v hv)]
  exact hσ f hf

end
end Verif.Sat
