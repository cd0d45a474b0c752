import Verif.Drup.Core
import Verif.Sat.AddFOk
import Verif.Sat.MLog
/-
Propositions added to `MiniSat`: the solver remembers for every recorded clause the proposition it was added for (solver/minisat_solver.rs:130-190, 244-258,
solver/sat/minisat2.rs:228-244, 1140-1150).
-/
namespace Verif.Sat
open St Verif.Drup

section
variable {F : Type} [LinearOrder F] [Flt F] {B : Type}

/-- `MiniSat` with the propositions of the recorded clauses (the second component of `pg_original_clauses`; the first is `pgOrig` of the solver), `result` (`none`
is `Undef`) and `last_computation_with_assumptions`. -/
structure CMini (F B : Type) where
  x : FMini F
  props : List (Option (Prp B))
  result : Option Bool
  assumed : Bool

namespace CMini

/-- The propositions of the recorded clauses after a call in which all clauses were added with the proposition `p`: `pg_original_clauses.push`, minisat2.rs:243, and
`truncate`, 1148.  Simplified: instead of handing the proposition down to every call of `add_clause`, it is attached to the clauses that are new at the end. -/
def track (p : Option (Prp B)) (x : CMini F B) (y : FMini F) : List (Option (Prp B)) :=
  x.props.take y.m.y.s.pgOrig.length ++ List.replicate (y.m.y.s.pgOrig.length - x.props.length) p

/-- `MiniSat::new_with_backpack`, minisat_solver.rs:58-69, and a factory -/
def new (E : Env F) (w : World) : CMini F B := ⟨⟨.new E.C, fun _ => none, w, []⟩, [], none, false⟩

/-- `add`, minisat_solver.rs:93-127 -/
def add (E : Env F) (f : Formula) (x : CMini F B) : Res (CMini F B) :=
  match x.x.add E f with
  | .ok y => .ok ⟨y, x.track none y, none, x.assumed⟩
  | .panic => .panic
  | .diverge => .diverge

/-- `add_proposition`, minisat_solver.rs:135-162 -/
def addProp (E : Env F) (p : Prp B) (x : CMini F B) : Res (CMini F B) :=
  match x.x.addProp E p.formula with
  | .ok y => .ok ⟨y, x.track (some p) y, none, x.assumed⟩
  | .panic => .panic
  | .diverge => .diverge

/-- `sat`, minisat_solver.rs:165-169 -/
def sat (E : Env F) (fuel : Nat) (x : CMini F B) : Res (CMini F B × Bool) :=
  match x.x.m.solve E.C fuel [] [] with
  | .ok (m, b) => .ok (⟨{ x.x with m := m }, x.track none { x.x with m := m }, some b, false⟩, b)
  | .panic => .panic
  | .diverge => .diverge

/-- `sat_with`, minisat_solver.rs:172-194; `as` is `None` if no assumptions were given -/
def satWith (E : Env F) (fuel : Nat) (sel : List Lit) (as : Option (List Lit)) (x : CMini F B) : Res (CMini F B × Bool) :=
  match x.x.m.solve E.C fuel sel (as.getD []) with
  | .ok (m, b) => .ok (⟨{ x.x with m := m }, x.track none { x.x with m := m }, some b, if as.isSome then true else x.assumed⟩, b)
  | .panic => .panic
  | .diverge => .diverge

/-- `save_state`, minisat_solver.rs:236-241 -/
def save (E : Env F) (x : CMini F B) : Res (CMini F B × Nat) :=
  match x.x.m.save E.C with
  | .ok (m, k) => .ok ({ x with x := { x.x with m := m } }, k)
  | .panic => .panic
  | .diverge => .diverge

/-- `load_state`, minisat_solver.rs:244-258 -/
def load (E : Env F) (k : Nat) (x : CMini F B) : Res (CMini F B) :=
  match x.x.load E k with
  | .ok y => .ok ⟨y, x.track none y, none, x.assumed⟩
  | .panic => .panic
  | .diverge => .diverge

/-- `pg_original_clauses` -/
def infos (x : CMini F B) : List (Info B) := List.zipWith Info.mk x.x.m.y.s.pgOrig x.props

/-- `compute_unsat_core` of this solver -/
def core [DecidableEq B] (E : Env F) (hash : List Int → Int) (fuel : Nat) (x : CMini F B) : Option (List (Prp B) × Bool) :=
  unsatCore E.K (fun i => x.x.m.names[i]?) hash fuel E.C.proofGen x.result x.assumed x.infos x.x.m.y.s.pgProof

end CMini

/-! ### Specification -/

/-- What a user adds. -/
inductive Item (B : Type)
  | formula (f : Formula)
  | prop (p : Prp B)

def Item.f : Item B → Formula
  | .formula f => f
  | .prop p => p.formula

def Item.p : Item B → Option (Prp B)
  | .formula _ => none
  | .prop p => some p

/-- What a user expects the solver to hold: the formulas and propositions added, and the saved states (newest first). -/
structure CSpec (B : Type) where
  items : List (Item B)
  saved : List (Nat × List (Item B))
  count : Nat

namespace CSpec

/-- Nothing. -/
def empty : CSpec B := ⟨[], [], 0⟩

/-- A state is saved. -/
def save (X : CSpec B) : CSpec B := { X with saved := (X.count, X.items) :: X.saved, count := X.count + 1 }

/-- The saved states from the one with id `k` on. -/
def cut (k : Nat) : List (Nat × List (Item B)) → Option ((Nat × List (Item B)) × List (Nat × List (Item B)))
  | [] => none
  | x :: xs => if x.1 = k then some (x, x :: xs) else cut k xs

/-- A state is loaded; `none` if it is not valid. -/
def load (k : Nat) (X : CSpec B) : Option (CSpec B) := (cut k X.saved).map fun r => { X with items := r.1.2, saved := r.2 }

/-- The formulas. -/
def toF (X : CSpec B) : FSpec := ⟨X.items.map Item.f, X.saved.map fun e => (e.1, e.2.map Item.f), X.count⟩

end CSpec

/-- The specification, the solver, the factory and the encoders after a sequence of calls, as `FRuns`, with propositions.  What `enumerate_all`, `backbone` and
`optimize` leave in `result` and `last_computation_with_assumptions` is not specified. -/
inductive CRuns (E : Env F) (c : AuxTy → Nat) : CSpec B → CMini F B → Prop
  | new : CRuns E c .empty (.new E (World.fresh c))
  | world {X x w es} : CRuns E c X x → WStep E.K E.cfg x.x.w x.x.es w es → CRuns E c X { x with x := { x.x with w := w, es := es } }
  | add {X x x' f} : CRuns E c X x → Input E.cfg x.x.w.cnt f → x.add E f = .ok x' → CRuns E c { X with items := X.items ++ [.formula f] } x'
  | addProp {X x x' p} : CRuns E c X x → Input E.cfg x.x.w.cnt p.formula → x.addProp E p = .ok x' → CRuns E c { X with items := X.items ++ [.prop p] } x'
  | sat {X x x' fuel b} : CRuns E c X x → x.sat E fuel = .ok (x', b) → CRuns E c X x'
  | satWith {X x x' fuel sel as b} : CRuns E c X x → x.satWith E fuel sel as = .ok (x', b) → CRuns E c X x'
  | save {X x x' k} : CRuns E c X x → E.C.incremental = true → x.save E = .ok (x', k) → CRuns E c X.save x'
  | load {X X' x x' k} : CRuns E c X x → E.C.incremental = true → x.x.m.y.Separate k → X.load k = some X' → x.load E k = .ok x' → CRuns E c X' x'
  | enumerate {X x m fuel cfg ms} (r : Option Bool) (a : Bool) : CRuns E c X x → E.C.incremental = true → (∀ v ∈ relVars E.C cfg x.x.m.names, isRelevant E.C v = true) →
      x.x.m.enumerate E.C fuel cfg = .ok (m, ms) →
      CRuns E c X.save ⟨{ x.x with m := m, cache := fun _ => none }, x.track none { x.x with m := m, cache := fun _ => none }, r, a⟩
  | backbone {X x m fuel vars t b} (r : Option Bool) (a : Bool) : CRuns E c X x → x.x.m.backbone E.C fuel vars t = .ok (m, b) →
      CRuns E c (if E.C.incremental then X.save else X)
        ⟨{ x.x with m := m, cache := if E.C.incremental then fun _ => none else x.x.cache }, x.track none { x.x with m := m }, r, a⟩
  | optimize {X x m fuel o sm v c'} (r : Option Bool) (a : Bool) : CRuns E c X x → E.C.incremental = true → OptOK { NSpec.empty with names := x.x.m.names } o sm x.x.w.cnt →
      x.x.m.optimize E.C E.cfg.cc fuel o sm x.x.w.cnt = .ok (m, v) → (∀ t, x.x.w.cnt t ≤ c' t) →
      CRuns E c X.save ⟨{ x.x with m := m, cache := fun _ => none, w := { x.x.w with cnt := c' } }, x.track none { x.x with m := m }, r, a⟩

/-! ### Invariant -/

/-- The clause was added for an item with the proposition `p`, and follows from its formula if the auxiliary variables are chosen as intended. -/
def Tag (G : List Verif.Ent) (items : List (Item B)) (d : Clause) (p : Option (Prp B)) : Prop :=
  ∃ i ∈ items, i.p = p ∧ ∀ σ, EncOk G σ → i.f.eval σ = true → Clause.Sat σ d

theorem Tag.mono {G G' : List Verif.Ent} {is is' : List (Item B)} {d : Clause} {p : Option (Prp B)} (h : Tag G is d p) (hG : ∀ e ∈ G, e ∈ G') (hi : ∀ i ∈ is, i ∈ is') : Tag G' is' d p := by
  obtain ⟨i, h1, h2, h3⟩ := h
  exact ⟨i, hi i h1, h2, fun σ ho => h3 σ fun e he => ho e (hG e he)⟩

/-- Invariant of `CRuns`. -/
structure CInv (E : Env F) (c : AuxTy → Nat) (X : CSpec B) (x : CMini F B) (Y : NSpec) (G : List Verif.Ent) : Prop where
  f : FInv E c X.toF x.x Y G
  tag : List.Forall₂ (Tag G X.items) Y.cls x.props
  saved : List.Forall₂ (fun s t => s.1 = t.1 ∧ ∃ ps, ps <+: x.props ∧ List.Forall₂ (Tag G t.2) s.2.2 ps) Y.saved X.saved

variable {E : Env F} {c : AuxTy → Nat} {X : CSpec B} {x : CMini F B} {Y Y' : NSpec} {G G' : List Verif.Ent}

theorem CInv.log (hm : E.C.clauseMin ≠ .none) (hp : E.C.proofGen = true) (h : CInv E c X x Y G) : MLog Y x.x.m := h.f.runs.log hm hp

theorem forall₂_tag {Z : CSpec B} {P : List (Option (Prp B))} {S : List (Nat × Nat × List Clause)} (h : List.Forall₂ (fun s t => s.1 = t.1 ∧ ∃ ps, ps <+: P ∧ List.Forall₂ (Tag G t.2) s.2.2 ps) S Z.saved)
    (hG : ∀ e ∈ G, e ∈ G') {P' : List (Option (Prp B))} (hP : P <+: P') :
    List.Forall₂ (fun s t => s.1 = t.1 ∧ ∃ ps, ps <+: P' ∧ List.Forall₂ (Tag G' t.2) s.2.2 ps) S Z.saved :=
  h.imp fun _ _ ⟨e, ps, h1, h2⟩ => ⟨e, ps, h1.trans hP, h2.imp fun _ _ ht => ht.mono hG fun _ h => h⟩

theorem origLen (hm : E.C.clauseMin ≠ .none) (hp : E.C.proofGen = true) {m : Mini F} (h : NRuns E.C Y m) : m.y.s.pgOrig.length = Y.cls.length := by
  rw [(h.log hm hp).orig]; simp [pgNamed]

/-- The recorded clauses are the same. -/
theorem CInv.track_same (hm : E.C.clauseMin ≠ .none) (hp : E.C.proofGen = true) (h : CInv E c X x Y G) {y : FMini F} (hr : NRuns E.C Y' y.m) (hY : Y'.cls = Y.cls)
    (p : Option (Prp B)) : x.track p y = x.props := by
  unfold CMini.track
  rw [origLen hm hp hr, hY, h.tag.length_eq]
  simp

/-- Nothing was added. -/
theorem CInv.same (hm : E.C.clauseMin ≠ .none) (hp : E.C.proofGen = true) (h : CInv E c X x Y G) {y : FMini F} (hf : FInv E c X.toF y Y' G') (hG : ∀ e ∈ G, e ∈ G')
    (hY : Y'.cls = Y.cls) (hs : Y'.saved = Y.saved) {p : Option (Prp B)} {r : Option Bool} {a : Bool} : CInv E c X ⟨y, x.track p y, r, a⟩ Y' G' := by
  refine ⟨hf, ?_, ?_⟩
  · show List.Forall₂ _ Y'.cls (x.track p y)
    rw [hY, h.track_same hm hp hf.runs hY]
    exact h.tag.imp fun _ _ ht => ht.mono hG fun _ h => h
  · show List.Forall₂ (fun s t => s.1 = t.1 ∧ ∃ ps, ps <+: x.track p y ∧ _) Y'.saved X.saved
    rw [hs, h.track_same hm hp hf.runs hY]
    exact forall₂_tag h.saved hG (List.prefix_refl _)

/-- A state was saved. -/
theorem CInv.saved' (hm : E.C.clauseMin ≠ .none) (hp : E.C.proofGen = true) (h : CInv E c X x Y G) {y : FMini F} (hf : FInv E c X.save.toF y Y.after G') (hG : ∀ e ∈ G, e ∈ G')
    {p : Option (Prp B)} {r : Option Bool} {a : Bool} : CInv E c X.save ⟨y, x.track p y, r, a⟩ Y.after G' := by
  have ht : List.Forall₂ (Tag G' X.items) Y.cls x.props := h.tag.imp fun _ _ ht => ht.mono hG fun _ h => h
  have e : x.track p y = x.props := h.track_same hm hp hf.runs rfl p
  refine ⟨hf, ?_, ?_⟩
  · show List.Forall₂ _ Y.cls (x.track p y)
    rw [e]
    exact ht
  · show List.Forall₂ (fun s t => s.1 = t.1 ∧ ∃ ps, ps <+: x.track p y ∧ _) Y.after.saved X.save.saved
    rw [e]
    exact .cons ⟨h.f.count, x.props, List.prefix_refl _, ht⟩ (forall₂_tag h.saved hG (List.prefix_refl _))

theorem forall₂_append {α β : Type} {R : α → β → Prop} {l₁ l₂ : List α} {u₁ u₂ : List β} (h : List.Forall₂ R l₁ u₁) (h' : List.Forall₂ R l₂ u₂) : List.Forall₂ R (l₁ ++ l₂) (u₁ ++ u₂) := by
  induction h with
  | nil => exact h'
  | cons a _ ih => exact .cons a ih

theorem forall₂_replicate {α β : Type} {R : α → β → Prop} {l : List α} {b : β} (h : ∀ a ∈ l, R a b) : List.Forall₂ R l (List.replicate l.length b) := by
  induction l with
  | nil => exact .nil
  | cons a l ih => exact .cons (h a List.mem_cons_self) (ih fun a ha => h a (List.mem_cons_of_mem _ ha))

/-- Clauses for an item were added. -/
theorem CInv.added (hm : E.C.clauseMin ≠ .none) (hp : E.C.proofGen = true) (h : CInv E c X x Y G) {i : Item B} {y : FMini F} (hf : FInv E c { X.toF with fs := X.toF.fs ++ [i.f] } y Y' G')
    (ha : Added G Y i.f G' Y') {r : Option Bool} {a : Bool} : CInv E c { X with items := X.items ++ [i] } ⟨y, x.track i.p y, r, a⟩ Y' G' := by
  obtain ⟨L, hL, hs, _⟩ := ha.cls
  have e : x.track i.p y = x.props ++ List.replicate L.length i.p := by
    unfold CMini.track
    rw [origLen hm hp hf.runs, hL, List.length_append, h.tag.length_eq, List.take_of_length_le (by omega), Nat.add_sub_cancel_left]
  refine ⟨?_, ?_, ?_⟩
  · have : CSpec.toF { X with items := X.items ++ [i] } = { X.toF with fs := X.toF.fs ++ [i.f] } := by
      unfold CSpec.toF
      simp
    rw [this]
    exact hf
  · show List.Forall₂ (Tag G' (X.items ++ [i])) Y'.cls (x.track i.p y)
    rw [e, hL]
    exact forall₂_append (h.tag.imp fun _ _ ht => ht.mono ha.sub fun _ h => List.mem_append_left _ h)
      (forall₂_replicate fun d hd => ⟨i, by simp, rfl, fun σ ho hi => hs σ ho hi d hd⟩)
  · show List.Forall₂ (fun s t => s.1 = t.1 ∧ ∃ ps, ps <+: x.track i.p y ∧ _) Y'.saved X.saved
    rw [e, ha.saved]
    exact forall₂_tag h.saved ha.sub (List.prefix_append _ _)

theorem cut_tag {k : Nat} {R : Nat × Nat × List Clause → Nat × List (Item B) → Prop} (hR : ∀ s t, R s t → s.1 = t.1) {ys : List (Nat × Nat × List Clause)} {xs : List (Nat × List (Item B))}
    (h : List.Forall₂ R ys xs) : ∀ {r r'}, CSpec.cut k xs = some r → NSpec.cut k ys = some r' → R r'.1 r.1 ∧ List.Forall₂ R r'.2 r.2 := by
  induction h with
  | nil => intro r r' e; cases e
  | @cons a b ys xs hab hr ih =>
    intro r r' e e'
    unfold CSpec.cut at e
    unfold NSpec.cut at e'
    rw [hR _ _ hab] at e'
    by_cases hk : b.1 = k
    · rw [if_pos hk] at e e'
      injection e with e
      injection e' with e'
      subst e; subst e'
      exact ⟨hab, .cons hab hr⟩
    · rw [if_neg hk] at e e'
      exact ih e e'

theorem cut_toF {k : Nat} {xs : List (Nat × List (Item B))} : ∀ {r}, CSpec.cut k xs = some r →
    FSpec.cut k (xs.map fun e => (e.1, e.2.map Item.f)) = some ((r.1.1, r.1.2.map Item.f), r.2.map fun e => (e.1, e.2.map Item.f)) := by
  induction xs with
  | nil => intro r e; cases e
  | cons a xs ih =>
    intro r e
    unfold CSpec.cut at e
    rw [List.map_cons]
    unfold FSpec.cut
    by_cases hk : a.1 = k
    · rw [if_pos hk] at e
      injection e with e
      subst e
      rw [if_pos hk]
      rfl
    · rw [if_neg hk] at e
      rw [if_neg hk]
      exact ih e

theorem FInv.load' {X : FSpec} {x : FMini F} (h : FInv E c X x Y G) (hm : E.C.clauseMin ≠ .none) (hi : E.C.incremental = true) {k : Nat} (hk : x.m.y.Separate k) {X' : FSpec} (hX : X.load k = some X') :
    ∃ x', x.load E k = .ok x' ∧ ∃ Y' r, NSpec.cut k Y.saved = some r ∧ Y'.cls = r.1.2.2 ∧ Y'.saved = r.2 ∧ FInv E c X' x' Y' G := by
  obtain ⟨r, hr, rfl⟩ := Option.map_eq_some_iff.1 hX
  obtain ⟨r', hr', hc, hs⟩ := cut_cov h.saved hr
  obtain ⟨m, em, _⟩ := (h.runs.holds hm).load hm hi hk hr'
  refine ⟨{ x with m := m, cache := fun _ => none }, by unfold FMini.load; rw [em], { Y with names := Y.names.take r'.1.2.1, cls := r'.1.2.2, saved := r'.2 }, r', hr', rfl, rfl, ?_,
    pgGood_none h.pg.w, h.es, hc, hs, h.count⟩
  exact h.runs.step (op := .load k) (r := none) (fun _ => hi) (by intro k' e; cases e; exact hk) (by show Option.map _ _ = _; rw [hr']; rfl) (by unfold Mini.step; simp only; rw [em])

/-- A state was loaded. -/
theorem CInv.load (hm : E.C.clauseMin ≠ .none) (hp : E.C.proofGen = true) (h : CInv E c X x Y G) (hi : E.C.incremental = true) {k : Nat} (hk : x.x.m.y.Separate k) {X' : CSpec B}
    (hX : X.load k = some X') : ∃ x', x.load E k = .ok x' ∧ ∃ Y', CInv E c X' x' Y' G := by
  obtain ⟨r, hr, rfl⟩ := Option.map_eq_some_iff.1 hX
  obtain ⟨y, ey, Y', r', hr', e1, e2, hf⟩ := h.f.load' hm hi hk (X' := { X.toF with fs := r.1.2.map Item.f, saved := r.2.map fun e => (e.1, e.2.map Item.f) })
    (Option.map_eq_some_iff.2 ⟨_, cut_toF hr, rfl⟩)
  obtain ⟨⟨_, ps, hps, ht⟩, hs⟩ := cut_tag (fun _ _ h => h.1) h.saved hr hr'
  have e : x.track none y = ps := by
    unfold CMini.track
    rw [origLen hm hp hf.runs, e1, ht.length_eq, List.prefix_iff_eq_take.1 hps, List.length_take]
    have := hps.length_le
    rw [show min ps.length x.props.length = ps.length by omega, show ps.length - x.props.length = 0 by omega]
    simp
  refine ⟨⟨y, x.track none y, none, x.assumed⟩, by unfold CMini.load; rw [ey], Y', hf, ?_, ?_⟩
  · show List.Forall₂ _ Y'.cls (x.track none y)
    rw [e, e1]
    exact ht
  · show List.Forall₂ (fun s t => s.1 = t.1 ∧ ∃ ps, ps <+: x.track none y ∧ _) Y'.saved r.2
    rw [e, e2]
    have hpre := (hf.runs.log hm hp).pre
    rw [e2, e1] at hpre
    clear e2
    generalize r'.2 = S at hs hpre
    generalize r.2 = T at hs
    clear hX
    induction hs with
    | nil => exact .nil
    | cons hab _ ih =>
      obtain ⟨e3, qs, hq, hqt⟩ := hab
      refine .cons ⟨e3, qs, ?_, hqt⟩ (ih fun e he => hpre e (List.mem_cons_of_mem _ he))
      refine List.prefix_of_prefix_length_le hq hps ?_
      rw [← hqt.length_eq, ← ht.length_eq]
      exact (hpre _ List.mem_cons_self).length_le

/-- The invariant holds after every sequence of calls. -/
theorem CRuns.inv (hm : E.C.clauseMin ≠ .none) (hcfg : E.cfg.cc.Good) (hp : E.C.proofGen = true) (h : CRuns E c X x) : ∃ Y G, CInv E c X x Y G := by
  induction h with
  | new =>
    exact ⟨.empty, [], ⟨.new, pgGood_none (WInv.fresh c), by simp [CMini.new], ⟨by simp [CSpec.toF, CSpec.empty], fun σ _ _ d hd => (by cases hd)⟩, .nil, rfl⟩, .nil, .nil⟩
  | world _ hw ih =>
    obtain ⟨Y, G, i⟩ := ih
    obtain ⟨G', h1, h2, h3⟩ := hw.ok hcfg i.f.pg.w i.f.es
    have hf := i.f.world h1 h2 h3
    exact ⟨Y, G', hf, i.tag.imp fun _ _ ht => ht.mono h2.sub fun _ h => h, forall₂_tag i.saved h2.sub (List.prefix_refl _)⟩
  | @add X x x' f _ hin e ih =>
    obtain ⟨Y, G, i⟩ := ih
    obtain ⟨y, e', Y', G', hf, ha⟩ := i.f.add hm hcfg hin
    unfold CMini.add at e
    rw [e'] at e
    cases e
    exact ⟨Y', G', i.added hm hp (i := .formula f) hf ha⟩
  | @addProp X x x' p _ hin e ih =>
    obtain ⟨Y, G, i⟩ := ih
    obtain ⟨y, e', Y', G', hf, ha⟩ := i.f.addProp hm hcfg hin
    unfold CMini.addProp at e
    rw [e'] at e
    cases e
    exact ⟨Y', G', i.added hm hp (i := .prop p) hf ha⟩
  | @sat X x x' fuel b _ e ih =>
    obtain ⟨Y, G, i⟩ := ih
    unfold CMini.sat at e
    split at e
    · rename_i m b' em
      cases e
      have hr : NRuns E.C { Y with names := NSpec.learn Y.names [] } m :=
        i.f.runs.step (op := .solve fuel [] []) (r := some b) (by rintro (h | ⟨_, h⟩) <;> cases h) (fun _ h => by cases h) rfl (by unfold Mini.step; simp only; rw [em])
      exact ⟨{ Y with names := NSpec.learn Y.names [] }, G, i.same hm hp (y := { x.x with m := m }) ⟨hr, i.f.pg, i.f.es, i.f.cov, i.f.saved, i.f.count⟩ (fun _ h => h) rfl rfl⟩
    · cases e
    · cases e
  | @satWith X x x' fuel sel as b _ e ih =>
    obtain ⟨Y, G, i⟩ := ih
    unfold CMini.satWith at e
    split at e
    · rename_i m b' em
      cases e
      have hr : NRuns E.C { Y with names := NSpec.learn Y.names ((as.getD []).map Lit.v) } m :=
        i.f.runs.step (op := .solve fuel sel (as.getD [])) (r := some b) (by rintro (h | ⟨_, h⟩) <;> cases h) (fun _ h => by cases h) rfl (by unfold Mini.step; simp only; rw [em])
      exact ⟨{ Y with names := NSpec.learn Y.names ((as.getD []).map Lit.v) }, G,
        i.same hm hp (y := { x.x with m := m }) ⟨hr, i.f.pg, i.f.es, i.f.cov, i.f.saved, i.f.count⟩ (fun _ h => h) rfl rfl⟩
    · cases e
    · cases e
  | @save X x x' k _ hi e ih =>
    obtain ⟨Y, G, i⟩ := ih
    unfold CMini.save at e
    split at e
    · rename_i m k' em
      cases e
      have hf : FInv E c X.save.toF { x.x with m := m } Y.after G :=
        i.f.saveSpec (i.f.runs.step (op := .save) (r := none) (fun _ => hi) (fun _ h => by cases h) rfl (by unfold Mini.step; simp only; rw [em]))
      have := i.saved' hm hp hf (fun _ h => h) (p := none) (r := x.result) (a := x.assumed)
      rw [i.track_same hm hp hf.runs rfl] at this
      exact ⟨Y.after, G, this⟩
    · cases e
    · cases e
  | load _ hi hk hX e ih =>
    obtain ⟨Y, G, i⟩ := ih
    obtain ⟨x', e', Y', i'⟩ := i.load hm hp hi hk hX
    rw [e] at e'; injection e' with e'; subst e'
    exact ⟨Y', G, i'⟩
  | enumerate r a _ hi hrel e ih =>
    obtain ⟨Y, G, i⟩ := ih
    exact ⟨Y.after, G, i.saved' hm hp (i.f.saveSpec (i.f.runs.enumerate hi (by rw [← (i.f.runs.holds hm).names]; exact hrel) e)).forget fun _ h => h⟩
  | @backbone X x m fuel vars t b r a _ e ih =>
    obtain ⟨Y, G, i⟩ := ih
    have hr := i.f.runs.backbone e
    unfold NSpec.afterIf at hr
    by_cases hi : E.C.incremental = true
    · simp only [hi, if_true] at hr ⊢
      exact ⟨Y.after, G, i.saved' hm hp (y := { x.x with m := m, cache := fun _ => none }) (i.f.saveSpec hr).forget fun _ h => h⟩
    · simp only [hi] at hr ⊢
      exact ⟨Y, G, i.same hm hp (y := { x.x with m := m }) ⟨hr, i.f.pg, i.f.es, i.f.cov, i.f.saved, i.f.count⟩ (fun _ h => h) rfl rfl⟩
  | @optimize X x m fuel o sm v c' r a _ hi ho e hle ih =>
    obtain ⟨Y, G, i⟩ := ih
    have hr := i.f.runs.optimize hi (optOK_names (i.f.runs.holds hm).names ho) e
    have hx : GExt x.x.w.cnt G c' G := ⟨hle, fun _ h => h⟩
    have hf := (i.f.saveSpec hr).forget.world (w := { x.x.w with cnt := c' }) (i.f.pg.w.grow (i.f.pg.w.base.mono hle) hx) hx fun p hp => (i.f.es p hp).mono hx
    exact ⟨Y.after, G, i.saved' hm hp hf fun _ h => h⟩

end
end Verif.Sat
