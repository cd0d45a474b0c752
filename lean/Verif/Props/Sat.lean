import Verif.Sat.Demo
/-
Properties C28-C32 and C48 (the part on assumptions): the CDCL solver, for all sequences of calls.

Literals are numbers `2 * v` (variable `v` true) and `2 * v + 1`.  The specification is `Spec` (what clauses a user expects the solver to hold),
`Models` (a valuation makes every clause true) and `litT` (a literal is true).  `Runs C x y` relates the specification and the solver after
any sequence of legal calls.

The full statements of C28-C32 are about all configurations and all calls of `load_state`.  They are false of the code: `C29_none_counterexample`
(clause minimization switched off) and `C32_twins_counterexample` (loading a state while a clause to be removed has the same literals as one to be kept).
The theorems named `_partial` exclude these two cases: `C.clauseMin ≠ .none` is a hypothesis, and `Runs` only loads states when `Sess.Separate` holds.
They are also about calls that end; Props/Term.lean shows when `solve` ends (and that it does not for `restart_first = 0`).
-/
namespace Verif.Sat
open St

section
variable {F : Type} [LinearOrder F] [Flt F] {C : Cfg F} {x : Spec} {y : Sess F}

/-- C28: if the solver answers SAT, the model it reports gives a value to every variable, satisfies every clause added and every assumption. -/
theorem C28_model_partial (hm : C.clauseMin ≠ .none) (h : Runs C x y) {f : Nat} {sel as : List Nat} (hl : x.Legal (.solve f sel as)) {y' : Sess F}
    (e : y.step C (.solve f sel as) = .ok (y', some true)) :
    y'.s.model.length = x.n ∧ Models (fun v => y'.s.model.getD v false) x.cls ∧ ∀ a ∈ as, litT (fun v => y'.s.model.getD v false) a := by
  have := (h.holds hm).step hm hl (by rintro (h | ⟨k, h⟩) <;> cases h) (by rintro k h; cases h)
  rw [e] at this
  obtain ⟨x', hx, hh, hs⟩ := this
  obtain ⟨b, hb, hs⟩ := hs f sel as rfl
  cases hb
  cases hx
  obtain ⟨h1, _, h2, h3⟩ := hs.sat rfl
  exact ⟨h1.trans hh.nvars, h2, h3⟩

/-- C29: if the solver answers UNSAT, no valuation satisfies all clauses added and all assumptions. -/
theorem C29_unsat_partial (hm : C.clauseMin ≠ .none) (h : Runs C x y) {f : Nat} {sel as : List Nat} (hl : x.Legal (.solve f sel as)) {y' : Sess F}
    (e : y.step C (.solve f sel as) = .ok (y', some false)) : ∀ ρ, Models ρ x.cls → ¬ ∀ a ∈ as, litT ρ a := by
  have := (h.holds hm).step hm hl (by rintro (h | ⟨k, h⟩) <;> cases h) (by rintro k h; cases h)
  rw [e] at this
  obtain ⟨x', _, _, hs⟩ := this
  obtain ⟨b, hb, hs⟩ := hs f sel as rfl
  cases hb
  obtain ⟨h1, h2, _⟩ := hs.unsat rfl
  intro ρ hρ hall
  obtain ⟨l, hl, hlt⟩ := h1 ρ hρ
  exact litT_neg.1 (hall _ (h2 l hl)) hlt

/-- C29: no legal call panics, and only solving can run forever. -/
theorem C29_no_panic_partial (hm : C.clauseMin ≠ .none) (h : Runs C x y) {op : Op} (hl : x.Legal op) (hinc : (op = .save ∨ ∃ k, op = .load k) → C.incremental = true)
    (htw : ∀ k, op = .load k → y.Separate k) : (∃ y' r, y.step C op = .ok (y', r)) ∨ (y.step C op = .diverge ∧ ∃ f sel as, op = .solve f sel as) := by
  have := (h.holds hm).step hm hl hinc htw
  match hr : y.step C op, this with
  | .ok (y', r), _ => exact .inl ⟨y', r, rfl⟩
  | .diverge, h => exact .inr ⟨rfl, h⟩

/-- C48: after an UNSAT answer, the reported conflict consists of negated assumptions and is implied by the clauses. -/
theorem C48_conflict_partial (hm : C.clauseMin ≠ .none) (h : Runs C x y) {f : Nat} {sel as : List Nat} (hl : x.Legal (.solve f sel as)) {y' : Sess F}
    (e : y.step C (.solve f sel as) = .ok (y', some false)) :
    (∀ l ∈ y'.s.conflict, neg l ∈ as) ∧ ∀ ρ, Models ρ x.cls → ∃ l ∈ y'.s.conflict, litT ρ l := by
  have := (h.holds hm).step hm hl (by rintro (h | ⟨k, h⟩) <;> cases h) (by rintro k h; cases h)
  rw [e] at this
  obtain ⟨x', _, _, hs⟩ := this
  obtain ⟨b, hb, hs⟩ := hs f sel as rfl
  cases hb
  obtain ⟨h1, h2, _⟩ := hs.unsat rfl
  exact ⟨h2, h1⟩

/-! ### In the middle of solving -/

/-- The state `s` occurs at the head of the loop of `search` while the call `solve f sel as` runs. -/
def Solving (C : Cfg F) (y : Sess F) (sel as : List Nat) (s : St F) : Prop := y.s.ok = true ∧ During C { y.s with sel := sel, assumptions := as } s

theorem Solving.inv (hm : C.clauseMin ≠ .none) (h : Runs C x y) {f : Nat} {sel as : List Nat} (hl : x.Legal (.solve f sel as)) {s : St F} (hs : Solving C y sel as s) :
    SInv x.cls C.incremental s.qhead s ∧ s.ok = true := by
  have hh := h.holds hm
  have hr : Ready x.cls C.incremental { y.s with sel := sel, assumptions := as } :=
    (hh.ready.setSel (sel := sel) (by rw [hh.nvars]; exact hl.1)).assume (as := as) (by show ∀ p ∈ as, p < 2 * y.s.nvars; rw [hh.nvars]; exact hl.2)
  obtain ⟨a, b, _⟩ := hs.2.inv hm hr hs.1
  exact ⟨a, b⟩

/-- C30: at every moment of the search every learnt clause is implied by the clauses added. -/
theorem C30_learnt_partial (hm : C.clauseMin ≠ .none) (h : Runs C x y) {f : Nat} {sel as : List Nat} (hl : x.Legal (.solve f sel as)) {s : St F} (hs : Solving C y sel as s) :
    ∀ id ∈ s.learnts, ∀ ρ, Models ρ x.cls → ∃ l ∈ s.data id, litT ρ l :=
  fun id hid ρ hρ => ((hs.inv hm h hl).1.inv.good id (.inr (.inl hid))).1.ent ρ hρ

/-- C30: whatever has been deleted or shortened so far, the problem clauses left and the literals set on level 0 have the same models as the clauses added. -/
theorem C30_models_partial (hm : C.clauseMin ≠ .none) (h : Runs C x y) {f : Nat} {sel as : List Nat} (hl : x.Legal (.solve f sel as)) {s : St F} (hs : Solving C y sel as s) (ρ : Nat → Bool) :
    Models ρ x.cls ↔ (∀ id ∈ s.clauses, ∃ l ∈ s.data id, litT ρ l) ∧ ∀ l ∈ s.trail, s.level (vr l) = some 0 → litT ρ l := by
  obtain ⟨hi, ho⟩ := hs.inv hm h hl
  constructor
  · intro hρ
    refine ⟨fun id hid => (hi.inv.good id (.inl hid)).1.ent ρ hρ, fun l hl h0 => (hi.inv.zero l hl ?_).lit hρ⟩
    unfold Core.lv
    rw [h0]; rfl
  · rintro ⟨h1, h2⟩
    refine hi.eqv ho ρ h1 fun l hl h0 => h2 l hl ?_
    obtain ⟨k, hk, _⟩ := hi.inv.twf.le l hl
    unfold Core.lv at h0
    rw [hk] at h0 ⊢
    simpa using h0

/-- C30: the same between the calls. -/
theorem C30_quiet_partial (hm : C.clauseMin ≠ .none) (h : Runs C x y) :
    (∀ id ∈ y.s.learnts, ∀ ρ, Models ρ x.cls → ∃ l ∈ y.s.data id, litT ρ l) ∧
    ∀ ρ, Models ρ x.cls ↔ y.s.ok = true ∧ (∀ id ∈ y.s.clauses, ∃ l ∈ y.s.data id, litT ρ l) ∧ ∀ l ∈ y.s.trail, litT ρ l := by
  have hh := h.holds hm
  obtain ⟨q, hi⟩ := hh.ready.inv
  refine ⟨fun id hid ρ hρ => (hi.inv.good id (.inr (.inl hid))).1.ent ρ hρ, fun ρ => ⟨fun hρ => ⟨?_, ?_, ?_⟩, ?_⟩⟩
  · cases ho : y.s.ok with
    | true => rfl
    | false => exact absurd hρ (hh.ready.bad ho ρ)
  · exact fun id hid => (hi.inv.good id (.inl hid)).1.ent ρ hρ
  · exact fun l hl => (hi.inv.zero l hl (hh.ready.lv hl)).lit hρ
  · rintro ⟨ho, h1, h2⟩
    exact hi.eqv ho ρ h1 fun l hl _ => h2 l hl

/-- C31: after propagation without conflict no clause in use is false or unit: it has a true literal or two literals without value.  (The clauses
in use are the problem clauses and, in incremental mode, the learnt clauses.) -/
theorem C31_complete_partial (hm : C.clauseMin ≠ .none) (h : Runs C x y) {f : Nat} {sel as : List Nat} (hl : x.Legal (.solve f sel as)) {s s' : St F} (hs : Solving C y sel as s)
    (e : s.prop = some (s', none)) : ∀ id, id ∈ s'.clauses ∨ (C.incremental = true ∧ id ∈ s'.learnts) →
      (∃ l ∈ s'.data id, s'.value l = some true) ∨ ∃ l ∈ s'.data id, ∃ k ∈ s'.data id, l ≠ k ∧ s'.value l = none ∧ s'.value k = none := by
  obtain ⟨hi, _⟩ := hs.inv hm h hl
  obtain ⟨z, e', hp⟩ := prop_ok hi.inv hi.heap
  rw [e] at e'
  cases e'
  obtain ⟨hq, hi'⟩ := hp.inv rfl
  intro id hid
  refine hi'.noUnit hq ?_
  unfold Core.db
  rcases hid with h' | ⟨h1, h2⟩
  · exact List.mem_append_left _ h'
  · rw [if_pos h1]; exact List.mem_append_right _ h2

/-- C31: at every moment every literal on the trail is implied by the clauses added and the decisions up to its level. -/
theorem C31_sound_partial (hm : C.clauseMin ≠ .none) (h : Runs C x y) {f : Nat} {sel as : List Nat} (hl : x.Legal (.solve f sel as)) {s s' : St F} (hs : Solving C y sel as s)
    {o : Option Nat} (e : s.prop = some (s', o)) : ∀ l ∈ s'.trail, ∀ ρ, Models ρ x.cls →
      (∀ d ∈ s'.trail, s'.reason (vr d) = none → 0 < s'.lv d → s'.lv d ≤ s'.lv l → litT ρ d) → litT ρ l := by
  obtain ⟨hi, _⟩ := hs.inv hm h hl
  obtain ⟨z, e', hp⟩ := prop_ok hi.inv hi.heap
  rw [e] at e'
  cases e'
  intro l hlt ρ hρ
  have : ∃ q, Inv x.cls C.incremental s.units q s'.toCore := by
    cases o with
    | none => exact ⟨_, (hp.inv rfl).2⟩
    | some id => exact (hp.confl id rfl).2
  obtain ⟨q, hi'⟩ := this
  exact hi'.implied hρ _ [] rfl l hlt

/-- C31: a reported conflict is a clause all of whose literals are false, and that is implied by the clauses added. -/
theorem C31_conflict_partial (hm : C.clauseMin ≠ .none) (h : Runs C x y) {f : Nat} {sel as : List Nat} (hl : x.Legal (.solve f sel as)) {s s' : St F} (hs : Solving C y sel as s)
    {id : Nat} (e : s.prop = some (s', some id)) : (∀ l ∈ s'.data id, s'.value l = some false) ∧ ∀ ρ, Models ρ x.cls → ∃ l ∈ s'.data id, litT ρ l := by
  obtain ⟨hi, _⟩ := hs.inv hm h hl
  obtain ⟨z, e', hp⟩ := prop_ok hi.inv hi.heap
  rw [e] at e'
  cases e'
  obtain ⟨hc, q, hi'⟩ := hp.confl id rfl
  exact ⟨fun l hl => (hi'.val_false l).2 (hc.fls l hl), (hi'.good id (.inr (.inr (.inl hc.live)))).1.ent⟩

/-- C31: propagation never gets stuck. -/
theorem C31_total_partial (hm : C.clauseMin ≠ .none) (h : Runs C x y) {f : Nat} {sel as : List Nat} (hl : x.Legal (.solve f sel as)) {s : St F} (hs : Solving C y sel as s) :
    ∃ z, s.prop = some z := by
  obtain ⟨hi, _⟩ := hs.inv hm h hl
  obtain ⟨z, e', _⟩ := prop_ok hi.inv hi.heap
  exact ⟨z, e'⟩

/-! ### Saving and loading -/

/-- Further legal calls. -/
inductive Path (C : Cfg F) : Spec × Sess F → Spec × Sess F → Prop
  | refl (z : Spec × Sess F) : Path C z z
  | step {z : Spec × Sess F} {x x' : Spec} {y y' : Sess F} {op : Op} {r : Option Bool} : Path C z (x, y) → x.Legal op →
      ((op = .save ∨ ∃ k, op = .load k) → C.incremental = true) → (∀ k, op = .load k → y.Separate k) →
      x.step op = some x' → y.step C op = .ok (y', r) → Path C z (x', y')

theorem Path.runs {z z' : Spec × Sess F} (h : Path C z z') : Runs C z.1 z.2 → Runs C z'.1 z'.2 := by
  induction h with
  | refl => exact id
  | step _ a b c d e ih => exact fun hr => (ih hr).step a b c d e

theorem spec_cut_mem {k : Nat} {l r} (h : Spec.cut k l = some r) : r.1 ∈ l ∧ r.1.1 = k ∧ ∀ e ∈ r.2, e ∈ l := by
  obtain ⟨p, h1, ⟨t, h2⟩, h3, _⟩ := cut_spec h
  rw [h1]
  exact ⟨by rw [h2]; simp, h3, fun e he => List.mem_append_right _ he⟩

/-- A saved state that is still valid is the one saved under its id. -/
theorem Path.saved {z z' : Spec × Sess F} (h : Path C z z') {e : Nat × Nat × List (List Nat)} (he : e ∈ z.1.saved) (hids : ∀ e' ∈ z.1.saved, e'.1 = e.1 → e' = e) (hc : e.1 < z.1.count) :
    (∀ e' ∈ z'.1.saved, e'.1 = e.1 → e' = e) ∧ e.1 < z'.1.count := by
  induction h with
  | refl => exact ⟨hids, hc⟩
  | @step x x' y y' op r _ _ _ _ hx _ ih =>
    obtain ⟨i1, i2⟩ := ih
    cases op with
    | newVar p => cases hx; exact ⟨i1, i2⟩
    | add c => cases hx; exact ⟨i1, i2⟩
    | solve f s a => cases hx; exact ⟨i1, i2⟩
    | save =>
      cases hx
      refine ⟨fun e' he' hk => ?_, Nat.lt_succ_of_lt i2⟩
      rcases List.mem_cons.1 he' with rfl | he'
      · simp only at hk i2; omega
      · exact i1 e' he' hk
    | load k =>
      obtain ⟨r, hr, rfl⟩ := Option.map_eq_some_iff.1 hx
      exact ⟨fun e' he' hk => i1 e' ((spec_cut_mem hr).2.2 e' he') hk, i2⟩

/-- C32: a state saved at one time and loaded at a later time, with any legal calls in between, brings back the variables and clauses of the time of saving. -/
theorem C32_restore_partial (hm : C.clauseMin ≠ .none) (h : Runs C x y) {x1 x2 : Spec} {y1 y2 : Sess F} (hx1 : x.step .save = some x1) (hy1 : y.step C .save = .ok (y1, none))
    (hinc : C.incremental = true) (hp : Path C (x1, y1) (x2, y2)) (hv : y.handles.length ∈ y2.valid) (htw : y2.Separate y.handles.length) :
    ∃ x3 y3, y2.step C (.load y.handles.length) = .ok (y3, none) ∧ Runs C x3 y3 ∧ x3.cls = x.cls ∧ x3.n = x.n := by
  have hh := h.holds hm
  have hr1 : Runs C x1 y1 := h.step (op := .save) trivial (fun _ => hinc) (by rintro k h; cases h) hx1 hy1
  have hr2 : Runs C x2 y2 := hp.runs hr1
  have hh2 := hr2.holds hm
  cases hx1
  obtain ⟨hs, _⟩ := hp.saved (e := (x.count, x.n, x.cls)) (by simp) (by
    intro e' he' hk
    rcases List.mem_cons.1 he' with rfl | he'
    · rfl
    · have := hh.ids e' he'
      simp only at hk
      omega) (Nat.lt_succ_self _)
  rw [hh2.valid, hh.count] at hv
  obtain ⟨e, he, hek⟩ := List.mem_map.1 hv
  have hcut : ∀ l : List (Nat × Nat × List (List Nat)), e ∈ l → (Spec.cut x.count l).isSome = true := by
    intro l
    induction l with
    | nil => intro h; cases h
    | cons a l ih =>
      intro hm
      unfold Spec.cut
      by_cases ha : a.1 = x.count
      · rw [if_pos ha]; rfl
      · rw [if_neg ha]
        rcases List.mem_cons.1 hm with rfl | hm
        · exact absurd hek ha
        · exact ih hm
  have hleg : x2.Legal (.load x.count) := hcut x2.saved he
  have hst := hh2.step hm hleg (fun _ => hinc) (by rintro _ ⟨⟩; rw [← hh.count]; exact htw)
  rw [hh.count]
  match hr : y2.step C (.load x.count), hst with
  | .ok (y3, r), ⟨x3, hx3, _, _⟩ =>
    have hrun : Runs C x3 y3 := hr2.step hleg (fun _ => hinc) (by rintro _ ⟨⟩; rw [← hh.count]; exact htw) hx3 hr
    obtain ⟨c, hc, rfl⟩ := Option.map_eq_some_iff.1 hx3
    obtain ⟨m1, m2, _⟩ := spec_cut_mem hc
    have heq := hs c.1 m1 m2
    have hrn : r = none := by
      unfold Sess.step at hr
      simp only at hr
      split at hr
      · split at hr
        · cases hr
        · cases hr; rfl
      · cases hr
    subst hrn
    exact ⟨_, y3, rfl, hrun, by simp only [heq], by simp only [heq]⟩
  | .diverge, ⟨f, sel, as, e⟩ => cases e

/-- Calls other than saving and loading. -/
def Op.Plain : Op → Prop
  | .save => False
  | .load _ => False
  | _ => True

/-- Runs calls; the answers of the solver are collected. -/
def Sess.answers (C : Cfg F) : List Op → Sess F → Res (List (Option Bool))
  | [], _ => .ok []
  | op :: ops, y =>
    match y.step C op with
    | .ok (y', r) =>
      match answers C ops y' with
      | .ok rs => .ok (r :: rs)
      | e => e
    | .panic => .panic
    | .diverge => .diverge

/-- All the calls are legal. -/
def Spec.LegalAll : List Op → Spec → Prop
  | [], _ => True
  | op :: ops, x => x.Legal op ∧ ∃ x', x.step op = some x' ∧ x'.LegalAll ops

theorem answers_same (hm : C.clauseMin ≠ .none) (ops : List Op) : ∀ {xa xb : Spec} {ya yb : Sess F}, Runs C xa ya → Runs C xb yb → xa.cls = xb.cls → xa.n = xb.n →
    (∀ op ∈ ops, op.Plain) → xa.LegalAll ops → ∀ {ra rb}, ya.answers C ops = .ok ra → yb.answers C ops = .ok rb → ra = rb := by
  induction ops with
  | nil => intro xa xb ya yb _ _ _ _ _ _ ra rb ea eb; cases ea; cases eb; rfl
  | cons op ops ih =>
    intro xa xb ya yb ha hb hc hn hpl hleg ra rb ea eb
    obtain ⟨hl, xa', hxa, hleg'⟩ := hleg
    have hop := hpl op (by simp)
    have hnl : ¬ (op = .save ∨ ∃ k, op = .load k) := by rintro (rfl | ⟨k, rfl⟩) <;> exact hop
    have hnl' : ¬ ∃ k, op = .load k := fun h => hnl (.inr h)
    have hlb : xb.Legal op := by
      cases op with
      | newVar p => trivial
      | add c => show ∀ l ∈ c, l < 2 * xb.n; rw [← hn]; exact hl
      | solve f s a => show (∀ l ∈ s, l < 2 * xb.n) ∧ ∀ l ∈ a, l < 2 * xb.n; rw [← hn]; exact hl
      | save => exact absurd (.inl rfl) hnl
      | load k => exact absurd ⟨k, rfl⟩ hnl'
    have sta := (ha.holds hm).step hm hl (fun h => absurd h hnl) (fun k h => absurd ⟨k, h⟩ hnl')
    have stb := (hb.holds hm).step hm hlb (fun h => absurd h hnl) (fun k h => absurd ⟨k, h⟩ hnl')
    unfold Sess.answers at ea eb
    match hra : ya.step C op, hrb : yb.step C op, ea, eb, sta, stb with
    | .ok (ya', ra1), .ok (yb', rb1), ea, eb, ⟨xa1, ea1, _, sa⟩, ⟨xb1, eb1, _, sb⟩ =>
      simp only at ea eb
      match hsa : Sess.answers C ops ya', hsb : Sess.answers C ops yb', ea, eb with
      | .ok ra2, .ok rb2, ea, eb =>
        cases ea
        cases eb
        rw [hxa] at ea1
        cases ea1
        have hcn : xa'.cls = xb1.cls ∧ xa'.n = xb1.n := by
          cases op with
          | newVar p => cases hxa; cases eb1; exact ⟨hc, by simp only [hn]⟩
          | add c => cases hxa; cases eb1; exact ⟨by simp only [hc], hn⟩
          | solve f s a => cases hxa; cases eb1; exact ⟨hc, hn⟩
          | save => exact absurd (.inl rfl) hnl
          | load k => exact absurd ⟨k, rfl⟩ hnl'
        have htail := ih (ha.step hl (fun h => absurd h hnl) (fun k h => absurd ⟨k, h⟩ hnl') hxa hra) (hb.step hlb (fun h => absurd h hnl) (fun k h => absurd ⟨k, h⟩ hnl') eb1 hrb)
          hcn.1 hcn.2 (fun op h => hpl op (by simp [h])) hleg' hsa hsb
        have hhead : ra1 = rb1 := by
          cases op with
          | solve f s a =>
            obtain ⟨b1, e1, _⟩ := sa f s a rfl
            obtain ⟨b2, e2, _⟩ := sb f s a rfl
            subst e1
            subst e2
            cases b1 with
            | true =>
              cases b2 with
              | true => rfl
              | false =>
                obtain ⟨_, m1, m2⟩ := C28_model_partial hm ha hl hra
                exact absurd m2 (C29_unsat_partial hm hb hlb hrb _ (hc ▸ m1))
            | false =>
              cases b2 with
              | false => rfl
              | true =>
                obtain ⟨_, m1, m2⟩ := C28_model_partial hm hb hlb hrb
                exact absurd m2 (C29_unsat_partial hm ha hl hra _ (hc ▸ m1))
          | newVar p =>
            unfold Sess.step at hra hrb
            simp only at hra hrb
            split at hra <;> split at hrb <;> first | cases hra | skip
            all_goals first | cases hrb | skip
            rfl
          | add c =>
            unfold Sess.step at hra hrb
            simp only at hra hrb
            split at hra <;> split at hrb <;> first | cases hra | skip
            all_goals first | cases hrb | skip
            rfl
          | save => exact absurd (.inl rfl) hnl
          | load k => exact absurd ⟨k, rfl⟩ hnl'
        rw [hhead, htail]

/-- C32: after loading a state, the solver answers all further legal calls as the solver did that was saved (if both end). -/
theorem C32_answers_partial (hm : C.clauseMin ≠ .none) (h : Runs C x y) {x1 x2 : Spec} {y1 y2 y3 : Sess F} (hx1 : x.step .save = some x1) (hy1 : y.step C .save = .ok (y1, none))
    (hinc : C.incremental = true) (hp : Path C (x1, y1) (x2, y2)) (hv : y.handles.length ∈ y2.valid) (htw : y2.Separate y.handles.length)
    (hl : y2.step C (.load y.handles.length) = .ok (y3, none)) {ops : List Op} (hpl : ∀ op ∈ ops, op.Plain) (hleg : x.LegalAll ops) {ra rb : List (Option Bool)}
    (ha : y.answers C ops = .ok ra) (hb : y3.answers C ops = .ok rb) : rb = ra := by
  obtain ⟨x3, y3', e, hr, hc, hn⟩ := C32_restore_partial hm h hx1 hy1 hinc hp hv htw
  rw [hl] at e
  cases e
  exact (answers_same hm ops h hr hc.symm hn.symm hpl hleg ha hb).symm

theorem cut_none {k : Nat} : ∀ {l : List Nat}, (∀ e ∈ l, e < k) → Sess.cut k l = none
  | [], _ => rfl
  | a :: l, h => by
    unfold Sess.cut
    rw [if_neg (by have := h a (by simp); omega)]
    exact cut_none fun e he => h e (by simp [he])

/-- C32: when a state has been loaded, newer states are not valid any more: loading them panics. -/
theorem C32_invalid_partial (hm : C.clauseMin ≠ .none) (h : Runs C x y) (hinc : C.incremental = true) {k k' : Nat} (htw : y.Separate k) (hk : k < k') {y' : Sess F} {r : Option Bool}
    (e : y.step C (.load k) = .ok (y', r)) : y'.step C (.load k') = .panic := by
  have hh := h.holds hm
  have hleg : x.Legal (.load k) := by
    unfold Sess.step at e
    simp only at e
    cases hcut : Sess.cut k y.valid with
    | none => rw [hcut] at e; cases e
    | some v =>
      rw [hh.valid] at hcut
      have : ∀ (l : List (Nat × Nat × List (List Nat))) (v : List Nat), Sess.cut k (l.map Prod.fst) = some v → (Spec.cut k l).isSome = true := by
        intro l
        induction l with
        | nil => intro v hv; cases hv
        | cons a l ih =>
          intro v hv
          unfold Spec.cut
          simp only [List.map_cons] at hv
          unfold Sess.cut at hv
          by_cases ha : a.1 = k
          · rw [if_pos ha]; rfl
          · rw [if_neg ha] at hv ⊢
            exact ih v hv
      exact this _ _ hcut
  have hst := hh.step hm hleg (fun _ => hinc) (by rintro _ ⟨⟩; exact htw)
  rw [e] at hst
  obtain ⟨x', hx', hh', _⟩ := hst
  obtain ⟨c, hc, rfl⟩ := Option.map_eq_some_iff.1 hx'
  obtain ⟨p, _, ⟨t, ht⟩, hck, _⟩ := cut_spec hc
  have hnone : Sess.cut k' y'.valid = none := by
    rw [hh'.valid]
    apply cut_none
    intro e he
    obtain ⟨e', he', rfl⟩ := List.mem_map.1 he
    have hs := hh'.sorted
    simp only at hs he'
    rw [ht] at hs he'
    rcases List.mem_cons.1 he' with rfl | he'
    · omega
    · have := (List.pairwise_cons.1 hs).1 e' he'
      omega
  unfold Sess.step
  simp only
  rw [hnone]

end

/-! ### Examples: the hypotheses are met -/

/-- Three variables, four clauses, and a few questions. -/
def demoOps : List Op := [.newVar true, .newVar true, .newVar true, .add [0, 2], .add [1, 2], .add [0, 3, 4], .save, .add [1, 5], .solve 100 [] []]

set_option maxRecDepth 10000 in
example : (runOps demoCfg demoOps .empty (.new demoCfg)).map (fun z => (z.1, z.2.1.cls, z.2.2.s.ok)) = some ([true], [[0, 2], [1, 2], [0, 3, 4], [1, 5]], true) := by
  decide +kernel

/-- The hypotheses of C28, C29 and C48: there are runs with both answers, with assumptions and a selection order. -/
example : ∃ x y y' y'', Runs demoCfg x y ∧ x.Legal (.solve 100 [5] [2]) ∧ y.step demoCfg (.solve 100 [5] [2]) = .ok (y', some true) ∧
    y.step demoCfg (.solve 100 [] [3]) = .ok (y'', some false) := by
  have h1 : ((runOps demoCfg demoOps .empty (.new demoCfg)).bind fun z =>
    match z.2.2.step demoCfg (.solve 100 [5] [2]), z.2.2.step demoCfg (.solve 100 [] [3]) with
    | .ok (_, some true), .ok (_, some false) => some (legalB z.2.1 (.solve 100 [5] [2]))
    | _, _ => none) = some true := by decide +kernel
  obtain ⟨z, hz, h2⟩ := Option.bind_eq_some_iff.1 h1
  have hr := runOps_runs demoOps .new hz
  match e1 : z.2.2.step demoCfg (.solve 100 [5] [2]), e2 : z.2.2.step demoCfg (.solve 100 [] [3]), h2 with
  | .ok (y', some true), .ok (y'', some false), h2 =>
    refine ⟨z.2.1, z.2.2, y', y'', hr, ?_, e1, e2⟩
    simp only [Option.some.injEq] at h2
    simpa [legalB, Spec.Legal] using h2

/-- An unsatisfiable set of clauses, for conflicts. -/
def demoBad : List Op := [.newVar true, .newVar true, .newVar true, .add [0, 2], .add [0, 3], .add [1, 4, 2], .add [1, 4, 3], .add [1, 5, 2], .add [1, 5, 3]]

/-- The hypotheses of C30 and C31: a run, a call, a state in the middle with a learnt clause, and propagation with and without conflict. -/
example : ∃ x y s1 s2 s3 s1' s2' id, Runs demoCfg x y ∧ x.Legal (.solve 100 [] [5]) ∧ Solving demoCfg y [] [5] s1 ∧ Solving demoCfg y [] [5] s2 ∧ Solving demoCfg y [] [5] s3 ∧
    s1.prop = some (s1', none) ∧ s2.prop = some (s2', some id) ∧ s3.units ≠ [] := by
  have h1 : ((runOps demoCfg demoBad .empty (.new demoCfg)).any fun z => z.2.2.s.ok && legalB z.2.1 (.solve 100 [] [5]) &&
    (probe demoCfg { z.2.2.s with sel := [], assumptions := [5] } 0).any (fun r => r.2.2.isNone) &&
    (probe demoCfg { z.2.2.s with sel := [], assumptions := [5] } 2).any (fun r => r.2.2.isSome) &&
    (probe demoCfg { z.2.2.s with sel := [], assumptions := [5] } 3).any (fun r => r.1.units.length == 1)) = true := by decide +kernel
  cases hz : runOps demoCfg demoBad .empty (.new demoCfg) with
  | none => rw [hz] at h1; cases h1
  | some z =>
    rw [hz] at h1
    simp only [Option.any_some, Bool.and_eq_true] at h1
    obtain ⟨⟨⟨⟨ho, hl⟩, p0⟩, p2⟩, p3⟩ := h1
    obtain ⟨⟨a, a', oa⟩, da, ea, ha⟩ := probe_ex p0
    obtain ⟨⟨b, b', ob⟩, db, eb, hb⟩ := probe_ex p2
    obtain ⟨⟨c, c', oc⟩, dc, _, hc⟩ := probe_ex p3
    obtain ⟨id, rfl⟩ := Option.isSome_iff_exists.1 hb
    have hn : oa = none := by simpa using ha
    subst hn
    refine ⟨z.2.1, z.2.2, a, b, c, a', b', id, runOps_runs demoBad .new hz, by simpa [legalB, Spec.Legal] using hl, ⟨ho, da⟩, ⟨ho, db⟩, ⟨ho, dc⟩, ea, eb, ?_⟩
    intro h0
    rw [h0] at hc
    cases hc

/-- The hypotheses of C32: saving, adding clauses, solving, and loading. -/
example : (runOps demoCfg (demoOps ++ [.add [1, 4], .solve 100 [] [0], .load 0, .solve 100 [] [0]]) .empty (.new demoCfg)).map (fun z => (z.1, z.2.1.cls)) =
    some ([true, false, true], [[0, 2], [1, 2], [0, 3, 4]]) := by
  decide +kernel

/-! ### The excluded cases -/

/-- A satisfiable set of clauses. -/
def noneOps : List Op := [.newVar true, .newVar true, .newVar true, .add [0, 4, 2], .add [5, 2], .add [0, 5, 3], .add [4, 0, 3], .add [5, 1], .solve 100 [] []]

/-- C29 fails when clause minimization is switched off (`ClauseMinimization::None`): `simplify_clause` (minisat2.rs:750-754) then cuts every learnt clause down to
its first literal.  The solver calls a satisfiable set of clauses unsatisfiable. -/
theorem C29_none_counterexample : ∃ x y, Runs { demoCfg with clauseMin := .none } x y ∧ (∃ r, runOps { demoCfg with clauseMin := .none } noneOps .empty (.new { demoCfg with clauseMin := .none }) = some (r, x, y) ∧ r = [false]) ∧
    Models (fun v => v == 0) x.cls := by
  have h1 : ((runOps { demoCfg with clauseMin := .none } noneOps .empty (.new { demoCfg with clauseMin := .none })).bind fun z => some (z.1, z.2.1.cls)) =
    some ([false], [[0, 4, 2], [5, 2], [0, 5, 3], [4, 0, 3], [5, 1]]) := by decide +kernel
  obtain ⟨z, hz, h2⟩ := Option.bind_eq_some_iff.1 h1
  simp only [Option.some.injEq, Prod.mk.injEq] at h2
  refine ⟨z.2.1, z.2.2, runOps_runs noneOps .new hz, ⟨z.1, hz, h2.1⟩, ?_⟩
  rw [h2.2]
  simp [Models, clT, litT]

/-- Calls without the condition on clauses with the same literals. -/
def rawOps {F : Type} [LinearOrder F] [Flt F] (C : Cfg F) : List Op → Sess F → Option (List Bool × Sess F)
  | [], y => some ([], y)
  | op :: ops, y =>
    match y.step C op with
    | .ok (y', r) => (rawOps C ops y').map fun z => (r.toList ++ z.1, z.2)
    | _ => none

/-- A clause is added twice, with a state saved before, between and (by loading) after. -/
def twinOps : List Op := [.newVar true, .newVar true, .newVar true, .save, .add [0, 2, 4], .save, .add [0, 2, 4], .load 1, .solve 100 [] [1], .load 0]

/-- C29 and C32 fail when a clause removed by loading a state has the same literals as a clause that is kept: `watch_equality` (minisat2.rs:46-48) compares clauses by their
content, so `detach_clause` can remove the watchers of the other clause.  Here the solver holds no clause after loading state 0, but answers UNSAT under assumptions. -/
theorem C32_twins_counterexample :
    (∃ x, twinOps.foldlM (fun x op => Spec.step op x) Spec.empty = some x ∧ x.cls = []) ∧
    (rawOps demoCfg (twinOps ++ [.solve 100 [] [1, 3, 5]]) (.new demoCfg)).map Prod.fst = some [true, false] := by
  constructor
  · exact ⟨⟨3, [], [(0, 3, [])], 2⟩, rfl, rfl⟩
  · decide +kernel

end Verif.Sat
