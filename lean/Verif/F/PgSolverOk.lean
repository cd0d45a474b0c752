import Verif.F.PgSolver
import Verif.Props.Ops
/-
Correctness of the Plaisted-Greenbaum transformation on the solver.
-/
namespace Verif
open ER

/-- The invariant: `base` are the clauses on the solver before, `B` the formulas whose clauses are being added. -/
structure PgGood (c0 : AuxTy → Nat) (base : List Clause) (B : Formula → Bool → Prop) (E : List Ent) (s : PgS) : Prop where
  w : WInv c0 s.w E
  var : ∀ f e, s.cache f = some e → VOk E s.w.cnt f e.v.p
  flag : ∀ f e pol, s.cache f = some e → ¬ B f pol → (e.set pol).1 = true → ∀ σ, LSat σ (base ++ s.out) → σ e.v = pol → f.eval σ = pol

/-- What a call does: the clauses added hold if the auxiliary variables are chosen as intended and `T` holds. -/
structure PgMove (T : Asg → Prop) (E : List Ent) (s : PgS) (E' : List Ent) (s' : PgS) : Prop where
  ext : GExt s.w.cnt E s'.w.cnt E'
  keep : ∀ f e, s.cache f = some e → ∃ e', s'.cache f = some e' ∧ e'.v = e.v
  new : ∃ L, s'.out = s.out ++ L ∧ ∀ σ, EncOk E' σ → T σ → LSat σ L

theorem PgMove.refl (T E s) : PgMove T E s E s :=
  ⟨GExt.refl _ _, fun _ e h => ⟨e, h, rfl⟩, [], by simp, fun _ _ _ _ h => by cases h⟩

theorem PgMove.trans {T E s E' s' E'' s''} (h : PgMove T E s E' s') (k : PgMove T E' s' E'' s'') : PgMove T E s E'' s'' := by
  refine ⟨h.ext.trans k.ext, fun f e he => ?_, ?_⟩
  · obtain ⟨e1, h1, v1⟩ := h.keep f e he
    obtain ⟨e2, h2, v2⟩ := k.keep f e1 h1
    exact ⟨e2, h2, v2.trans v1⟩
  · obtain ⟨L, h1, h2⟩ := h.new
    obtain ⟨L', k1, k2⟩ := k.new
    refine ⟨L ++ L', by rw [k1, h1, List.append_assoc], fun σ ho ht c hc => ?_⟩
    rcases List.mem_append.1 hc with hc | hc
    · exact h2 σ (k.ext.ok ho) ht c hc
    · exact k2 σ ho ht c hc

theorem PgMove.imp {T T' : Asg → Prop} {E s E' s'} (h : PgMove T E s E' s') (hT : ∀ σ, T' σ → T σ) : PgMove T' E s E' s' := by
  obtain ⟨L, h1, h2⟩ := h.new
  exact ⟨h.ext, h.keep, L, h1, fun σ ho ht => h2 σ ho (hT σ ht)⟩

theorem PgMove.sat {T E s E' s'} (h : PgMove T E s E' s') {base σ} (hs : LSat σ (base ++ s'.out)) : LSat σ (base ++ s.out) := by
  obtain ⟨L, h1, _⟩ := h.new
  intro c hc
  refine hs c ?_
  rw [h1, ← List.append_assoc]
  exact List.mem_append_left _ hc

/-- A clause that stands for `P`. -/
structure PgRep (base : List Clause) (E : List Ent) (s : PgS) (P : Asg → Prop) (c : Clause) : Prop where
  sound : ∀ σ, LSat σ (base ++ s.out) → Clause.Sat σ c → P σ
  compl : ∀ σ, EncOk E σ → P σ → Clause.Sat σ c

theorem PgRep.mono {base E s P c T E' s'} (h : PgRep base E s P c) (k : PgMove T E s E' s') : PgRep base E' s' P c :=
  ⟨fun σ hs => h.sound σ (k.sat hs), fun σ ho => h.compl σ (k.ext.ok ho)⟩

theorem clause_sat_append {σ : Asg} {c d : Clause} : Clause.Sat σ (c ++ d) ↔ Clause.Sat σ c ∨ Clause.Sat σ d := by
  simp only [Clause.Sat, List.mem_append, or_and_right, exists_or]

theorem PgRep.append {base E s P Q c d} (h : PgRep base E s P c) (k : PgRep base E s Q d) : PgRep base E s (fun σ => P σ ∨ Q σ) (c ++ d) := by
  refine ⟨fun σ hs hc => ?_, fun σ ho hp => clause_sat_append.2 ?_⟩
  · rcases clause_sat_append.1 hc with hc | hc
    · exact .inl (h.sound σ hs hc)
    · exact .inr (k.sound σ hs hc)
  · rcases hp with hp | hp
    · exact .inl (h.compl σ ho hp)
    · exact .inr (k.compl σ ho hp)

theorem PgRep.congr {base E s P Q c} (h : PgRep base E s P c) (hq : ∀ σ, P σ ↔ Q σ) : PgRep base E s Q c :=
  ⟨fun σ hs hc => (hq σ).1 (h.sound σ hs hc), fun σ ho hp => h.compl σ ho ((hq σ).2 hp)⟩

/-- The result of a call. -/
def PgRes (base : List Clause) (E : List Ent) (s : PgS) (P : Asg → Prop) (top : Bool) : Option Clause → Prop
  | some c => PgRep base E s P c
  | none => top = true ∧ ∀ σ, LSat σ (base ++ s.out) → P σ

theorem PgRes.mono {base E s P top r T E' s'} (h : PgRes base E s P top r) (k : PgMove T E s E' s') : PgRes base E' s' P top r := by
  cases r with
  | some c => exact PgRep.mono h k
  | none => exact ⟨h.1, fun σ hs => h.2 σ (k.sat hs)⟩

theorem PgRes.congr {base E s P Q top r} (h : PgRes base E s P top r) (hq : ∀ σ, P σ ↔ Q σ) : PgRes base E s Q top r := by
  cases r with
  | some c => exact PgRep.congr h hq
  | none => exact ⟨h.1, fun σ hs => (hq σ).1 (h.2 σ hs)⟩

theorem PgRes.some {base E s P r} (h : PgRes base E s P false r) : ∃ c, r = some c ∧ PgRep base E s P c := by
  cases r with
  | some c => exact ⟨c, rfl, h⟩
  | none => exact absurd h.1 (by decide)

/-- The literal in front of a clause holds. -/
def Pre (x : Option Lit) (σ : Asg) : Prop := ∃ l, x = some l ∧ l.eval σ = true

theorem PgGood.more {c0 base B E s} (h : PgGood c0 base B E s) (c : Clause) : PgGood c0 base B E (s.add c) := by
  refine ⟨h.w, h.var, fun f e pol he hB hf σ hs => h.flag f e pol he hB hf σ fun d hd => hs d ?_⟩
  simp only [PgS.add, ← List.append_assoc]
  exact List.mem_append_left _ hd

theorem add_ok {c0 base B E s P c} (x : Option Lit) (h : PgGood c0 base B E s) (hr : PgRep base E s P c) :
    ∃ d, s.addOp x (some c) = some (s.add d) ∧ PgGood c0 base B E (s.add d) ∧ PgMove (fun σ => Pre x σ ∨ P σ) E s E (s.add d) ∧
      ∀ σ, LSat σ (base ++ (s.add d).out) → Pre x σ ∨ P σ := by
  have key : ∀ d : Clause, (∀ σ, Clause.Sat σ d ↔ Pre x σ ∨ Clause.Sat σ c) →
      PgGood c0 base B E (s.add d) ∧ PgMove (fun σ => Pre x σ ∨ P σ) E s E (s.add d) ∧ ∀ σ, LSat σ (base ++ (s.add d).out) → Pre x σ ∨ P σ := by
    intro d hd
    have hm : PgMove (fun σ => Pre x σ ∨ P σ) E s E (s.add d) := by
      refine ⟨GExt.refl _ _, fun _ e h => ⟨e, h, rfl⟩, [d], rfl, fun σ ho ht c' hc' => ?_⟩
      rw [List.mem_singleton.1 hc', hd]
      rcases ht with ht | ht
      · exact .inl ht
      · exact .inr (hr.compl σ ho ht)
    refine ⟨h.more d, hm, fun σ hs => ?_⟩
    rcases (hd σ).1 (hs d (by simp [PgS.add])) with hc | hc
    · exact .inl hc
    · exact .inr (hr.sound σ (hm.sat hs) hc)
  cases x with
  | none => exact ⟨c, rfl, key c fun σ => by simp [Pre]⟩
  | some l => exact ⟨l :: c, rfl, key (l :: c) fun σ => by simp [Pre]⟩

theorem addOp_ok {c0 base B E s P top r} {x : Option Lit} (h : PgGood c0 base B E s) (hr : PgRes base E s P top r) (hx : top = true → x = none) :
    ∃ s', s.addOp x r = some s' ∧ PgGood c0 base B E s' ∧ PgMove (fun σ => Pre x σ ∨ P σ) E s E s' ∧
      ∀ σ, LSat σ (base ++ s'.out) → Pre x σ ∨ P σ := by
  cases r with
  | some c =>
    obtain ⟨d, h1, h2⟩ := add_ok x h hr
    exact ⟨_, h1, h2⟩
  | none =>
    rw [hx hr.1]
    exact ⟨s, rfl, h, PgMove.refl _ _ _, fun σ hs => .inr (hr.2 σ hs)⟩

/-- The literal of a variable with a polarity. -/
theorem eval_pol (σ : Asg) (v : Var) (pol : Bool) : (if pol then v.p else v.p.neg).eval σ = true ↔ σ v = pol := by
  cases pol <;> simp

theorem eval_guard (σ : Asg) (v : Var) (pol : Bool) : Pre (some (if pol then v.p.neg else v.p)) σ ↔ ¬ σ v = pol := by
  cases pol <;> simp [Pre]

theorem rep_var {base E s c f pol} {v : Var} (hv : VOk E c f v.p) (h : ∀ σ, LSat σ (base ++ s.out) → σ v = pol → f.eval σ = pol) :
    PgRep base E s (fun σ => f.eval σ = pol) [if pol then v.p else v.p.neg] := by
  refine ⟨fun σ hs hc => h σ hs ?_, fun σ ho hf => ⟨_, List.mem_singleton.2 rfl, ?_⟩⟩
  · obtain ⟨l, hl, he⟩ := hc
    rw [List.mem_singleton.1 hl] at he
    exact (eval_pol σ v pol).1 he
  · rw [eval_pol, ← hf, ← hv.val σ ho]
    simp

/-- One more formula in progress. -/
def PgBusy (B : Formula → Bool → Prop) (f : Formula) (pol : Bool) : Formula → Bool → Prop := fun g p => B g p ∨ (g = f ∧ p = pol)

theorem PgGood.done {c0 base B E s f pol e} (h : PgGood c0 base (PgBusy B f pol) E s) (he : s.cache f = some e)
    (hs : ∀ σ, LSat σ (base ++ s.out) → σ e.v = pol → f.eval σ = pol) : PgGood c0 base B E s := by
  refine ⟨h.w, h.var, fun g e' p hg hB hf => ?_⟩
  by_cases hgf : g = f ∧ p = pol
  · obtain ⟨rfl, rfl⟩ := hgf
    rw [he] at hg; injection hg with hg; subst hg
    exact hs
  · exact h.flag g e' p hg (by rintro (h | h); exacts [hB h, hgf h]) hf

theorem PgEntry.set_v (e : PgEntry) (pol : Bool) : (e.set pol).2.v = e.v := by unfold PgEntry.set; split <;> rfl
theorem PgEntry.set_flag (e : PgEntry) (pol p : Bool) : ((e.set pol).2.set p).1 = (decide (p = pol) || (e.set p).1) := by
  cases pol <;> cases p <;> simp [PgEntry.set]

theorem getVar_ok {c0 base B E s f} {pol : Bool} (h : PgGood c0 base B E s) (hB : ¬ B f pol) (ho : ∀ v, Occ v f → (cER s.w.cnt).Old v) :
    (∃ (v : Var) (s' : PgS), s.getVar f pol = (true, v.p, s') ∧ PgGood c0 base B E s' ∧ PgMove (fun _ => True) E s E s' ∧
      PgRep base E s' (fun σ => f.eval σ = pol) [if pol then v.p else v.p.neg]) ∨
    ∃ (v : Var) (s' : PgS) (E' : List Ent) (e : PgEntry), s.getVar f pol = (false, v.p, s') ∧ PgGood c0 base (PgBusy B f pol) E' s' ∧
      PgMove (fun _ => True) E s E' s' ∧ VOk E' s'.w.cnt f v.p ∧ s'.cache f = some e ∧ e.v = v := by
  unfold PgS.getVar
  cases hc : s.cache f with
  | some e =>
    have hkeep : ∀ g e', s.cache g = some e' → ∃ e'', mapPut s.cache f (e.set pol).2 g = some e'' ∧ e''.v = e'.v := by
      intro g e' he'
      simp only [mapPut]
      split
      · rename_i hg; subst hg
        rw [hc] at he'; injection he' with he'; subst he'
        exact ⟨_, rfl, e.set_v pol⟩
      · exact ⟨e', he', rfl⟩
    have hvar : ∀ g e', mapPut s.cache f (e.set pol).2 g = some e' → VOk E s.w.cnt g e'.v.p := by
      intro g e' he'
      simp only [mapPut] at he'
      split at he'
      · rename_i hg; subst hg
        injection he' with he'; subst he'
        rw [e.set_v]; exact h.var g e hc
      · exact h.var g e' he'
    have hm : PgMove (fun _ => True) E s E { s with cache := mapPut s.cache f (e.set pol).2 } :=
      ⟨GExt.refl _ _, hkeep, [], by simp, fun _ _ _ _ h => by cases h⟩
    cases hf : (e.set pol).1 with
    | true =>
      refine .inl ⟨e.v, { s with cache := mapPut s.cache f (e.set pol).2 }, by simp only [hf], ⟨h.w, hvar, fun g e' p he' hB' hf' => ?_⟩, hm, rep_var (h.var f e hc) (h.flag f e pol hc hB hf)⟩
      simp only [mapPut] at he'
      split at he'
      · rename_i hg; subst hg
        injection he' with he'; subst he'
        rw [e.set_v]
        refine h.flag g e p hc hB' ?_
        rw [e.set_flag] at hf'
        by_cases hp : p = pol
        · rw [hp]; exact hf
        · simpa [hp] using hf'
      · exact h.flag g e' p he' hB' hf'
    | false =>
      refine .inr ⟨e.v, { s with cache := mapPut s.cache f (e.set pol).2 }, E, (e.set pol).2, by simp only [hf], ⟨h.w, hvar, fun g e' p he' hB' hf' => ?_⟩, hm, h.var f e hc, by simp [mapPut], e.set_v pol⟩
      simp only [mapPut] at he'
      split at he'
      · rename_i hg; subst hg
        injection he' with he'; subst he'
        rw [e.set_v]
        have hp : p ≠ pol := fun hp => hB' (.inr ⟨rfl, hp⟩)
        refine h.flag g e p hc (fun hb => hB' (.inl hb)) ?_
        rw [e.set_flag] at hf'
        simpa [hp] using hf'
      · exact h.flag g e' p he' (fun hb => hB' (.inl hb)) hf'
  | none =>
    obtain ⟨E', h1, x1, v1, _⟩ := newCnf_ok h.w ho
    refine .inr ⟨s.w.newCnf.1, { s with cache := mapPut s.cache f ((PgEntry.mk s.w.newCnf.1 false false).set pol).2, w := s.w.newCnf.2 }, E', ((PgEntry.mk s.w.newCnf.1 false false).set pol).2, rfl, ⟨h1, ?_, ?_⟩, ⟨x1, ?_, [], by simp, fun _ _ _ _ h => by cases h⟩, v1, by simp [mapPut], PgEntry.set_v _ pol⟩
    · intro g e' he'
      simp only [mapPut] at he'
      split at he'
      · rename_i hg; subst hg
        injection he' with he'; subst he'
        rw [PgEntry.set_v]; exact v1
      · exact (h.var g e' he').mono x1
    · intro g e' p he' hB' hf'
      simp only [mapPut] at he'
      split at he'
      · rename_i hg; subst hg
        injection he' with he'; subst he'
        have hp : p ≠ pol := fun hp => hB' (.inr ⟨rfl, hp⟩)
        rw [PgEntry.set_flag] at hf'
        simp only [hp, decide_false, Bool.false_or] at hf'
        cases p <;> simp [PgEntry.set] at hf'
      · exact h.flag g e' p he' (fun hb => hB' (.inl hb)) hf'
    · intro g e' he'
      simp only [mapPut]
      split
      · rename_i hg; subst hg
        rw [hc] at he'; cases he'
      · exact ⟨e', he', rfl⟩

/-- What `compute_transformation` can work on: no constants and no constraints. -/
def PgNode (f : Formula) : Prop := f.isConst = false ∧ ¬ IsCon f

/-- The statement about `pgC`. -/
def PgCall (c0 : AuxTy → Nat) (base : List Clause) (f : Formula) : Prop :=
  ∀ (pol top : Bool) (s : PgS) (E : List Ent) (B : Formula → Bool → Prop), PgGood c0 base B E s → (∀ g, Sub g f → PgNode g) → (∀ v, Occ v f → (cER s.w.cnt).Old v) →
    (∀ g, Sub g f → ∀ p, ¬ B g p) →
    ∃ r s' E', pgC f pol top s = some (r, s') ∧ PgGood c0 base B E' s' ∧ PgMove (fun σ => top = true → f.eval σ = pol) E s E' s' ∧
      PgRes base E' s' (fun σ => f.eval σ = pol) top r

theorem PgCall.plain {c0 base f} (h : PgCall c0 base f) {pol s E B} (hg : PgGood c0 base B E s) (hn : ∀ g, Sub g f → PgNode g)
    (ho : ∀ v, Occ v f → (cER s.w.cnt).Old v) (hB : ∀ g, Sub g f → ∀ p, ¬ B g p) :
    ∃ c s' E', pgC f pol false s = some (some c, s') ∧ PgGood c0 base B E' s' ∧ PgMove (fun _ => True) E s E' s' ∧
      PgRep base E' s' (fun σ => f.eval σ = pol) c := by
  obtain ⟨r, s', E', e, h1, h2, h3⟩ := h pol false s E B hg hn ho hB
  obtain ⟨c, rfl, h4⟩ := h3.some
  exact ⟨c, s', E', e, h1, h2.imp (fun _ _ h => by cases h), h4⟩

theorem pgEach_ok {c0 base pol top} {x : Option Lit} (hx : top = true → x = none) (fs : List Formula) : ∀ {s E B}, (∀ f ∈ fs, PgCall c0 base f) →
    PgGood c0 base B E s → (∀ f ∈ fs, ∀ g, Sub g f → PgNode g) → (∀ f ∈ fs, ∀ v, Occ v f → (cER s.w.cnt).Old v) → (∀ f ∈ fs, ∀ g, Sub g f → ∀ p, ¬ B g p) →
    ∃ s' E', pgEach fs pol top x s = some s' ∧ PgGood c0 base B E' s' ∧ PgMove (fun σ => Pre x σ ∨ ∀ f ∈ fs, f.eval σ = pol) E s E' s' ∧
      ∀ σ, LSat σ (base ++ s'.out) → Pre x σ ∨ ∀ f ∈ fs, f.eval σ = pol := by
  induction fs with
  | nil => intro s E B _ h _ _ _; exact ⟨s, E, by simp [pgEach], h, PgMove.refl _ _ _, fun _ _ => .inr (by simp)⟩
  | cons f fs ih =>
    intro s E B hc h hn ho hB
    obtain ⟨r, s1, E1, e1, g1, m1, r1⟩ := hc f (by simp) pol top s E B h (hn f (by simp)) (ho f (by simp)) (hB f (by simp))
    obtain ⟨s2, e2, g2, m2, r2⟩ := addOp_ok g1 r1 hx
    obtain ⟨s3, E3, e3, g3, m3, r3⟩ := ih (fun f hf => hc f (by simp [hf])) g2 (fun f hf => hn f (by simp [hf]))
      (fun f hf v hv => m2.ext.old (m1.ext.old (ho f (by simp [hf]) v hv))) (fun f hf => hB f (by simp [hf]))
    refine ⟨s3, E3, by simp only [pgEach, e1, e2, e3], g3, ?_, fun σ hs => ?_⟩
    · refine ((m1.imp fun σ ht htop => ?_).trans (m2.imp fun σ ht => ?_)).trans (m3.imp fun σ ht => ?_)
      · rcases ht with ⟨l, hl, _⟩ | ht
        · rw [hx htop] at hl; cases hl
        · exact ht f (by simp)
      · exact ht.imp id fun h => h f (by simp)
      · exact ht.imp id fun h f hf => h f (by simp [hf])
    · rcases r3 σ hs with h | h
      · exact .inl h
      · rcases r2 σ (m3.sat hs) with h' | h'
        · exact .inl h'
        · exact .inr fun g hg => (List.mem_cons.1 hg).elim (fun e => e ▸ h') (h g)

theorem pgJoin_ok {c0 base pol} (fs : List Formula) : ∀ {s E B}, (∀ f ∈ fs, PgCall c0 base f) →
    PgGood c0 base B E s → (∀ f ∈ fs, ∀ g, Sub g f → PgNode g) → (∀ f ∈ fs, ∀ v, Occ v f → (cER s.w.cnt).Old v) → (∀ f ∈ fs, ∀ g, Sub g f → ∀ p, ¬ B g p) →
    ∃ c s' E', pgJoin fs pol s = some (c, s') ∧ PgGood c0 base B E' s' ∧ PgMove (fun _ => True) E s E' s' ∧
      PgRep base E' s' (fun σ => ∃ f ∈ fs, f.eval σ = pol) c := by
  induction fs with
  | nil =>
    intro s E B _ h _ _ _
    exact ⟨[], s, E, by simp [pgJoin], h, PgMove.refl _ _ _, fun σ _ ⟨l, hl, _⟩ => (by cases hl), fun σ _ ⟨f, hf, _⟩ => (by cases hf)⟩
  | cons f fs ih =>
    intro s E B hc h hn ho hB
    obtain ⟨c, s1, E1, e1, g1, m1, r1⟩ := (hc f (by simp)).plain (pol := pol) h (hn f (by simp)) (ho f (by simp)) (hB f (by simp))
    obtain ⟨d, s2, E2, e2, g2, m2, r2⟩ := ih (fun f hf => hc f (by simp [hf])) g1 (fun f hf => hn f (by simp [hf]))
      (fun f hf v hv => m1.ext.old (ho f (by simp [hf]) v hv)) (fun f hf => hB f (by simp [hf]))
    refine ⟨c ++ d, s2, E2, by simp only [pgJoin, e1, e2], g2, m1.trans m2, ((r1.mono m2).append r2).congr fun σ => ?_⟩
    simp

theorem not_sub_of_operand {f g : Formula} (h : f ∈ g.operands) : ¬ Sub g f := fun hs => by
  have := sizeOf_sub hs
  have := sizeOf_operand h
  omega

theorem busy_free {B : Formula → Bool → Prop} {f g : Formula} {pol} (h : f ∈ g.operands) (hB : ∀ k, Sub k g → ∀ p, ¬ B k p) :
    ∀ k, Sub k f → ∀ p, ¬ PgBusy B g pol k p := by
  rintro k hk p (hb | ⟨rfl, _⟩)
  · exact hB k (hk.trans (op_sub h)) p hb
  · exact not_sub_of_operand h hk

theorem PgMove.entry {T E s E' s'} {f : Formula} {e : PgEntry} {v : Var} (h : PgMove T E s E' s') (he : s.cache f = some e) (hv : e.v = v) :
    ∃ e', s'.cache f = some e' ∧ e'.v = v := by
  obtain ⟨e', h1, h2⟩ := h.keep f e he
  exact ⟨e', h1, h2.trans hv⟩

/-- The end of a definition: the clauses guarded by the variable say that the formula has the value `pol`. -/
theorem define_ok {c0 base B E s f pol} {e : PgEntry} {v : Var} (h : PgGood c0 base (PgBusy B f pol) E s) (hv : VOk E s.w.cnt f v.p) (he : s.cache f = some e) (hev : e.v = v)
    (hr : ∀ σ, LSat σ (base ++ s.out) → Pre (some (if pol then v.p.neg else v.p)) σ ∨ f.eval σ = pol) :
    PgGood c0 base B E s ∧ PgRep base E s (fun σ => f.eval σ = pol) [if pol then v.p else v.p.neg] := by
  have hs : ∀ σ, LSat σ (base ++ s.out) → σ v = pol → f.eval σ = pol := by
    intro σ hs hp
    rcases hr σ hs with h | h
    · exact absurd hp ((eval_guard σ v pol).1 h)
    · exact h
  subst hev
  exact ⟨h.done he hs, rep_var hv hs⟩

/-- Under the intended values the guarded clauses hold. -/
theorem guard_ok {E c f} {v : Var} {pol : Bool} (hv : VOk E c f v.p) {σ} (ho : EncOk E σ) : Pre (some (if pol then v.p.neg else v.p)) σ ∨ f.eval σ = pol := by
  rw [eval_guard]
  have := hv.val σ ho
  simp at this
  rw [this]
  exact (Decidable.em _).symm

theorem PgMove.guard {E s E' s' f c} {v : Var} {pol : Bool} {T : Asg → Prop} (h : PgMove (fun σ => Pre (some (if pol then v.p.neg else v.p)) σ ∨ T σ) E s E' s') (hv : VOk E' c f v.p)
    (hT : ∀ σ, f.eval σ = pol → T σ) : PgMove (fun _ => True) E s E' s' := by
  obtain ⟨L, h1, h2⟩ := h.new
  exact ⟨h.ext, h.keep, L, h1, fun σ ho _ => h2 σ ho ((guard_ok hv ho).imp id (hT σ))⟩

theorem pgC_ok {c0 base} (f : Formula) : PgCall c0 base f := by
  induction f using Formula.ind with
  | tru => intro pol top s E B _ hn; exact absurd (hn _ (.refl _)).1 (by simp [Formula.isConst])
  | fls => intro pol top s E B _ hn; exact absurd (hn _ (.refl _)).1 (by simp [Formula.isConst])
  | cc c => intro pol top s E B _ hn; exact absurd (.inl ⟨c, rfl⟩) (hn _ (.refl _)).2
  | pbc p => intro pol top s E B _ hn; exact absurd (.inr ⟨p, rfl⟩) (hn _ (.refl _)).2
  | lit l =>
    intro pol top s E B h _ _ _
    refine ⟨_, s, E, by simp only [pgC]; rfl, h, PgMove.refl _ _ _, ?_⟩
    have : ∀ σ, (if pol then l else l.neg).eval σ = true ↔ (Formula.lit l).eval σ = pol := by intro σ; cases pol <;> simp
    exact ⟨fun σ _ ⟨k, hk, he⟩ => by rw [List.mem_singleton.1 hk] at he; exact (this σ).1 he, fun σ _ hp => ⟨_, by simp, (this σ).2 hp⟩⟩
  | not g ih =>
    intro pol top s E B h hn ho hB
    have hm : g ∈ (Formula.not g).operands := by simp [Formula.operands]
    obtain ⟨r, s', E', e, h1, h2, h3⟩ := ih (!pol) top s E B h (fun k hk => hn k (hk.trans (op_sub hm))) (fun v hv => ho v (by simpa using hv)) (fun k hk => hB k (hk.trans (op_sub hm)))
    have hq : ∀ σ, g.eval σ = (!pol) ↔ (Formula.not g).eval σ = pol := by intro σ; simp only [Formula.eval_not]; cases g.eval σ <;> cases pol <;> simp
    refine ⟨r, s', E', by rw [pgC]; exact e, h1, h2.imp fun σ ht htop => (hq σ).2 (ht htop), h3.congr hq⟩
  | nary o fs ih =>
    intro pol top s E B h hn ho hB
    have hop : ∀ f ∈ fs, f ∈ (Formula.nary o fs).operands := fun f hf => by simpa [Formula.operands] using hf
    have hn' : ∀ f ∈ fs, ∀ g, Sub g f → PgNode g := fun f hf g hg => hn g (hg.trans (op_sub (hop f hf)))
    have ho' : ∀ f ∈ fs, ∀ v, Occ v f → (cER s.w.cnt).Old v := fun f hf v hv => ho v ((Formula.occ_nary ..).2 ⟨f, hf, hv⟩)
    have hB' : ∀ f ∈ fs, ∀ g, Sub g f → ∀ p, ¬ B g p := fun f hf g hg => hB g (hg.trans (op_sub (hop f hf)))
    by_cases hk : o = .conj ∧ pol = true ∨ o = .disj ∧ pol = false
    · have hq : ∀ σ, (∀ f ∈ fs, f.eval σ = pol) ↔ (Formula.nary o fs).eval σ = pol := by
        intro σ
        rw [Formula.eval_nary]
        rcases hk with ⟨rfl, rfl⟩ | ⟨rfl, rfl⟩
        · simp [Op.eval]
        · simp [Op.eval]
      cases top with
      | true =>
        obtain ⟨s1, E1, e1, g1, m1, r1⟩ := pgEach_ok (pol := pol) (top := true) (x := none) (fun _ => rfl) fs (fun f hf => ih f hf) h hn' ho' hB'
        refine ⟨none, s1, E1, by simp only [pgC, if_pos hk, if_true, e1], g1, m1.imp fun σ ht => .inr ((hq σ).2 (ht rfl)), rfl, fun σ hs => (hq σ).1 ?_⟩
        rcases r1 σ hs with ⟨_, hl, _⟩ | h
        · cases hl
        · exact h
      | false =>
        rcases getVar_ok (pol := pol) h (hB _ (.refl _) pol) ho with ⟨v, s1, e1, g1, m1, r1⟩ | ⟨v, s1, E1, en, e1, g1, m1, v1, c1, ev1⟩
        · exact ⟨some [if pol then v.p else v.p.neg], s1, E, by simp only [pgC, if_pos hk, Bool.false_eq_true, if_false, e1], g1, m1.imp fun _ _ => trivial, r1⟩
        · obtain ⟨s2, E2, e2, g2, m2, r2⟩ := pgEach_ok (pol := pol) (top := false) (x := some (if pol then v.p.neg else v.p)) (fun h => by cases h) fs (fun f hf => ih f hf) g1 hn'
            (fun f hf w hw => m1.ext.old (ho' f hf w hw)) (fun f hf => busy_free (hop f hf) hB)
          have v2 := v1.mono m2.ext
          obtain ⟨en2, c2, ev2⟩ := m2.entry c1 ev1
          obtain ⟨g3, r3⟩ := define_ok g2 v2 c2 ev2 fun σ hs => (r2 σ hs).imp id (hq σ).1
          refine ⟨some [if pol then v.p else v.p.neg], s2, E2, by simp only [pgC, if_pos hk, Bool.false_eq_true, if_false, e1, e2], g3, ?_, r3⟩
          exact (m1.trans (m2.guard v2 fun σ => (hq σ).2)).imp fun _ _ => trivial
    · have hq : ∀ σ, (∃ f ∈ fs, f.eval σ = pol) ↔ (Formula.nary o fs).eval σ = pol := by
        intro σ
        rw [Formula.eval_nary]
        cases o <;> cases pol <;> simp at hk <;> simp [Op.eval]
      obtain ⟨c, s1, E1, e1, g1, m1, r1⟩ := pgJoin_ok (pol := pol) fs (fun f hf => ih f hf) h hn' ho' hB'
      exact ⟨some c, s1, E1, by simp only [pgC, if_neg hk, e1], g1, m1.imp fun _ _ => trivial, PgRep.congr r1 hq⟩
  | impl a b iha ihb =>
    intro pol top s E B h hn ho hB
    have ha : a ∈ (Formula.impl a b).operands := by simp [Formula.operands]
    have hb : b ∈ (Formula.impl a b).operands := by simp [Formula.operands]
    have hna : ∀ g, Sub g a → PgNode g := fun g hg => hn g (hg.trans (op_sub ha))
    have hnb : ∀ g, Sub g b → PgNode g := fun g hg => hn g (hg.trans (op_sub hb))
    have hoa : ∀ v, Occ v a → (cER s.w.cnt).Old v := fun v hv => ho v (hv.sub (op_sub ha))
    have hob : ∀ v, Occ v b → (cER s.w.cnt).Old v := fun v hv => ho v (hv.sub (op_sub hb))
    cases pol with
    | true =>
      obtain ⟨l, s1, E1, e1, g1, m1, r1⟩ := iha.plain (pol := false) h hna hoa (fun g hg => hB g (hg.trans (op_sub ha)))
      obtain ⟨r, s2, E2, e2, g2, m2, r2⟩ := ihb.plain (pol := true) g1 hnb (fun v hv => m1.ext.old (hob v hv)) (fun g hg => hB g (hg.trans (op_sub hb)))
      refine ⟨some (l ++ r), s2, E2, by simp only [pgC, if_true, e1, e2], g2, (m1.trans m2).imp fun _ _ => trivial, ?_⟩
      refine PgRep.congr ((r1.mono m2).append r2) fun σ => ?_
      simp only [Formula.eval_impl]
      cases a.eval σ <;> cases b.eval σ <;> simp
    | false =>
      have hq : ∀ σ, (a.eval σ = true ∧ b.eval σ = false) ↔ (Formula.impl a b).eval σ = false := by
        intro σ
        simp only [Formula.eval_impl]
        cases a.eval σ <;> cases b.eval σ <;> simp
      -- the two clauses
      have main : ∀ (x : Option Lit) (s : PgS) (E : List Ent) (B : Formula → Bool → Prop), PgGood c0 base B E s → (top = true → x = none) → (∀ v, Occ v a → (cER s.w.cnt).Old v) →
          (∀ v, Occ v b → (cER s.w.cnt).Old v) → (∀ g, Sub g a → ∀ p, ¬ B g p) → (∀ g, Sub g b → ∀ p, ¬ B g p) →
          ∃ l r s1 s2 s3 s4 E', pgC a true top s = some (l, s1) ∧ pgC b false top s1 = some (r, s2) ∧ s2.addOp x l = some s3 ∧ s3.addOp x r = some s4 ∧
            PgGood c0 base B E' s4 ∧ PgMove (fun σ => Pre x σ ∨ (a.eval σ = true ∧ b.eval σ = false)) E s E' s4 ∧
            ∀ σ, LSat σ (base ++ s4.out) → Pre x σ ∨ (a.eval σ = true ∧ b.eval σ = false) := by
        intro x s E B h hx hoa hob hBa hBb
        obtain ⟨l, s1, E1, e1, g1, m1, r1⟩ := iha true top s E B h hna hoa hBa
        obtain ⟨r, s2, E2, e2, g2, m2, r2⟩ := ihb false top s1 E1 B g1 hnb (fun v hv => m1.ext.old (hob v hv)) hBb
        obtain ⟨s3, e3, g3, m3, r3⟩ := addOp_ok g2 (r1.mono m2) hx
        obtain ⟨s4, e4, g4, m4, r4⟩ := addOp_ok g3 (r2.mono m3) hx
        have top_ : ∀ σ, (Pre x σ ∨ (a.eval σ = true ∧ b.eval σ = false)) → top = true → (a.eval σ = true ∧ b.eval σ = false) := by
          rintro σ (⟨_, hl, _⟩ | ht) htop
          · rw [hx htop] at hl; cases hl
          · exact ht
        refine ⟨l, r, s1, s2, s3, s4, E2, e1, e2, e3, e4, g4, ?_, fun σ hs => ?_⟩
        · exact (((m1.imp fun σ ht htop => (top_ σ ht htop).1).trans (m2.imp fun σ ht htop => (top_ σ ht htop).2)).trans (m3.imp fun σ ht => ht.imp id And.left)).trans (m4.imp fun σ ht => ht.imp id And.right)
        · rcases r4 σ hs with h | h
          · exact .inl h
          · exact (r3 σ (m4.sat hs)).imp id fun h' => ⟨h', h⟩
      cases top with
      | true =>
        obtain ⟨l, r, s1, s2, s3, s4, E', e1, e2, e3, e4, g4, m4, r4⟩ := main none s E B h (fun _ => rfl) hoa hob (fun g hg => hB g (hg.trans (op_sub ha))) (fun g hg => hB g (hg.trans (op_sub hb)))
        refine ⟨none, s4, E', by simp [pgC, e1, e2, e3, e4], g4, m4.imp fun σ ht => .inr ((hq σ).2 (ht rfl)), rfl, fun σ hs => (hq σ).1 ?_⟩
        rcases r4 σ hs with ⟨_, hl, _⟩ | h
        · cases hl
        · exact h
      | false =>
        rcases getVar_ok (pol := false) h (hB _ (.refl _) false) ho with ⟨v, s1, e1, g1, m1, r1⟩ | ⟨v, s1, E1, en, e1, g1, m1, v1, c1, ev1⟩
        · exact ⟨some [v.p.neg], s1, E, by simp [pgC, e1], g1, m1.imp fun _ _ => trivial, r1⟩
        · obtain ⟨l, r, s2, s3, s4, s5, E5, e2, e3, e4, e5, g5, m5, r5⟩ := main (some v.p) s1 E1 _ g1 (fun h => by cases h) (fun v hv => m1.ext.old (hoa v hv)) (fun v hv => m1.ext.old (hob v hv))
            (busy_free ha hB) (busy_free hb hB)
          have v5 := v1.mono m5.ext
          obtain ⟨en5, c5, ev5⟩ := m5.entry c1 ev1
          obtain ⟨g6, r6⟩ := define_ok g5 v5 c5 ev5 fun σ hs => (r5 σ hs).imp id (hq σ).1
          refine ⟨some [v.p.neg], s5, E5, by simp [pgC, e1, e2, e3, e4, e5], g6, ?_, r6⟩
          exact (m1.trans (PgMove.guard (pol := false) m5 v5 fun σ => (hq σ).2)).imp fun _ _ => trivial
  | equiv a b iha ihb =>
    intro pol top s E B h hn ho hB
    have ha : a ∈ (Formula.equiv a b).operands := by simp [Formula.operands]
    have hb : b ∈ (Formula.equiv a b).operands := by simp [Formula.operands]
    have hna : ∀ g, Sub g a → PgNode g := fun g hg => hn g (hg.trans (op_sub ha))
    have hnb : ∀ g, Sub g b → PgNode g := fun g hg => hn g (hg.trans (op_sub hb))
    have hoa : ∀ v, Occ v a → (cER s.w.cnt).Old v := fun v hv => ho v (hv.sub (op_sub ha))
    have hob : ∀ v, Occ v b → (cER s.w.cnt).Old v := fun v hv => ho v (hv.sub (op_sub hb))
    have main : ∀ (x : Option Lit) (s : PgS) (E : List Ent) (B : Formula → Bool → Prop), PgGood c0 base B E s → (∀ v, Occ v a → (cER s.w.cnt).Old v) →
        (∀ v, Occ v b → (cER s.w.cnt).Old v) → (∀ g, Sub g a → ∀ p, ¬ B g p) → (∀ g, Sub g b → ∀ p, ¬ B g p) →
        ∃ lp ln rp rn s1 s2 s3 s4 s5 s6 E', pgC a true false s = some (some lp, s1) ∧ pgC a false false s1 = some (some ln, s2) ∧ pgC b true false s2 = some (some rp, s3) ∧
          pgC b false false s3 = some (some rn, s4) ∧ s4.addOp x (some (if pol then ln ++ rp else lp ++ rp)) = some s5 ∧ s5.addOp x (some (if pol then lp ++ rn else ln ++ rn)) = some s6 ∧
          PgGood c0 base B E' s6 ∧ PgMove (fun σ => Pre x σ ∨ (Formula.equiv a b).eval σ = pol) E s E' s6 ∧
          ∀ σ, LSat σ (base ++ s6.out) → Pre x σ ∨ (Formula.equiv a b).eval σ = pol := by
      intro x s E B h hoa hob hBa hBb
      obtain ⟨lp, s1, E1, e1, g1, m1, r1⟩ := iha.plain (pol := true) h hna hoa hBa
      obtain ⟨ln, s2, E2, e2, g2, m2, r2⟩ := iha.plain (pol := false) g1 hna (fun v hv => m1.ext.old (hoa v hv)) hBa
      obtain ⟨rp, s3, E3, e3, g3, m3, r3⟩ := ihb.plain (pol := true) g2 hnb (fun v hv => m2.ext.old (m1.ext.old (hob v hv))) hBb
      obtain ⟨rn, s4, E4, e4, g4, m4, r4⟩ := ihb.plain (pol := false) g3 hnb (fun v hv => m3.ext.old (m2.ext.old (m1.ext.old (hob v hv)))) hBb
      have k1 := ((r1.mono m2).mono m3).mono m4
      have k2 := (r2.mono m3).mono m4
      have k3 := r3.mono m4
      have c1 : PgRep base E4 s4 (fun σ => (a.eval σ = !pol) ∨ b.eval σ = true) (if pol then ln ++ rp else lp ++ rp) := by
        cases pol
        · exact k1.append k3
        · exact k2.append k3
      have c2 : PgRep base E4 s4 (fun σ => (a.eval σ = pol) ∨ b.eval σ = false) (if pol then lp ++ rn else ln ++ rn) := by
        cases pol
        · exact k2.append r4
        · exact k1.append r4
      obtain ⟨d5, e5, g5, m5, r5⟩ := add_ok x g4 c1
      obtain ⟨d6, e6, g6, m6, r6⟩ := add_ok x g5 (c2.mono m5)
      have hq : ∀ σ, (Formula.equiv a b).eval σ = pol ↔ ((a.eval σ = !pol) ∨ b.eval σ = true) ∧ ((a.eval σ = pol) ∨ b.eval σ = false) := by
        intro σ
        simp only [Formula.eval_equiv]
        cases a.eval σ <;> cases b.eval σ <;> cases pol <;> simp
      refine ⟨lp, ln, rp, rn, s1, s2, s3, s4, _, _, E4, e1, e2, e3, e4, e5, e6, g6, ?_, fun σ hs => ?_⟩
      · exact (((((m1.trans m2).trans m3).trans m4).imp fun _ _ => trivial).trans (m5.imp fun σ ht => ht.imp id fun h => ((hq σ).1 h).1)).trans (m6.imp fun σ ht => ht.imp id fun h => ((hq σ).1 h).2)
      · rcases r6 σ hs with h | h
        · exact .inl h
        · exact (r5 σ (m6.sat hs)).imp id fun h' => (hq σ).2 ⟨h', h⟩
    cases top with
    | true =>
      obtain ⟨lp, ln, rp, rn, s1, s2, s3, s4, s5, s6, E', e1, e2, e3, e4, e5, e6, g6, m6, r6⟩ := main none s E B h hoa hob (fun g hg => hB g (hg.trans (op_sub ha))) (fun g hg => hB g (hg.trans (op_sub hb)))
      simp only [PgS.addOp, Option.some.injEq] at e5 e6
      subst e5; subst e6
      refine ⟨none, _, E', by simp only [pgC, if_true, e1, e2, e3, e4], g6, m6.imp fun σ ht => .inr (ht rfl), rfl, fun σ hs => ?_⟩
      rcases r6 σ hs with ⟨_, hl, _⟩ | h
      · cases hl
      · exact h
    | false =>
      rcases getVar_ok (pol := pol) h (hB _ (.refl _) pol) ho with ⟨v, s1, e1, g1, m1, r1⟩ | ⟨v, s0, E0, en, e0, g0, m0, v0, c0', ev0⟩
      · exact ⟨some [if pol then v.p else v.p.neg], s1, E, by simp only [pgC, Bool.false_eq_true, if_false, e1]; rfl, g1, m1.imp fun _ _ => trivial, r1⟩
      · obtain ⟨lp, ln, rp, rn, s1, s2, s3, s4, s5, s6, E', e1, e2, e3, e4, e5, e6, g6, m6, r6⟩ := main (some (if pol then v.p.neg else v.p)) s0 E0 _ g0 (fun v hv => m0.ext.old (hoa v hv)) (fun v hv => m0.ext.old (hob v hv))
          (busy_free ha hB) (busy_free hb hB)
        have v6 := v0.mono m6.ext
        obtain ⟨en6, c6, ev6⟩ := m6.entry c0' ev0
        obtain ⟨g7, r7⟩ := define_ok g6 v6 c6 ev6 r6
        simp only [PgS.addOp, Option.some.injEq] at e5 e6
        subst e5; subst e6
        refine ⟨some [(if pol then v.p.neg else v.p).neg], _, E', by simp only [pgC, Bool.false_eq_true, if_false, e0, e1, e2, e3, e4], g7, ?_, ?_⟩
        · exact (m0.trans (m6.guard v6 fun σ h => h)).imp fun _ _ => trivial
        · have : (if pol then v.p.neg else v.p).neg = if pol then v.p else v.p.neg := by cases pol <;> simp
          rw [this]
          exact r7

/-- The factory has been used otherwise. -/
theorem PgGood.world {c0 base B E s w' E'} (h : PgGood c0 base B E s) (hw : WInv c0 w' E') (hx : GExt s.w.cnt E w'.cnt E') :
    PgGood c0 base B E' { s with w := w' } :=
  ⟨hw, fun f e he => (h.var f e he).mono hx, h.flag⟩

/-- The literals of a clause (specification). -/
def ClauseLits (lits : Formula → List Lit) : Prop := ∀ f l, IsClause f → (l ∈ lits f ↔ f = .lit l ∨ ∃ fs, f = .nary .disj fs ∧ .lit l ∈ fs)

theorem clauseLits_fn : ClauseLits fun c => fnLits.val c := by
  intro f l hf
  rw [(lits_val f).1 l]
  constructor
  · intro h
    cases hf with
    | tru => cases h with | op ho _ => simp [Formula.operands] at ho
    | fls => cases h with | op ho _ => simp [Formula.operands] at ho
    | lit k =>
      cases h with
      | lit => exact .inl rfl
      | op ho _ => simp [Formula.operands] at ho
    | @or fs hfs =>
      cases h with
      | op ho h' =>
        simp only [Formula.operands] at ho
        obtain ⟨k, rfl⟩ := hfs _ ho
        cases h' with
        | lit => exact .inr ⟨fs, rfl, ho⟩
        | op ho' _ => simp [Formula.operands] at ho'
  · rintro (rfl | ⟨fs, rfl, h⟩)
    · exact .lit
    · exact .op (by simpa [Formula.operands] using h) .lit

theorem clause_eval {lits : Formula → List Lit} (hl : ClauseLits lits) {f : Formula} (hf : IsClause f) (ht : f ≠ .tru) (σ : Asg) : Clause.Sat σ (lits f) ↔ f.eval σ = true := by
  unfold Clause.Sat
  simp only [hl f _ hf]
  cases hf with
  | tru => exact absurd rfl ht
  | fls => simp
  | lit k => simp
  | @or fs hfs =>
    rw [Formula.eval_nary]
    simp only [Op.eval, List.any_eq_true, reduceCtorEq, false_or]
    constructor
    · rintro ⟨l, ⟨gs, hg, hm⟩, he⟩
      injection hg with _ hg
      subst hg
      exact ⟨_, hm, by simpa using he⟩
    · rintro ⟨g, hg, he⟩
      obtain ⟨l, rfl⟩ := hfs g hg
      exact ⟨l, ⟨fs, rfl, hg⟩, by simpa using he⟩

/-- The clauses of a CNF say the same as the CNF. -/
theorem cnfClauses_ok {lits : Formula → List Lit} (hl : ClauseLits lits) {g : Formula} (hc : IsCnf g) (hn : g.Norm) :
    ∃ L, cnfClauses lits g = some L ∧ ∀ σ, LSat σ L ↔ g.eval σ = true := by
  have one : ∀ f : Formula, IsClause f → f ≠ .tru → ∀ σ, LSat σ [lits f] ↔ f.eval σ = true := by
    intro f hf ht σ
    rw [← clause_eval hl hf ht]
    exact ⟨fun h => h _ (by simp), fun h c hc => by rw [List.mem_singleton.1 hc]; exact h⟩
  cases hc with
  | clause h =>
    cases h with
    | tru => exact ⟨[], rfl, fun σ => by simp [LSat]⟩
    | fls => exact ⟨_, rfl, one _ .fls (by simp)⟩
    | lit l => exact ⟨_, rfl, one _ (.lit l) (by simp)⟩
    | or h => exact ⟨_, rfl, one _ (.or h) (by simp)⟩
  | @and fs h =>
    refine ⟨_, rfl, fun σ => ?_⟩
    rw [Formula.eval_nary]
    have hne : ∀ f ∈ fs, f ≠ .tru := by
      rintro f hf rfl
      cases hn with
      | nary _ _ hg => exact absurd (hg.notConst _ hf) (by simp [Formula.isConst])
    simp only [LSat, Op.eval, List.all_eq_true, List.mem_map, forall_exists_index, and_imp, forall_apply_eq_imp_iff₂]
    exact forall₂_congr fun f hf => clause_eval hl (h f hf) (hne f hf) σ

theorem PgGood.moreAll {c0 base B E s} (h : PgGood c0 base B E s) (L : List Clause) : PgGood c0 base B E { s with out := s.out ++ L } := by
  refine ⟨h.w, h.var, fun f e pol he hB hf σ hs => h.flag f e pol he hB hf σ fun d hd => hs d ?_⟩
  simp only [← List.append_assoc]
  exact List.mem_append_left _ hd

/-- Formulas of the factory without constraints, but constants, are fit for the transformation. -/
theorem pgNode_sub {f : Formula} (hn : f.Norm) (hc : f.isConst = false) (hno : NoCon f) : ∀ g, Sub g f → PgNode g := by
  intro g hg
  refine ⟨?_, fun h => ?_⟩
  · induction hg with
    | refl => exact hc
    | @op o f hop hsub ih =>
      refine ih (norm_operands hn _ hop) ?_ (hno.sub (op_sub hop))
      cases hn with
      | tru => simp [Formula.operands] at hop
      | fls => simp [Formula.operands] at hop
      | lit => simp [Formula.operands] at hop
      | cc => simp [Formula.operands] at hop
      | pbc => simp [Formula.operands] at hop
      | not _ h _ _ => simp only [Formula.operands, List.mem_singleton] at hop; rw [hop]; exact h
      | impl _ _ h1 h2 _ => simp only [Formula.operands, List.mem_cons, List.not_mem_nil, or_false] at hop; rcases hop with e | e <;> rw [e] <;> assumption
      | equiv _ _ h1 h2 _ => simp only [Formula.operands, List.mem_cons, List.not_mem_nil, or_false] at hop; rcases hop with e | e <;> rw [e] <;> assumption
      | nary _ _ h => exact h.notConst _ (by simpa [Formula.operands] using hop)
  · rcases h with ⟨c, rfl⟩ | ⟨p, rfl⟩
    · exact (hno _ hg).1 c rfl
    · exact (hno _ hg).2 p rfl

/-- Nothing is in progress. -/
def idle : Formula → Bool → Prop := fun _ _ => False

/-- `add_cnf_to_solver`. -/
theorem addCnfToSolver_ok {C : Canon} {cfg : FCfg} (hcfg : cfg.cc.Good) {c0 base E s} (h : PgGood c0 base idle E s) (full : Bool) {f : Formula} (hp : PTop cfg s.w.cnt f) :
    ∃ s' E', addCnfToSolver C cfg full f s = some s' ∧ PgGood c0 base idle E' s' ∧ PgMove (fun σ => f.eval σ = true) E s E' s' ∧
      ∀ σ, LSat σ (base ++ s'.out) → f.eval σ = true := by
  -- the working formula
  have hwork : ∃ g w1 E1, (if (!full || (f.containsPbc false fun _ => none).1 == some true) = true then nnf C cfg f s.w else some (f, s.w)) = some (g, w1) ∧ WInv c0 w1 E1 ∧ GExt s.w.cnt E w1.cnt E1 ∧
      g.Norm ∧ NoCon g ∧ (∀ v, Occ v g → (cER w1.cnt).Old v) ∧ (∀ σ, g.eval σ = true → f.eval σ = true) ∧ (∀ σ, EncOk E1 σ → f.eval σ = true → g.eval σ = true) := by
    by_cases hb : (!full || (f.containsPbc false fun _ => none).1 == some true) = true
    · rw [if_pos hb]
      obtain ⟨n, w1, E1, e1, h1, x1, k1⟩ := nnf_ok (C := C) hcfg h.w hp
      exact ⟨n, w1, E1, e1, h1, x1, k1.norm, isNnf_noCon k1.shape, k1.old, k1.sound, k1.compl⟩
    · rw [if_neg hb]
      refine ⟨f, s.w, E, rfl, h.w, GExt.refl _ _, hp.1, ?_, hp.2.2, fun _ h => h, fun _ _ h => h⟩
      obtain ⟨b, e, hiff⟩ := C51_contains_pbc (on := false) .empty f
      have hbf : b ≠ true := by
        rintro rfl
        rw [e] at hb
        simp at hb
      intro g hg
      exact ⟨fun c e' => hbf (hiff.2 ⟨g, hg, .inr ⟨c, e'⟩⟩), fun p e' => hbf (hiff.2 ⟨g, hg, .inl ⟨p, e'⟩⟩)⟩
  obtain ⟨g, w1, E1, e1, hw1, x1, hgn, hgc, hgo, hs, hcpl⟩ := hwork
  have g1 : PgGood c0 base idle E1 { s with w := w1 } := h.world hw1 x1
  have m1 : PgMove (fun σ => f.eval σ = true) E s E1 { s with w := w1 } := ⟨x1, fun _ e h => ⟨e, h, rfl⟩, [], by simp, fun _ _ _ _ h => by cases h⟩
  unfold addCnfToSolver
  simp only [e1]
  by_cases hc : g.isCnfF = true
  · rw [if_pos hc]
    obtain ⟨L, eL, hL⟩ := cnfClauses_ok clauseLits_fn ((isCnfF_iff hgn).1 hc) hgn
    refine ⟨{ s with w := w1, out := s.out ++ L }, E1, by rw [eL]; rfl, g1.moreAll L, m1.trans ⟨GExt.refl _ _, fun _ e h => ⟨e, h, rfl⟩, L, rfl, fun σ ho ht => (hL σ).2 (hcpl σ ho ht)⟩, fun σ h => hs σ ((hL σ).1 fun c hc => h c ?_)⟩
    simp [hc]
  · rw [if_neg hc]
    have hconst : g.isConst = false := by
      cases hg : g with
      | tru => rw [hg] at hc; exact absurd ((isCnfF_iff .tru).2 (.clause .tru)) hc
      | fls => rw [hg] at hc; exact absurd ((isCnfF_iff .fls).2 (.clause .fls)) hc
      | _ => rfl
    obtain ⟨r, s2, E2, e2, g2, m2, r2⟩ := pgC_ok (c0 := c0) (base := base) g true true { s with w := w1 } E1 idle g1 (pgNode_sub hgn hconst hgc) hgo (fun _ _ _ h => h)
    rw [e2]
    obtain ⟨s3, e3, g3, m3, r3⟩ := addOp_ok (x := none) g2 r2 (fun _ => rfl)
    refine ⟨s3, E2, ?_, g3, ?_, fun σ h' => ?_⟩
    · cases r with
      | none => simpa [PgS.addOp] using e3
      | some c => simpa [PgS.addOp] using e3
    · have hx : ∀ σ, EncOk E2 σ → f.eval σ = true → g.eval σ = true := fun σ ho => hcpl σ (m2.ext.ok ho)
      obtain ⟨L, h1, h2⟩ := (m2.trans (m3.imp (T' := fun σ => true = true → g.eval σ = true) fun σ ht => .inr (ht rfl))).new
      exact m1.trans ⟨m2.ext.trans m3.ext, (m2.trans (m3.imp (T' := fun σ => true = true → g.eval σ = true) fun σ ht => .inr (ht rfl))).keep, L, h1, fun σ ho ht => h2 σ ho fun _ => hx σ ho ht⟩
    · refine hs σ ?_
      rcases r3 σ h' with ⟨_, hl, _⟩ | h
      · cases hl
      · exact h

end Verif
