import Verif.F.FactoryOps

/-
Sequences of factory calls.
-/
namespace Verif
open Formula (Norm mkNot mkNary mkNeg mkImpl mkEquiv AccOk)

/-- The factory calls a client can make. -/
inductive Cmd
  | verum
  | falsum
  | var (name : String)
  | lit (name : String) (phase : Bool)
  | aux (t : AuxTy)
  | nary (o : Op) (hs : List H)
  | not (h : H)
  | negate (h : H)
  | impl (l r : H)
  | equiv (l r : H)
  | cc (c : Cmp) (rhs : Nat) (vs : List Var)
  | pbc (c : Cmp) (rhs : Int) (ts : List (Lit × Int))

/-- The handles a call is given. -/
def Cmd.args : Cmd → List H
  | .nary _ hs => hs
  | .not h => [h]
  | .negate h => [h]
  | .impl l r => [l, r]
  | .equiv l r => [l, r]
  | _ => []

/-- The numbers a call is given are in the range of their Rust types, and the right-hand
side of a pseudo-Boolean constraint which is going to be stored as a cardinality constraint
fits 32 bits (see `C08_rhs_truncated` for what happens otherwise). -/
def Cmd.Pre : Cmd → Prop
  | .cc _ rhs _ => rhs < 2 ^ 32
  | .pbc _ rhs ts => I64 rhs ∧ (∀ t ∈ ts, I64 t.2) ∧ Formula.RhsFits rhs ts
  | _ => True

namespace FF

/-- `FormulaFactory::literal`, formula_factory.rs:591-593. -/
def literal (s : FF) (name : String) (phase : Bool) : FF × H :=
  let (s', h) := s.mkVar name
  (s', H.ofLit ⟨.named h.idx, phase⟩)

/-- One call; `none` is a panic.  The recursion of `filter_flatten` needs depth 2. -/
def call (s : FF) : Cmd → Option (FF × H)
  | .verum => some (s, H.verum)
  | .falsum => some (s, H.falsum)
  | .var name => some (s.mkVar name)
  | .lit name phase => some (s.literal name phase)
  | .aux t => (s.newAux t).map fun p => (p.1, H.ofLit p.2.p)
  | .nary o hs => s.nary 2 o hs
  | .not h => s.not 2 h
  | .negate h => s.negate 2 h
  | .impl l r => s.implication 2 l r
  | .equiv l r => s.equivalence 2 l r
  | .cc c rhs vs => s.cc c rhs vs
  | .pbc c rhs ts => some (s.pbc c rhs ts)

end FF

/-- States reachable by factory calls, with the handles returned so far; the client only
passes handles it got from this factory. -/
inductive Run : FF → List H → Prop
  | start : Run FF.empty []
  | step {s pool c s' r} : Run s pool → (∀ h ∈ c.args, h ∈ pool) → c.Pre → s.call c = some (s', r) → Run s' (r :: pool)

/-- Later states of the same factory. -/
inductive Later : FF → FF → Prop
  | refl {s} : Later s s
  | step {s s' s'' c r} : Later s s' → s'.call c = some (s'', r) → Later s s''

/-- All tables and counters are within 2^26. -/
structure Small (s : FF) : Prop extends SmallFF s where
  vars : s.vars.vec.length ≤ 2 ^ 26
  cnt : ∀ t, s.cnt t ≤ 2 ^ 26

theorem Small.anti {s s' : FF} (e : Ext s s') (h : Small s') : Small s :=
  ⟨h.toSmallFF.anti e, Nat.le_trans e.vars.length_le h.vars, fun t => Nat.le_trans (e.cnt t) (h.cnt t)⟩

/-! ### Every call only extends the state -/

theorem pbc_ext {s s' : FF} {c rhs ts r} (h : some (s.pbc c rhs ts) = some (s', r)) : Ext s s' := by
  have e : s.pbc c rhs ts = (s', r) := Option.some.inj h
  have := leaf_ext s (Formula.mkPbc c rhs ts)
  rw [show s.leaf (Formula.mkPbc c rhs ts) = (s', r) from e] at this
  exact this

theorem negConstraint_ext {fuel : Nat} {s s' : FF} {c rhs ts r} (h : s.negConstraint fuel c rhs ts = some (s', r)) : Ext s s' := by
  unfold FF.negConstraint at h
  cases c <;> simp only at h
  · exact ((leaf_ext s _).trans (leaf_ext _ _)).trans (nary_ext h)
  all_goals exact pbc_ext h

theorem negate_ext {fuel : Nat} {s s' : FF} {x r} (h : s.negate fuel x = some (s', r)) : Ext s s' := by
  unfold FF.negate at h
  split at h
  · simp at h
  · exact negConstraint_ext h
  · exact negConstraint_ext h
  all_goals cases h
  · exact insNot_ext s x
  · exact insNot_ext s x
  · exact insNot_ext s x
  all_goals exact Ext.refl s

theorem not_ext {fuel : Nat} {s s' : FF} {x r} (h : s.not fuel x = some (s', r)) : Ext s s' := by
  unfold FF.not at h
  split at h
  · exact negate_ext h
  · exact negate_ext h
  · exact negate_ext h
  · exact negate_ext h
  · cases h; exact insNot_ext s x

theorem implication_ext {fuel : Nat} {s s' : FF} {x y r} (h : s.implication fuel x y = some (s', r)) : Ext s s' := by
  unfold FF.implication at h
  split at h
  · cases h; exact Ext.refl s
  split at h
  · cases h; exact Ext.refl s
  split at h
  · exact not_ext h
  split at h
  · cases h; exact Ext.refl s
  split at h
  · simp at h
  · rename_i s1 n hn
    split at h
    · cases h; exact negate_ext hn
    · cases h; exact (negate_ext hn).trans (ext_impl s1 x y)

theorem equivalence_ext {fuel : Nat} {s s' : FF} {x y r} (h : s.equivalence fuel x y = some (s', r)) : Ext s s' := by
  unfold FF.equivalence at h
  split at h
  · cases h; exact Ext.refl s
  split at h
  · exact not_ext h
  split at h
  · cases h; exact Ext.refl s
  split at h
  · exact not_ext h
  split at h
  · cases h; exact Ext.refl s
  split at h
  · simp at h
  · rename_i s1 n hn
    split at h
    · cases h; exact negate_ext hn
    · cases h; exact (negate_ext hn).trans (ext_equiv s1 x y)

theorem mkVar_ext (s : FF) (n) : Ext s (s.mkVar n).1 :=
  ⟨Cache.vec_prefix .., fun _ => List.prefix_rfl, fun _ => List.prefix_rfl, fun _ => List.prefix_rfl,
    fun _ => List.prefix_rfl, fun _ => List.prefix_rfl, List.prefix_rfl, List.prefix_rfl, fun _ => Nat.le_refl _⟩

theorem newAux_ext {s s' : FF} {t v} (h : s.newAux t = some (s', v)) : Ext s s' := by
  unfold FF.newAux at h
  split at h
  · simp at h
  · cases h
    refine ⟨List.prefix_rfl, fun _ => List.prefix_rfl, fun _ => List.prefix_rfl, fun _ => List.prefix_rfl,
      fun _ => List.prefix_rfl, fun _ => List.prefix_rfl, List.prefix_rfl, List.prefix_rfl, fun t' => ?_⟩
    simp only
    split <;> omega

theorem call_ext {s s' : FF} {c r} (h : s.call c = some (s', r)) : Ext s s' := by
  cases c <;> simp only [FF.call] at h
  · cases h; exact Ext.refl s
  · cases h; exact Ext.refl s
  · cases h; exact mkVar_ext s _
  · cases h; exact mkVar_ext s _
  · obtain ⟨p, hp, e⟩ := Option.map_eq_some_iff.1 h
    cases e; exact newAux_ext hp
  · exact nary_ext h
  · exact not_ext h
  · exact negate_ext h
  · exact implication_ext h
  · exact equivalence_ext h
  · unfold FF.cc at h
    obtain ⟨p, hp, e⟩ := Option.map_eq_some_iff.1 h
    have := leaf_ext s p
    rw [e] at this; exact this
  · exact pbc_ext h

theorem Later.ext {s s' : FF} (h : Later s s') : Ext s s' := by
  induction h with
  | refl => exact Ext.refl _
  | step _ hc ih => exact ih.trans (call_ext hc)

/-! ### The invariant holds in every reachable state -/

theorem wf_vars {s : FF} (w : s.Wf) {c : Cache String} (hc : CInv (fun a b => a == b) (.lit true .ff) true c) :
    FF.Wf { s with vars := c } ∧ ∀ h f, Den s h f → Den { s with vars := c } h f := by
  have hu : ∀ h, FF.unpack { s with vars := c } h = s.unpack h := by
    rintro ⟨ty, j, lg⟩
    cases ty <;> first | rfl | (rename_i p t; cases p <;> cases t <;> rfl)
  have key : ∀ (s1 s2 : FF) (hu : ∀ h, s2.unpack h = s1.unpack h) (f : Formula) (h : H), Den s1 h f → Den s2 h f := by
    intro s1 s2 hu f
    induction f using Formula.ind with
    | tru => intro h hd; simpa [Den] using hd
    | fls => intro h hd; simpa [Den] using hd
    | lit l => intro h hd; simpa [Den] using hd
    | not f ih => intro h hd; simp only [Den] at hd ⊢; obtain ⟨g, h1, h2⟩ := hd; exact ⟨g, hu h ▸ h1, ih _ h2⟩
    | impl a b iha ihb =>
      intro h hd; simp only [Den] at hd ⊢; obtain ⟨x, y, h1, h2, h3⟩ := hd; exact ⟨x, y, hu h ▸ h1, iha _ h2, ihb _ h3⟩
    | equiv a b iha ihb =>
      intro h hd; simp only [Den] at hd ⊢; obtain ⟨x, y, h1, h2, h3⟩ := hd; exact ⟨x, y, hu h ▸ h1, iha _ h2, ihb _ h3⟩
    | nary o fs ih =>
      intro h hd; simp only [Den] at hd ⊢; obtain ⟨x, h1, h2⟩ := hd
      exact ⟨x, hu h ▸ h1, dens_mono_of (fun f hf h => ih f hf h) x h2⟩
    | cc c => intro h hd; simp only [Den] at hd ⊢; rw [hu]; exact hd
    | pbc c => intro h hd; simp only [Den] at hd ⊢; rw [hu]; exact hd
  refine ⟨{ toTabs := { w.toTabs with vars := hc }, ent := ?_, cnf := ?_, cnfOld := ?_ }, fun h f => key _ _ hu f h⟩
  · intro h n hn hs
    obtain ⟨f, hd, hf⟩ := w.ent h n (hu h ▸ hn) hs
    exact ⟨f, key _ _ hu f h hd, hf⟩
  · intro h o fs hd
    exact w.cnf h o fs (key _ _ (fun h => (hu h).symm) _ h hd)
  · intro h hh
    obtain ⟨n, hn⟩ := w.cnfOld h hh
    exact ⟨n, (hu h).trans hn⟩

theorem wf_cnt {s : FF} (w : s.Wf) (c : AuxTy → Nat) : FF.Wf { s with cnt := c } := by
  have hu : ∀ h, FF.unpack { s with cnt := c } h = s.unpack h := by
    rintro ⟨ty, j, lg⟩
    cases ty <;> first | rfl | (rename_i p t; cases p <;> cases t <;> rfl)
  have e1 : ∀ h f, Den s h f → Den { s with cnt := c } h f := by
    intro h f hd
    have : Ext s { s with cnt := fun t => max (s.cnt t) (c t) } :=
      ⟨List.prefix_rfl, fun _ => List.prefix_rfl, fun _ => List.prefix_rfl, fun _ => List.prefix_rfl,
        fun _ => List.prefix_rfl, fun _ => List.prefix_rfl, List.prefix_rfl, List.prefix_rfl, fun _ => by simp only; omega⟩
    have h2 : Ext { s with cnt := fun _ => 0 } { s with cnt := c } :=
      ⟨List.prefix_rfl, fun _ => List.prefix_rfl, fun _ => List.prefix_rfl, fun _ => List.prefix_rfl,
        fun _ => List.prefix_rfl, fun _ => List.prefix_rfl, List.prefix_rfl, List.prefix_rfl, fun _ => by simp only; omega⟩
    refine h2.den ?_
    revert h
    induction f using Formula.ind with
    | tru => intro h hd; simpa [Den] using hd
    | fls => intro h hd; simpa [Den] using hd
    | lit l => intro h hd; simpa [Den] using hd
    | not f ih => intro h hd; simp only [Den] at hd ⊢; obtain ⟨g, h1, h2⟩ := hd; exact ⟨g, h1, ih _ h2⟩
    | impl a b iha ihb =>
      intro h hd; simp only [Den] at hd ⊢; obtain ⟨x, y, h1, h2, h3⟩ := hd; exact ⟨x, y, h1, iha _ h2, ihb _ h3⟩
    | equiv a b iha ihb =>
      intro h hd; simp only [Den] at hd ⊢; obtain ⟨x, y, h1, h2, h3⟩ := hd; exact ⟨x, y, h1, iha _ h2, ihb _ h3⟩
    | nary o fs ih =>
      intro h hd; simp only [Den] at hd ⊢; obtain ⟨x, h1, h2⟩ := hd
      exact ⟨x, h1, dens_mono_of (fun f hf h => ih f hf h) x h2⟩
    | cc c => intro h hd; simp only [Den] at hd ⊢; exact hd
    | pbc c => intro h hd; simp only [Den] at hd ⊢; exact hd
  refine { toTabs := { w.toTabs with }, ent := ?_, cnf := ?_, cnfOld := ?_ }
  · intro h n hn hs
    obtain ⟨f, hd, hf⟩ := w.ent h n (hu h ▸ hn) hs
    exact ⟨f, e1 h f hd, hf⟩
  · intro h o fs hd
    have hst : ∃ n, FF.unpack { s with cnt := c } h = some n := by
      obtain ⟨n, hn, _⟩ := den_unpack hd; exact ⟨n, hn⟩
    obtain ⟨n, hn⟩ := hst
    have hty : h.ty.stored = true := by
      simp only [Den] at hd
      obtain ⟨hs, hu', _⟩ := hd
      have := ((FF.unpack_nary_iff w h o hs).1 (hu h ▸ hu')).1
      rw [this]; cases o <;> rfl
    obtain ⟨f, hdf, _⟩ := w.ent h n (hu h ▸ hn) hty
    have := den_fun (e1 h f hdf) hd
    subst this
    exact w.cnf h o fs hdf
  · intro h hh
    obtain ⟨n, hn⟩ := w.cnfOld h hh
    exact ⟨n, (hu h).trans hn⟩

/-- What a call makes, as a function of the trees it is given (specification: the
constructors on trees). -/
def Cmd.Spec (s s' : FF) (r : H) : Cmd → Prop
  | .verum => r = H.verum
  | .falsum => r = H.falsum
  | .var name => ∃ i, s'.vars.vec[i]? = some name ∧ Den s' r (.lit (Var.p (.named i)))
  | .lit name phase => ∃ i, s'.vars.vec[i]? = some name ∧ Den s' r (.lit ⟨.named i, phase⟩)
  | .aux t => Den s' r (.lit (Var.p (.aux t (s.cnt t))))
  | .nary o hs => ∀ fs, Dens s hs fs → ∀ s'', s''.Wf → Ext s' s'' → Den s'' r (mkNary (canonOf s'') o fs)
  | .not h => ∀ f, Den s h f → Den s' r (mkNot f)
  | .negate h => ∀ f, Den s h f → ∀ s'', s''.Wf → Ext s' s'' → Den s'' r (mkNeg (canonOf s'') f)
  | .impl x y => ∀ f g, Den s x f → Den s y g →
      ∀ s'', s''.Wf → Ext s' s'' → Den s'' r (mkImpl (canonOf s'') f g)
  | .equiv x y => ∀ f g, Den s x f → Den s y g →
      ∀ s'', s''.Wf → Ext s' s'' → Den s'' r (mkEquiv (canonOf s'') f g)
  | .cc c rhs vs => ∃ f, Formula.mkCc c rhs vs = some f ∧ Den s' r f
  | .pbc c rhs ts => Den s' r (Formula.mkPbc c rhs ts)

theorem valid_of_made {s s' : FF} {r : H} {f : Formula} (h : Made s s' r f) (sm : SmallFF s') : Valid s' r f :=
  ⟨h.den, h.norm, h.idx sm⟩

theorem Calls.valid {s s' : FF} {r : H} {F : Canon → Formula} (h : Calls s (some (s', r)) F) (sm : SmallFF s') :
    s'.Wf ∧ Valid s' r (F (canonOf s')) ∧ ∀ s'', s''.Wf → Ext s' s'' → Den s'' r (F (canonOf s'')) := by
  obtain ⟨s1, r1, e, h2, h3⟩ := h
  cases e
  obtain ⟨f, hm, hC⟩ := h3 sm
  refine ⟨hm.wf, ?_, fun s'' w'' e'' => ?_⟩
  · rw [hC s' hm.wf (Ext.refl _)]
    exact valid_of_made hm sm
  · rw [hC s'' w'' e'']
    exact e''.den hm.den

theorem mkVar_spec {s : FF} (w : s.Wf) (n : String) (hl : (s.mkVar n).1.vars.vec.length ≤ 2 ^ 26) :
    (s.mkVar n).1.Wf ∧ ∃ i, (s.mkVar n).1.vars.vec[i]? = some n ∧ (s.mkVar n).2 = ⟨.lit true .ff, i, true⟩ ∧ i < 2 ^ 26 := by
  obtain ⟨i, a, e1, e2, e3, e4, _⟩ := w.vars.getOrInsert isEqv_beq n
  obtain rfl : a = n := by simpa using e3
  exact ⟨(wf_vars w e4).1, i, e2, e1, lt_of_getElem? e2 hl⟩

theorem dens_of_valid {s : FF} : ∀ {hs : List H}, (∀ h ∈ hs, ∃ f, Valid s h f) →
    ∃ fs, Dens s hs fs ∧ ∀ f ∈ fs, Norm f
  | [], _ => ⟨[], by simp [Dens], by simp⟩
  | h :: hs, hv => by
    obtain ⟨f, v⟩ := hv h (by simp)
    obtain ⟨fs, h1, h2⟩ := dens_of_valid (hs := hs) fun x hx => hv x (by simp [hx])
    refine ⟨f :: fs, by simp only [Dens]; exact ⟨v.den, h1⟩, ?_⟩
    intro g hg
    rcases List.mem_cons.1 hg with rfl | hg
    · exact v.norm
    · exact h2 g hg

theorem den_ofLit_eq {s : FF} (l : Lit) : Den s (H.ofLit l) (.lit l) := by simp [Den]

/-- One call from a good state leads to a good state and makes what it should. -/
theorem call_spec {s s' : FF} {r : H} {c : Cmd} (w : s.Wf) (hargs : ∀ h ∈ c.args, ∃ f, Valid s h f) (hp : c.Pre)
    (h : s.call c = some (s', r)) (sm : Small s') : s'.Wf ∧ (∃ f, Valid s' r f) ∧ c.Spec s s' r := by
  have sm' := sm.toSmallFF
  cases c with
  | verum => cases h; exact ⟨w, ⟨_, valid_tru s⟩, rfl⟩
  | falsum => cases h; exact ⟨w, ⟨_, valid_fls s⟩, rfl⟩
  | var name =>
    simp only [FF.call, Option.some.injEq] at h
    have hl := sm.vars
    have h1 : s' = (s.mkVar name).1 := by rw [h]
    have h2 : r = (s.mkVar name).2 := by rw [h]
    subst h1 h2
    obtain ⟨w', i, e1, e2, e3⟩ := mkVar_spec w name hl
    refine ⟨w', ⟨.lit (Var.p (.named i)), ?_, .lit _, by rw [e2]; exact e3⟩, i, e1, ?_⟩ <;>
      (rw [e2]; simp [Den, H.ofLit, Var.p])
  | lit name phase =>
    simp only [FF.call, FF.literal, Option.some.injEq, Prod.mk.injEq] at h
    obtain ⟨rfl, rfl⟩ := h
    obtain ⟨w', i, e1, e2, e3⟩ := mkVar_spec w name sm.vars
    rw [e2]
    exact ⟨w', ⟨_, den_ofLit_eq _, .lit _, e3⟩, i, e1, den_ofLit_eq _⟩
  | aux t =>
    simp only [FF.call] at h
    obtain ⟨p, hp', e⟩ := Option.map_eq_some_iff.1 h
    have hc := sm.cnt t
    unfold FF.newAux at hp'
    split at hp'
    · simp at hp'
    · cases hp'
      cases e
      simp only [if_true] at hc
      refine ⟨wf_cnt w _, ⟨.lit (Var.p (.aux t (s.cnt t))), den_ofLit_eq _, .lit _, ?_⟩, ?_⟩
      · simp only [H.ofLit, Var.p]
        omega
      · simp [Cmd.Spec, Den]
  | nary o hs =>
    simp only [FF.call] at h
    have hargs : ∀ h ∈ hs, ∃ f, Valid s h f := hargs
    obtain ⟨fs, hd, hn⟩ := dens_of_valid hargs
    have hc := nary_calls w (o := o) 0 hd (fun _ x hx => (hargs x hx).choose_spec.idx) hn
    rw [h] at hc
    obtain ⟨w', v, hl⟩ := hc.valid sm'
    refine ⟨w', ⟨_, v⟩, ?_⟩
    intro gs hg
    rw [← dens_fun hd hg]; exact hl
  | not x =>
    simp only [FF.call] at h
    obtain ⟨f, vx⟩ := hargs x (by simp [Cmd.args])
    have hc := not_calls w 0 vx
    rw [h] at hc
    obtain ⟨w', v, hl⟩ := hc.valid sm'
    refine ⟨w', ⟨_, v⟩, ?_⟩
    intro g hg
    rw [← den_fun vx.den hg]; exact v.den
  | negate x =>
    simp only [FF.call] at h
    obtain ⟨f, vx⟩ := hargs x (by simp [Cmd.args])
    have hc := negate_calls w 0 vx
    rw [h] at hc
    obtain ⟨w', v, hl⟩ := hc.valid sm'
    refine ⟨w', ⟨_, v⟩, ?_⟩
    intro g hg
    rw [← den_fun vx.den hg]; exact hl
  | impl x y =>
    simp only [FF.call] at h
    obtain ⟨f, vx⟩ := hargs x (by simp [Cmd.args])
    obtain ⟨g, vy⟩ := hargs y (by simp [Cmd.args])
    have hc := implication_calls w 0 vx vy
    rw [h] at hc
    obtain ⟨w', v, hl⟩ := hc.valid sm'
    refine ⟨w', ⟨_, v⟩, ?_⟩
    intro f' g' hf hg
    rw [← den_fun vx.den hf, ← den_fun vy.den hg]; exact hl
  | equiv x y =>
    simp only [FF.call] at h
    obtain ⟨f, vx⟩ := hargs x (by simp [Cmd.args])
    obtain ⟨g, vy⟩ := hargs y (by simp [Cmd.args])
    have hc := equivalence_calls w 0 vx vy
    rw [h] at hc
    obtain ⟨w', v, hl⟩ := hc.valid sm'
    refine ⟨w', ⟨_, v⟩, ?_⟩
    intro f' g' hf hg
    rw [← den_fun vx.den hf, ← den_fun vy.den hg]; exact hl
  | cc c rhs vs =>
    simp only [FF.call, FF.cc] at h
    obtain ⟨f, hf, e⟩ := Option.map_eq_some_iff.1 h
    have hl : f.isLeaf = true := by
      unfold Formula.mkCc at hf
      split at hf
      · cases hf; exact isLeaf_constructCc ..
      · simp at hf
    have hm := leaf_made w hl (Formula.norm_mkCc hp hf)
    rw [e] at hm
    exact ⟨hm.wf, ⟨_, valid_of_made hm sm'⟩, f, hf, hm.den⟩
  | pbc c rhs ts =>
    simp only [FF.call, Option.some.injEq] at h
    obtain ⟨h1, h2, h3⟩ := hp
    have hm := pbc_made w (c := c) h3 h1 h2
    rw [h] at hm
    exact ⟨hm.wf, ⟨_, valid_of_made hm sm'⟩, hm.den⟩

/-- In every reachable state the invariant holds and all returned handles are good. -/
theorem Run.inv {s : FF} {pool : List H} (h : Run s pool) (sm : Small s) : s.Wf ∧ ∀ x ∈ pool, ∃ f, Valid s x f := by
  induction h with
  | start => exact ⟨FF.wf_empty, by simp⟩
  | step hr ha hp hc ih =>
    have e := call_ext hc
    obtain ⟨w, hv⟩ := ih (sm.anti e)
    obtain ⟨w', v', _⟩ := call_spec w (fun x hx => hv x (ha x hx)) hp hc sm
    refine ⟨w', ?_⟩
    intro x hx
    rcases List.mem_cons.1 hx with rfl | hx
    · exact v'
    · obtain ⟨f, v⟩ := hv x hx
      exact ⟨f, v.mono e⟩

/-- Calls with handles of this factory do not panic. -/
theorem call_total {s : FF} {c : Cmd} (w : s.Wf) (hargs : ∀ h ∈ c.args, ∃ f, Valid s h f)
    (hcc : ∀ k rhs vs, c = .cc k rhs vs → Formula.isCc k rhs = true) (haux : c ≠ .aux .tmp) :
    ∃ s' r, s.call c = some (s', r) := by
  cases c with
  | aux t =>
    have : t ≠ .tmp := fun h => haux (by rw [h])
    simp [FF.call, FF.newAux, this]
  | nary o hs =>
    obtain ⟨fs, hd, hn⟩ := dens_of_valid hargs
    exact nary_total w 0 hd hn
  | not x =>
    obtain ⟨f, vx⟩ := hargs x (by simp [Cmd.args])
    obtain ⟨s', r, h, _⟩ := not_calls w 0 vx
    exact ⟨s', r, h⟩
  | negate x =>
    obtain ⟨f, vx⟩ := hargs x (by simp [Cmd.args])
    obtain ⟨s', r, h, _⟩ := negate_calls w 0 vx
    exact ⟨s', r, h⟩
  | impl x y =>
    obtain ⟨f, vx⟩ := hargs x (by simp [Cmd.args])
    obtain ⟨g, vy⟩ := hargs y (by simp [Cmd.args])
    obtain ⟨s', r, h, _⟩ := implication_calls w 0 vx vy
    exact ⟨s', r, h⟩
  | equiv x y =>
    obtain ⟨f, vx⟩ := hargs x (by simp [Cmd.args])
    obtain ⟨g, vy⟩ := hargs y (by simp [Cmd.args])
    obtain ⟨s', r, h, _⟩ := equivalence_calls w 0 vx vy
    exact ⟨s', r, h⟩
  | cc k rhs vs =>
    have := hcc k rhs vs rfl
    exact ⟨_, _, by simp only [FF.call, FF.cc, Formula.mkCc, this, if_true, Option.map_some]; rfl⟩
  | _ => exact ⟨_, _, rfl⟩

end Verif
