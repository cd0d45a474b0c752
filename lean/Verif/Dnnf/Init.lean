import Verif.Dnnf.NoConf
import Verif.Sat.Session
import Verif.Props.Factory
/-
The start of the compiler: the clauses on the solver, and the decomposition tree.
-/
namespace Verif.Dnnf
open Verif.Sat Verif.Formula

/-! ### The tree has the clauses as leaves -/

namespace DTree

theorem compose_leaves (n : Nat) : ∀ (ts : List DTree) {t : DTree}, compose n ts = some t → t.leaves = ts.flatMap leaves := by
  induction n with
  | zero => intro ts t e; cases ts <;> simp [compose] at e
  | succ n ih =>
    intro ts t e
    match ts, e with
    | [], e => simp [compose] at e
    | [u], e => simp only [compose, Option.some.injEq] at e; subst e; simp
    | u :: w :: ts, e =>
      simp only [compose] at e
      split at e
      · next l r e1 e2 =>
        simp only [Option.some.injEq] at e
        subst e
        simp only [leaves]
        rw [ih _ e1, ih _ e2, ← List.flatMap_append, List.take_append_drop]
      · cases e

theorem eliminate_leaves {v : Nat} {σ σ' : List DTree} (e : eliminate v σ = some σ') : (σ'.flatMap leaves).Perm (σ.flatMap leaves) := by
  unfold eliminate at e
  simp only at e
  have hp : ((σ.filter fun t => !decide (v ∈ t.vars)) ++ σ.filter fun t => decide (v ∈ t.vars)).Perm σ :=
    List.perm_append_comm.trans (List.filter_append_perm (fun t => decide (v ∈ t.vars)) σ)
  split at e
  · rename_i hg
    simp only [Option.some.injEq] at e
    subst e
    rw [List.isEmpty_iff] at hg
    rw [hg, List.append_nil] at hp
    exact hp.flatMap_right _
  · obtain ⟨t, et, rfl⟩ := Option.map_eq_some_iff.1 e
    rw [List.flatMap_append, List.flatMap_singleton, compose_leaves _ _ et, ← List.flatMap_append]
    exact hp.flatMap_right _

theorem elimAll_leaves (vs : List Nat) : ∀ {σ σ' : List DTree}, elimAll vs σ = some σ' → (σ'.flatMap leaves).Perm (σ.flatMap leaves) := by
  induction vs with
  | nil => intro σ σ' e; simp only [elimAll, Option.some.injEq] at e; rw [e]
  | cons v vs ih =>
    intro σ σ' e
    obtain ⟨σ1, e1, e2⟩ := Option.bind_eq_some_iff.1 e
    exact (ih e2).trans (eliminate_leaves e1)

end DTree

/-- The clauses with their numbers. -/
def numbered (xs : List (List Nat)) : List (Nat × List Nat) := xs.zipIdx.map fun c => (c.2, c.1)

theorem mem_numbered {xs : List (List Nat)} {c : Nat × List Nat} : c ∈ numbered xs ↔ xs[c.1]? = some c.2 := by
  unfold numbered
  rw [List.mem_map]
  constructor
  · rintro ⟨⟨a, i⟩, h, rfl⟩
    exact List.mem_zipIdx_iff_getElem?.1 h
  · intro h
    exact ⟨(c.2, c.1), List.mem_zipIdx_iff_getElem?.2 h, rfl⟩

theorem numbered_mem {xs : List (List Nat)} {c : Nat × List Nat} (h : c ∈ numbered xs) : c.2 ∈ xs := List.mem_of_getElem? (mem_numbered.1 h)

theorem mem_of_numbered {xs : List (List Nat)} {x : List Nat} (h : x ∈ xs) : ∃ c ∈ numbered xs, c.2 = x := by
  obtain ⟨i, hi⟩ := List.mem_iff_getElem?.1 h
  exact ⟨(i, x), mem_numbered.2 hi, rfl⟩

theorem generate_leaves {cs : List (List Nat)} {o : List Nat} {t : DTree} (e : DTree.generate cs o = some t) : t.leaves.Perm (numbered cs) := by
  unfold DTree.generate at e
  obtain ⟨σ, e1, e2⟩ := Option.bind_eq_some_iff.1 e
  rw [DTree.compose_leaves _ _ e2]
  refine (DTree.elimAll_leaves _ e1).trans ?_
  rw [List.flatMap_map]
  have : ∀ l : List (List Nat × Nat), (l.flatMap fun c => (DTree.leaf c.2 c.1).leaves) = l.map fun c => (c.2, c.1) := by
    intro l
    induction l with
    | nil => rfl
    | cons a l ih => rw [List.flatMap_cons, ih]; rfl
  rw [this]
  exact .refl _

theorem minFillTree_leaves {vs nm : List Var} {cs : List (List Nat)} {t : DTree} (e : minFillTree vs nm cs = some t) : t.leaves.Perm (numbered cs) := by
  unfold minFillTree at e
  obtain ⟨o, _, e⟩ := Option.bind_eq_some_iff.1 e
  exact generate_leaves e

/-! ### The clauses on the solver -/

section
variable {F : Type} [LinearOrder F] [Flt F] {K : Canon} {C : Cfg F} {Φ : List (List Nat)}
open St

/-- Every clause of the solver comes from a given one, and every given one is on the solver or true at level 0. -/
structure Covers (Φ : List (List Nat)) (s : St F) : Prop where
  learnts : s.learnts = []
  c1 : ∀ id ∈ s.clauses, ∃ c ∈ Φ, (∀ l ∈ s.data id, l ∈ c) ∧ ∀ l ∈ c, l ∈ s.data id ∨ neg l ∈ s.trail
  c2 : ∀ c ∈ Φ, (∃ l ∈ c, l ∈ s.trail) ∨ ∃ id ∈ s.clauses, s.data id ≠ [] ∧ ∀ l ∈ s.data id, l ∈ c

/-- What `add_clause` does if the solver stays consistent. -/
structure Light (ps : List Nat) (s s' : St F) : Prop where
  trail : ∀ l ∈ s.trail, l ∈ s'.trail
  learnts : s'.learnts = s.learnts
  ps : (∃ l ∈ ps, l ∈ s'.trail) ∨ ∃ id ∈ s'.clauses, s'.data id ≠ [] ∧ ∀ l ∈ s'.data id, l ∈ ps

theorem addRest_light {s s' : St F} {b : Bool} {ps qs : List Nat} (h : Sat.Ready Φ C.incremental s) (hok : s.ok = true) (hr : ∀ l ∈ ps, l < 2 * s.nvars)
    (hq1 : ∀ e ∈ qs, e ∈ ps ∧ s.value e = none) (hent : Sat.Ent (Φ ++ [ps]) qs) (e : addRest C qs s = some (s', b)) (hok' : s'.ok = true) : Light ps s s' := by
  match qs, hq1, hent, e with
  | [], _, _, e =>
    simp only [addRest, Option.some.injEq, Prod.mk.injEq] at e
    rw [← e.1] at hok'; cases hok'
  | [l], hq1, hent, e =>
    obtain ⟨hl, hv⟩ := hq1 l (by simp)
    have hf := h.full hok
    have hi := hf.1.inv
    have hl1 : l ∉ s.trail := fun hm => by rw [(hi.val l).2 hm] at hv; cases hv
    have hl2 : neg l ∉ s.trail := fun hm => by rw [(hi.val_false l).2 hm] at hv; cases hv
    have henq : Inv (Φ ++ [ps]) C.incremental (s.units ++ [l]) s.qhead (s.toCore.enqueue l none) := by
      refine ((hi.mono_Φ fun c hc => List.mem_append_left _ hc).mono_U fun u hu => List.mem_append_left _ hu).enqueue hl1 hl2 (hr l hl) (fun id e => by cases e)
        (fun _ => .inl ⟨h.lim, fun _ => by simp⟩) (fun _ => hent)
    have hheap : HInv ({ s with toCore := s.toCore.enqueue l none } : St F) := hf.1.heap.congr rfl rfl rfl (fun v _ hv => by
      have hv : upd s.asg (vr l) (some (!sgn l)) v = none := hv
      by_cases e : v = vr l
      · subst e; rw [upd_self] at hv; cases hv
      · rwa [upd_ne _ _ e] at hv)
    obtain ⟨⟨s1, confl⟩, e1, hx⟩ := prop_ok (s := { s with toCore := s.toCore.enqueue l none }) henq hheap
    simp only [addRest, e1, Option.some.injEq, Prod.mk.injEq] at e
    obtain ⟨n, en⟩ := hx.frame.ext
    have en : s1.trail = n ++ l :: s.trail := en
    rw [← e.1]
    refine ⟨fun x hx => ?_, hx.frame.learnts, .inl ⟨l, hl, ?_⟩⟩
    · show x ∈ s1.trail
      rw [en]; simp [hx]
    · show l ∈ s1.trail
      rw [en]; simp
  | c0 :: c1 :: r, hq1, _, e =>
    obtain ⟨s1, e1, hc1, _⟩ := install_eq (s := s) (c0 := c0) (c1 := c1) (r := r) false
    simp only [addRest, e1, Option.some.injEq, Prod.mk.injEq] at e
    rw [← e.1]
    refine ⟨fun x hx => ?_, ?_, .inr ⟨s.next, ?_, ?_, ?_⟩⟩
    · show x ∈ s1.trail
      rw [hc1]; exact hx
    · show s1.learnts = _
      rw [hc1]; rfl
    · show s.next ∈ s1.clauses ++ [s.next]
      simp
    · show s1.data s.next ≠ []
      rw [hc1]
      show upd s.data s.next (c0 :: c1 :: r) s.next ≠ []
      rw [upd_self]; simp
    · show ∀ l ∈ s1.data s.next, l ∈ ps
      rw [hc1]
      show ∀ l ∈ upd s.data s.next (c0 :: c1 :: r) s.next, l ∈ ps
      rw [upd_self]
      exact fun l hl => (hq1 l hl).1

theorem addClause_light {s s' : St F} {b : Bool} {ps : List Nat} (h : Sat.Ready Φ C.incremental s) (hr : ∀ l ∈ ps, l < 2 * s.nvars) (hd : (ps.map vr).Nodup)
    (e : addClause C ps s = some (s', b)) (hok' : s'.ok = true) : s.ok = true ∧ Light ps s s' := by
  unfold addClause at e
  simp only at e
  obtain ⟨s0, hs0⟩ : ∃ s0 : St F, s0 = if C.proofGen = true then { s with pgOrig := s.pgOrig ++ [ps.map pgLit] } else s := ⟨_, rfl⟩
  rw [← hs0] at e
  have hc0 : s0.toCore = s.toCore := by rw [hs0]; split <;> rfl
  have h0 : Sat.Ready Φ C.incremental s0 := by
    refine h.of_eq hc0 ?_ ?_ ?_ ?_ ?_ <;> · rw [hs0]; split <;> rfl
  split at e
  · rename_i hok
    simp only [Option.some.injEq, Prod.mk.injEq] at e
    rw [← e.1, hok] at hok'; cases hok'
  · rename_i hok
    have hok : s0.ok = true := by simpa using hok
    refine ⟨by rw [← hc0]; exact hok, ?_⟩
    have hf := h0.full hok
    split at e
    · rename_i hfl
      simp only [Option.some.injEq, Prod.mk.injEq] at e
      rw [← e.1]
      refine ⟨fun l hl => by rw [hc0]; exact hl, by rw [hc0], .inl ?_⟩
      rcases addFilter_none _ hfl with ⟨e, he, hv⟩ | ⟨e, he, hv | hv⟩
      · exact ⟨e, mem_isort.1 he, (hf.1.inv.val e).1 hv⟩
      · exfalso
        have h1 := mem_isort.1 he
        have h2 := mem_isort.1 hv
        have := List.inj_on_of_nodup_map hd h1 h2 (by rw [vr_neg])
        exact absurd this.symm (neg_ne _)
      · cases hv
    · rename_i qs hfl
      obtain ⟨s1, hs1⟩ : ∃ s1 : St F, s1 = if (C.proofGen && (isort ps).any fun l => s0.value l != none) = true then
        { s0 with pgProof := s0.pgProof ++ [1 :: qs.map pgLit, -1 :: (isort ps).map pgLit] } else s0 := ⟨_, rfl⟩
      rw [← hs1] at e
      have hc1 : s1.toCore = s0.toCore := by rw [hs1]; split <;> rfl
      have h1 : Sat.Ready Φ C.incremental s1 := by
        refine h0.of_eq hc1 ?_ ?_ ?_ ?_ ?_ <;> · rw [hs1]; split <;> rfl
      have hc : s1.toCore = s.toCore := hc1.trans hc0
      obtain ⟨k1, k2, k3, _⟩ := addFilter_some _ (isort_sorted ps) (fun x e => by cases e) hfl
      have hent : Sat.Ent (Φ ++ [ps]) qs := by
        intro ρ hρ
        obtain ⟨g1, l, hl, hlt⟩ := models_snoc.1 hρ
        rcases k2 l (mem_isort.2 hl) with h' | h' | h'
        · exact ⟨l, h', hlt⟩
        · have hm := (hf.1.inv.val_false l).1 h'
          exact absurd hlt (litT_neg.1 ((hf.1.inv.zero _ hm (h0.lv hm)).lit g1))
        · cases h'
      have hL := addRest_light (ps := ps) h1 (by rw [hc1]; exact hok) (by rw [hc]; exact hr) (fun l hl => ⟨mem_isort.1 (k1 l hl).1, by rw [hc1]; exact (k1 l hl).2⟩) hent e hok'
      exact ⟨fun l hl => hL.trail l (by rw [hc]; exact hl), by rw [hL.learnts, hc], hL.ps⟩

theorem addClause_covers {s s' : St F} {b : Bool} {ps : List Nat} (h : Sat.Ready Φ C.incremental s) (hr : ∀ l ∈ ps, l < 2 * s.nvars) (hd : (ps.map vr).Nodup)
    (hcov : s.ok = true → Covers Φ s) (e : addClause C ps s = some (s', b)) (hok' : s'.ok = true) : Covers (Φ ++ [ps]) s' := by
  obtain ⟨hok, hL⟩ := addClause_light h hr hd e hok'
  obtain ⟨s'', b', e', _, hx, _, _, r, hcl, hperm, hnew⟩ := addClause_ok C h hr
  rw [e] at e'
  simp only [Option.some.injEq, Prod.mk.injEq] at e'
  obtain ⟨rfl, _⟩ := e'
  have hc := hcov hok
  have hi := (h.full hok).1.inv
  refine ⟨by rw [hL.learnts, hc.learnts], fun id hid => ?_, fun c hcm => ?_⟩
  · rw [hcl] at hid
    rcases List.mem_append.1 hid with hid | hid
    · obtain ⟨c, hcΦ, h1, h2⟩ := hc.c1 id hid
      refine ⟨c, List.mem_append_left _ hcΦ, fun l hl => h1 l ((hperm id hid).mem_iff.1 hl), fun l hl => ?_⟩
      rcases h2 l hl with h' | h'
      · exact .inl ((hperm id hid).mem_iff.2 h')
      · exact .inr (hL.trail _ h')
    · obtain ⟨_, _, hm⟩ := hnew id hid
      refine ⟨ps, by simp, fun l hl => ((hm l).1 hl).1, fun l hl => ?_⟩
      by_cases hv : s.value l = some false
      · exact .inr (hL.trail _ ((hi.val_false l).1 hv))
      · exact .inl ((hm l).2 ⟨hl, hv⟩)
  · rcases List.mem_append.1 hcm with hcm | hcm
    · rcases hc.c2 c hcm with ⟨l, hl, ht⟩ | ⟨id, hid, hne, hsub⟩
      · exact .inl ⟨l, hl, hL.trail l ht⟩
      · refine .inr ⟨id, by rw [hcl]; exact List.mem_append_left _ hid, fun h0 => ?_, fun l hl => hsub l ((hperm id hid).mem_iff.1 hl)⟩
        have := hperm id hid
        rw [h0] at this
        exact hne this.symm.eq_nil
    · rw [List.mem_singleton.1 hcm]; exact hL.ps

/-! ### Names -/

theorem litOf_append {nm r : List Var} {x : Nat} (h : vr x < nm.length) : litOf (nm ++ r) x = litOf nm x := by
  unfold litOf
  rw [List.getD_eq_getElem?_getD, List.getD_eq_getElem?_getD, List.getElem?_append_left h]

/-- The state of the solver while clauses are added. -/
structure Adding (C : Cfg F) (Φ : List (List Nat)) (s : St F) (nm : List Var) : Prop where
  ready : Sat.Ready Φ C.incremental s
  nd : nm.Nodup
  len : nm.length = s.nvars
  cov : s.ok = true → Covers Φ s

theorem newVar_learnts {sign dvar : Bool} {s s' : St F} (h : newVar sign dvar s = some s') : s'.learnts = s.learnts ∧ s'.data = s.data ∧ s'.clauses = s.clauses := by
  unfold newVar insertVarOrder at h
  simp only at h
  split at h
  · obtain ⟨hp, _, rfl⟩ := Option.map_eq_some_iff.1 h
    exact ⟨rfl, rfl, rfl⟩
  · cases h
    exact ⟨rfl, rfl, rfl⟩

theorem genLit_ok {l : Lit} {s s' : St F} {nm nm' : List Var} {x : Nat} (h : Adding C Φ s nm) (e : genLit l s nm = some (x, s', nm')) :
    Adding C Φ s' nm' ∧ litOf nm' x = l ∧ x < 2 * s'.nvars ∧ (∃ r, nm' = nm ++ r ∧ ∀ v ∈ r, v = l.v) ∧ s.nvars ≤ s'.nvars := by
  have hlit : ∀ {i : Nat} {nm : List Var}, nm.getD i default = l.v → litOf nm (mkLit i (!l.pos)) = l := by
    intro i nm hi
    unfold litOf
    rw [vr_mkLit, sgn_mkLit, hi]
    cases l; simp
  unfold genLit at e
  split at e
  · rename_i i hi
    simp only [Option.some.injEq, Prod.mk.injEq] at e
    obtain ⟨rfl, rfl, rfl⟩ := e
    obtain ⟨h1, h2⟩ := List.findIdx?_eq_some_iff_getElem.1 (show nm.findIdx? (· == l.v) = some i from hi)
    refine ⟨h, hlit ?_, vr_lt.1 (by rw [vr_mkLit, ← h.len]; exact h1), ⟨[], by simp, by simp⟩, Nat.le_refl _⟩
    rw [List.getD_eq_getElem?_getD, List.getElem?_eq_getElem h1]
    simpa using h2.1
  · rename_i hi
    obtain ⟨s1, e1, e⟩ := Option.map_eq_some_iff.1 e
    simp only [Prod.mk.injEq] at e
    obtain ⟨rfl, rfl, rfl⟩ := e
    obtain ⟨s2, e2, hr, _, hn, hok, _, _, htr⟩ := newVar_ok h.ready false
    rw [e1] at e2; injection e2 with e2; subst e2
    obtain ⟨g1, g2, g3⟩ := newVar_learnts e1
    have hni : l.v ∉ nm := by
      intro hm
      have := List.findIdx?_eq_none_iff.1 (show nm.findIdx? (· == l.v) = none from hi) l.v hm
      simp at this
    refine ⟨⟨hr, ?_, by simp [h.len, hn], fun ho => ?_⟩, hlit ?_, vr_lt.1 (by rw [vr_mkLit, hn]; omega), ⟨[l.v], rfl, by simp⟩, by omega⟩
    · rw [List.nodup_append]
      exact ⟨h.nd, List.nodup_singleton _, fun a ha b hb e => hni (by rw [List.mem_singleton.1 hb] at e; exact e ▸ ha)⟩
    · have hc := h.cov (by rw [← hok]; exact ho)
      exact ⟨by rw [g1, hc.learnts], by rw [g2, g3, htr]; exact hc.c1, by rw [g2, g3, htr]; exact hc.c2⟩
    · rw [List.getD_eq_getElem?_getD, ← h.len]
      simp

theorem genClause_ok (ls : List Lit) : ∀ {s s' : St F} {nm nm' : List Var} {xs : List Nat}, Adding C Φ s nm → genClause ls s nm = some (xs, s', nm') →
    Adding C Φ s' nm' ∧ xs.map (litOf nm') = ls ∧ (∀ x ∈ xs, x < 2 * s'.nvars) ∧ (∃ r, nm' = nm ++ r ∧ ∀ v ∈ r, ∃ l ∈ ls, v = l.v) ∧ s.nvars ≤ s'.nvars := by
  induction ls with
  | nil =>
    intro s s' nm nm' xs h e
    simp only [genClause, Option.some.injEq, Prod.mk.injEq] at e
    obtain ⟨rfl, rfl, rfl⟩ := e
    exact ⟨h, rfl, by simp, ⟨[], by simp, by simp⟩, Nat.le_refl _⟩
  | cons l ls ih =>
    intro s s' nm nm' xs h e
    simp only [genClause] at e
    obtain ⟨⟨x, s1, nm1⟩, e1, e⟩ := Option.bind_eq_some_iff.1 e
    obtain ⟨⟨ys, s2, nm2⟩, e2, e⟩ := Option.map_eq_some_iff.1 e
    simp only [Prod.mk.injEq] at e
    obtain ⟨rfl, rfl, rfl⟩ := e
    obtain ⟨a1, a2, a3, ⟨r1, a4, a4'⟩, a5⟩ := genLit_ok h e1
    obtain ⟨b1, b2, b3, ⟨r2, b4, b4'⟩, b5⟩ := ih a1 e2
    refine ⟨b1, ?_, ?_, ⟨r1 ++ r2, by rw [b4, a4, List.append_assoc], ?_⟩, by omega⟩
    · rw [List.map_cons, b2, b4, litOf_append (by rw [a1.len]; exact vr_lt.2 a3), a2]
    · intro y hy
      rcases List.mem_cons.1 hy with rfl | hy
      · omega
      · exact b3 y hy
    · intro v hv
      rcases List.mem_append.1 hv with hv | hv
      · exact ⟨l, by simp, a4' v hv⟩
      · obtain ⟨m, hm, e⟩ := b4' v hv
        exact ⟨m, by simp [hm], e⟩

theorem addAll_ok (cs : List (List Lit)) : ∀ {Φ : List (List Nat)} {s s' : St F} {nm nm' : List Var} {xs : List (List Nat)}, Adding C Φ s nm → (∀ c ∈ cs, (c.map Lit.v).Nodup) →
    addAll C cs s nm = some (xs, s', nm') →
    Adding C (Φ ++ xs) s' nm' ∧ xs.map (List.map (litOf nm')) = cs ∧ (∀ x ∈ xs, ∀ l ∈ x, l < 2 * s'.nvars) ∧ (∃ r, nm' = nm ++ r ∧ ∀ v ∈ r, ∃ c ∈ cs, ∃ l ∈ c, v = l.v) ∧
      s.nvars ≤ s'.nvars ∧ ∀ x ∈ xs, (x.map vr).Nodup := by
  induction cs with
  | nil =>
    intro Φ s s' nm nm' xs h _ e
    simp only [addAll, Option.some.injEq, Prod.mk.injEq] at e
    obtain ⟨rfl, rfl, rfl⟩ := e
    exact ⟨by rw [List.append_nil]; exact h, rfl, by simp, ⟨[], by simp, by simp⟩, Nat.le_refl _, by simp⟩
  | cons c cs ih =>
    intro Φ s s' nm nm' xs h hd e
    simp only [addAll] at e
    obtain ⟨⟨x, s1, nm1⟩, e1, e⟩ := Option.bind_eq_some_iff.1 e
    obtain ⟨⟨s2, b⟩, e2, e⟩ := Option.bind_eq_some_iff.1 e
    obtain ⟨⟨ys, s3, nm3⟩, e3, e⟩ := Option.map_eq_some_iff.1 e
    simp only [Prod.mk.injEq] at e e2 e3
    obtain ⟨rfl, rfl, rfl⟩ := e
    obtain ⟨a1, a2, a3, ⟨r1, a4, a4'⟩, a5⟩ := genClause_ok c h e1
    have hx : (x.map vr).Nodup := by
      have := hd c (by simp)
      rw [← a2, List.map_map] at this
      have hf : (Lit.v ∘ litOf nm1) = (fun v => nm1.getD v default) ∘ vr := rfl
      rw [hf, ← List.map_map] at this
      exact List.Nodup.of_map _ this
    obtain ⟨s2', b', e2', hr2, _, _, hsame, _⟩ := addClause_ok C a1.ready a3
    rw [e2] at e2'
    simp only [Option.some.injEq, Prod.mk.injEq] at e2'
    obtain ⟨rfl, rfl⟩ := e2'
    have ha2 : Adding C (Φ ++ [x]) s2 nm1 := ⟨hr2, a1.nd, by rw [hsame.nvars]; exact a1.len, fun ho => addClause_covers a1.ready a3 hx a1.cov e2 ho⟩
    obtain ⟨b1, b2, b3, ⟨r2, b4, b4'⟩, b5, b6⟩ := ih ha2 (fun c hc => hd c (by simp [hc])) e3
    have hnv := hsame.nvars
    refine ⟨by rw [List.append_assoc] at b1; exact b1, ?_, ?_, ⟨r1 ++ r2, by rw [b4, a4, List.append_assoc], ?_⟩, by omega, ?_⟩
    · rw [List.map_cons, b2]
      congr 1
      rw [← a2]
      refine List.map_congr_left fun l hl => ?_
      rw [b4, litOf_append (by rw [a1.len]; exact vr_lt.2 (a3 l hl))]
    · intro y hy l hl
      rcases List.mem_cons.1 hy with rfl | hy
      · have := a3 l hl; omega
      · exact b3 y hy l hl
    · intro v hv
      rcases List.mem_append.1 hv with hv | hv
      · obtain ⟨m, hm, e⟩ := a4' v hv
        exact ⟨c, by simp, m, hm, e⟩
      · obtain ⟨c', hc', m, hm, e⟩ := b4' v hv
        exact ⟨c', by simp [hc'], m, hm, e⟩
    · intro y hy
      rcases List.mem_cons.1 hy with rfl | hy
      · exact hx
      · exact b6 y hy

end

end Verif.Dnnf
