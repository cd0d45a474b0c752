import Verif.Ext.SharpSat
import Verif.Props.Count
import Verif.Props.Core
/-
C62: the wrapper of sharpSAT gives the library clauses such that a right count of the library is the number of models of the
formulas over their variables.
-/
namespace Verif.SharpSat
open ER MaxSat

theorem conv_vars : ∀ (ls : List Lit) (vs : List Var) (n : Nat) (v : Var), v ∈ (conv ls vs n).2.1 ↔ v ∈ vs ∨ ∃ l ∈ ls, l.v = v
  | [], vs, n, v => by simp [conv]
  | l :: ls, vs, n, v => by
    have h : v ∈ (addVar l.v vs).2 ↔ v ∈ vs ∨ l.v = v := by
      unfold addVar
      split
      · rename_i hm
        exact ⟨.inl, fun h => h.elim id fun e => e ▸ hm⟩
      · simp [eq_comm]
    simp only [conv]
    rw [conv_vars ls, h]
    simp [or_assoc]

/-- The library's count is the number of models. -/
theorem countC_eq {vs : List Var} (hn : vs.Nodup) {P : List (List Int)} {φ : Asg → Bool}
    (h : ∀ ρ σ, Agr vs ρ σ → ((∀ c ∈ P, c.any (litV ρ) = true) ↔ φ σ = true)) : countC vs.length P = (satOver vs.toFinset φ).card := by
  have hidx : ∀ i v, vs[i]? = some v → vs.idxOf v = i := fun i v hv => by
    obtain ⟨hlt, e⟩ := List.getElem?_eq_some_iff.1 hv
    have hm : v ∈ vs := e ▸ List.getElem_mem hlt
    exact (hn.getElem_inj_iff (hi := List.idxOf_lt_length_iff.2 hm) (hj := hlt)).1 (by rw [List.getElem_idxOf, e])
  have hget : ∀ v ∈ vs, vs[vs.idxOf v]? = some v := fun v hv => by
    rw [List.getElem?_eq_getElem (List.idxOf_lt_length_iff.2 hv), List.getElem_idxOf]
  unfold countC satOver
  refine Finset.card_nbij' (fun A => vs.toFinset.filter fun v => vs.idxOf v ∈ A) (fun B => B.image vs.idxOf) ?_ ?_ ?_ ?_
  · intro A hA
    simp only [Finset.coe_filter, Finset.mem_powerset, Set.mem_setOf_eq] at hA ⊢
    refine ⟨Finset.filter_subset _ _, (h _ _ fun i v hv => ?_).1 hA.2⟩
    have hm : v ∈ vs := List.mem_of_getElem? hv
    simp [hm, hidx i v hv]
  · intro B hB
    simp only [Finset.coe_filter, Finset.mem_powerset, Set.mem_setOf_eq] at hB ⊢
    refine ⟨fun i hi => ?_, (h _ _ fun i v hv => ?_).2 hB.2⟩
    · obtain ⟨v, hv, rfl⟩ := Finset.mem_image.1 hi
      exact Finset.mem_range.2 (List.idxOf_lt_length_iff.2 (List.mem_toFinset.1 (hB.1 hv)))
    · congr 1
      rw [eq_iff_iff, Finset.mem_image]
      constructor
      · rintro ⟨u, hu, e⟩
        have := hget u (List.mem_toFinset.1 (hB.1 hu))
        rw [e, hv] at this
        cases this; exact hu
      · exact fun hm => ⟨v, hm, hidx i v hv⟩
  · intro A hA
    simp only [Finset.coe_filter, Finset.mem_powerset, Set.mem_setOf_eq] at hA
    ext i
    simp only [Finset.mem_image, Finset.mem_filter, List.mem_toFinset]
    constructor
    · rintro ⟨v, ⟨_, hv⟩, rfl⟩; exact hv
    · intro hi
      have hlt := Finset.mem_range.1 (hA.1 hi)
      have e := hidx i vs[i] (List.getElem?_eq_getElem hlt)
      exact ⟨vs[i], ⟨List.getElem_mem hlt, by rw [e]; exact hi⟩, e⟩
  · intro B hB
    simp only [Finset.coe_filter, Finset.mem_powerset, Set.mem_setOf_eq] at hB
    ext v
    simp only [Finset.mem_filter, List.mem_toFinset, Finset.mem_image]
    constructor
    · rintro ⟨hv, u, hu, e⟩
      have h1 := hget v hv
      have h2 := hget u (List.mem_toFinset.1 (hB.1 hu))
      rw [e, h1] at h2
      cases h2; exact hu
    · intro hv
      exact ⟨List.mem_toFinset.1 (hB.1 hv), v, hv, rfl⟩

/-- A solver with the formulas `gs`. -/
structure Inv (s : Solver) (gs : List Formula) : Prop where
  nodup : s.vars.Nodup
  cl : s.vars = [] → s.clauses = []
  nt : s.const ≠ some true
  no : s.const = some false → ∀ σ, ∃ g ∈ gs, g.eval σ = false
  vars : s.const = none → ∀ v, v ∈ s.vars ↔ ∃ g ∈ gs, Occ v g
  sat : s.const = none → ∀ ρ σ, Agr s.vars ρ σ → ((∀ c ∈ s.clauses, c.any (litV ρ) = true) ↔ ∀ g ∈ gs, g.eval σ = true)

theorem Inv.new : Inv .new [] := ⟨by simp [Solver.new], by simp [Solver.new], by simp [Solver.new], by simp [Solver.new], by simp [Solver.new], by simp [Solver.new]⟩

theorem Inv.congr {s gs hs} (h : Inv s gs) (he : ∀ σ, (∀ g ∈ gs, g.eval σ = true) ↔ ∀ g ∈ hs, g.eval σ = true)
    (ho : ∀ v, (∃ g ∈ gs, Occ v g) ↔ ∃ g ∈ hs, Occ v g) : Inv s hs := by
  refine ⟨h.nodup, h.cl, h.nt, fun e σ => ?_, fun e v => by rw [h.vars e, ho], fun e ρ σ ha => by rw [h.sat e ρ σ ha, he]⟩
  obtain ⟨g, hg, hf⟩ := h.no e σ
  by_contra hc
  have : ∀ g ∈ hs, g.eval σ = true := fun g hg => by
    cases hv : g.eval σ with
    | true => rfl
    | false => exact absurd ⟨g, hg, hv⟩ hc
  rw [(he σ).2 this g hg] at hf; cases hf

theorem Inv.clause {s gs} (h : Inv s gs) {g : Formula} {ls : List Lit} (he : ∀ σ, g.eval σ = ls.any (Lit.eval σ)) (ho : ∀ v, Occ v g ↔ ∃ l ∈ ls, l.v = v) :
    Inv (s.addClause ls) (g :: gs) := by
  unfold Solver.addClause
  split
  · rename_i hl
    subst hl
    exact ⟨h.nodup, h.cl, by simp, fun _ σ => ⟨g, by simp, by rw [he]; rfl⟩, fun e => (nomatch e), fun e => (nomatch e)⟩
  · obtain ⟨h1, h2, h3, h4⟩ := conv_ok ls h.nodup
    refine ⟨h2, fun e => ?_, h.nt, fun e σ => ?_, fun e v => ?_, fun e ρ σ ha => ?_⟩
    · rename_i hl
      obtain ⟨l, ls', rfl⟩ := List.exists_cons_of_ne_nil hl
      have := (conv_vars (l :: ls') s.vars s.vars.length l.v).2 (.inr ⟨l, by simp, rfl⟩)
      have e' : (conv (l :: ls') s.vars s.vars.length).2.1 = [] := e
      rw [e'] at this; cases this
    · obtain ⟨k, hk, hf⟩ := h.no e σ
      exact ⟨k, by simp [hk], hf⟩
    · show v ∈ (conv ls s.vars s.vars.length).2.1 ↔ _
      rw [conv_vars, h.vars e]
      simp [ho, or_comm]
    · have e4 := h4 ρ σ ha
      show (∀ c ∈ s.clauses ++ [(conv ls s.vars s.vars.length).1], _) ↔ _
      rw [List.forall_mem_append, List.forall_mem_singleton, e4, ← he, h.sat e ρ σ (ha.prefix h1), List.forall_mem_cons, and_comm]

theorem lits_ok : ∀ {fs : List Formula}, (∀ f ∈ fs, ∃ l, f = .lit l) → ∃ ls : List Lit, fs = ls.map Formula.lit
  | [], _ => ⟨[], rfl⟩
  | f :: fs, h => by
    obtain ⟨l, rfl⟩ := h f (by simp)
    obtain ⟨ls, rfl⟩ := lits_ok fun f hf => h f (List.mem_cons_of_mem _ hf)
    exact ⟨l :: ls, rfl⟩

theorem asLits_map (ls : List Lit) : asLits (ls.map Formula.lit) = some ls := by
  induction ls with
  | nil => rfl
  | cons l ls ih => simp [asLits, ih]

theorem orLits_map (ls : List Lit) : orLits (ls.map Formula.lit) = some (false, ls) := by
  induction ls with
  | nil => rfl
  | cons l ls ih => simp [orLits, ih]

theorem or_eval (ls : List Lit) (σ : Asg) : (Formula.nary .disj (ls.map Formula.lit)).eval σ = ls.any (Lit.eval σ) := by
  rw [Formula.eval_nary]
  simp only [Op.eval, List.any_map]
  rfl

theorem or_occ (ls : List Lit) (v : Var) : Occ v (.nary .disj (ls.map Formula.lit)) ↔ ∃ l ∈ ls, l.v = v := by
  rw [Formula.occ_nary]
  constructor
  · rintro ⟨g, hg, ho⟩
    obtain ⟨l, hl, rfl⟩ := List.mem_map.1 hg
    exact ⟨l, hl, by simpa using ho⟩
  · rintro ⟨l, hl, rfl⟩
    exact ⟨_, List.mem_map_of_mem hl, by simp⟩

theorem addOps_ok : ∀ (fs : List Formula), (∀ f ∈ fs, IsClause f ∧ f.isConst = false) → ∀ {s gs}, Inv s gs → ∃ s', addOps fs s = some s' ∧ Inv s' (fs ++ gs)
  | [], _, s, gs, h => ⟨s, rfl, h⟩
  | f :: fs, hf, s, gs, h => by
    have hr := fun g hg => hf g (List.mem_cons_of_mem f hg)
    obtain ⟨hc, hk⟩ := hf f (by simp)
    have mv : ∀ {s'}, Inv s' (fs ++ f :: gs) → Inv s' (f :: fs ++ gs) := fun h =>
      h.congr (fun σ => by simp only [List.cons_append, List.forall_mem_cons, List.forall_mem_append]; tauto) fun v => by
        simp only [List.mem_append, List.mem_cons, List.cons_append]
        exact exists_congr fun g => by tauto
    cases hc with
    | tru => cases hk
    | fls => cases hk
    | lit l =>
      obtain ⟨s', e, i⟩ := addOps_ok fs hr (h.clause (g := .lit l) (ls := [l]) (by simp) (by simp))
      exact ⟨s', e, mv i⟩
    | or ho =>
      obtain ⟨ls, rfl⟩ := lits_ok ho
      obtain ⟨s', e, i⟩ := addOps_ok fs hr (h.clause (or_eval ls) (or_occ ls))
      refine ⟨s', ?_, mv i⟩
      simp only [addOps, orLits_map, Option.bind_some]
      exact e

theorem addCnf_ok {s gs} (h : Inv s gs) {g : Formula} (hc : IsCnf g) (hn : g.Norm) (ht : g ≠ .tru) : ∃ s', s.addCnf g = some s' ∧ Inv s' (g :: gs) := by
  cases hc with
  | clause hc =>
    cases hc with
    | tru => exact absurd rfl ht
    | fls => exact ⟨_, rfl, h.nodup, h.cl, by simp, fun _ σ => ⟨.fls, by simp, rfl⟩, fun e => (nomatch e), fun e => (nomatch e)⟩
    | lit l => exact ⟨_, rfl, h.clause (g := .lit l) (ls := [l]) (by simp) (by simp)⟩
    | or ho =>
      obtain ⟨ls, rfl⟩ := lits_ok ho
      exact ⟨_, by simp only [Solver.addCnf, asLits_map]; rfl, h.clause (or_eval ls) (or_occ ls)⟩
  | @and fs hc =>
    cases hn with
    | nary _ _ hg =>
      obtain ⟨s', e, i⟩ := addOps_ok fs (fun f hf => ⟨hc f hf, hg.notConst f hf⟩) h
      refine ⟨s', e, i.congr (fun σ => ?_) fun v => ?_⟩
      · rw [List.forall_mem_append, List.forall_mem_cons, Formula.eval_nary]
        simp only [Op.eval, List.all_eq_true]
      · simp only [List.mem_append, List.mem_cons, or_and_right, exists_or, exists_eq_left, Formula.occ_nary]

theorem addAll_ok : ∀ (fs : List Formula), (∀ g ∈ fs, IsCnf g ∧ g.Norm ∧ g ≠ .tru) → ∀ {s gs}, Inv s gs → ∃ s', s.addAll fs = some s' ∧ Inv s' (fs.reverse ++ gs)
  | [], _, s, gs, h => ⟨s, rfl, h⟩
  | f :: fs, hf, s, gs, h => by
    obtain ⟨h1, h2, h3⟩ := hf f (by simp)
    obtain ⟨s1, e1, i1⟩ := addCnf_ok h h1 h2 h3
    obtain ⟨s2, e2, i2⟩ := addAll_ok fs (fun g hg => hf g (List.mem_cons_of_mem _ hg)) i1
    exact ⟨s2, by simp only [Solver.addAll, e1, Option.bind_some]; exact e2, by simpa using i2⟩

theorem Inv.solve {s gs} (h : Inv s gs) {ans} (ha : ∀ n P, ans n P = countC n P) :
    s.solve ans = (satOver (varsOf gs ∅) fun σ => gs.all fun g => g.eval σ).card := by
  unfold Solver.solve
  cases hc : s.const with
  | some b =>
    cases b with
    | true => exact absurd hc h.nt
    | false =>
      rw [satOver_false fun σ => ?_]; · rfl
      obtain ⟨g, hg, hf⟩ := h.no hc σ
      exact List.all_eq_false.2 ⟨g, hg, by simp [hf]⟩
  | none =>
    have hs : (varsOf gs ∅) = s.vars.toFinset := by
      ext v
      rw [mem_varsOf, List.mem_toFinset, h.vars hc]
      simp
    have key := countC_eq h.nodup (P := s.clauses) (φ := fun σ => gs.all fun g => g.eval σ) fun ρ σ hag => by
      rw [h.sat hc ρ σ hag, List.all_eq_true]
    rw [← hs] at key
    rw [← key]
    show (if s.vars = [] then 1 else ans s.vars.length s.clauses) = _
    split
    · rename_i hv
      rw [hv, h.cl hv]; rfl
    · exact ha _ _

/-- **C62**: on a new solver, after adding formulas in CNF none of which is verum, the reported count is the number of
assignments of their variables that satisfy all of them. -/
theorem C62_count_partial {gs : List Formula} (hg : ∀ g ∈ gs, IsCnf g ∧ g.Norm ∧ g ≠ .tru) {ans} (ha : ∀ n P, ans n P = countC n P) :
    ∃ s, Solver.new.addAll gs = some s ∧ s.solve ans = (satOver (varsOf gs ∅) fun σ => gs.all fun g => g.eval σ).card := by
  obtain ⟨s, e, i⟩ := addAll_ok gs hg .new
  refine ⟨s, e, ?_⟩
  rw [i.solve ha]
  have h1 : varsOf (gs.reverse ++ []) ∅ = varsOf gs ∅ := by ext v; simp [mem_varsOf]
  rw [h1]
  congr 1
  exact satOver_congr fun σ => by simp

section
variable {C : Canon} {cfg : FCfg} {c : AuxTy → Nat}

/-- **C62**: counting one formula in CNF. -/
theorem C62_counter {ans} (ha : ∀ n P, ans n P = countC n P) : Counts C cfg c (count ans) := by
  intro w es rs g _ hn _ hc _
  by_cases ht : g = .tru
  · subst ht
    have : Formula.varSet .tru = ∅ := by ext v; simp [mem_varSet]
    show some 1 = _
    rw [this]; rfl
  · obtain ⟨s, e, i⟩ := addCnf_ok .new hc hn ht
    unfold count
    rw [e, Option.map_some, i.solve ha, modelsOver_eq]
    have h1 : varsOf [g] ∅ = g.varSet := by ext v; simp [mem_varsOf, mem_varSet]
    rw [h1]
    simp

/-- **C62**, and C46 for `count_models` with sharpSAT. -/
theorem C62_count_models_partial (hcfg : cfg.cc.Good) {w es rs} (h : TReach C cfg c w es rs) {ans} (ha : ∀ n P, ans n P = countC n P)
    {f : Formula} (hone : OneCons f) (hv : ∃ v, Occ v f) (hk : ∀ v, Occ v f → Known c v) (hsz : f.varSet.card < 2 ^ 32) :
    ∃ w' es' rs', countModels C cfg (count ans) f w = some ((modelsOver f.varSet f).card, w') ∧ TReach C cfg c w' es' rs' :=
  C46_count_partial hcfg h (C62_counter ha) hone hv hk hsz

end

/-! ### Example and counterexamples -/

private def v (n : Nat) : Formula := .lit ⟨.named n, true⟩
private def nv (n : Nat) : Formula := .lit ⟨.named n, false⟩

/-- The formulas of the documentation: `(a | c) & (~a | b | ~d)` and `~c | ~d`. -/
def exDoc : List Formula := [.nary .conj [.nary .disj [v 0, v 2], .nary .disj [nv 0, v 1, nv 3]], .nary .disj [nv 2, nv 3]]

example : (Solver.new.addAll exDoc) = some ⟨[[1, 2], [-1, 3, -4], [-2, -4]], [.named 0, .named 2, .named 1, .named 3], none⟩ ∧
    (Solver.new.addAll exDoc).map (Solver.solve countC) = some 7 ∧ ∀ g ∈ exDoc, IsCnf g ∧ g.Norm ∧ g ≠ .tru := by
  refine ⟨by decide +kernel, by decide +kernel, fun g hg => ?_⟩
  have hn : g.Norm := (Sat.inB_ok (cfg := exFCfg .swc true) (c := fun _ => 7) (n := 5) ((by decide +kernel : ∀ f ∈ exDoc, Sat.inB 5 f = true) g hg)).norm
  exact ⟨(isCnfF_iff hn).1 ((by decide +kernel : ∀ f ∈ exDoc, f.isCnfF = true) g hg), hn, (by decide +kernel : ∀ f ∈ exDoc, f ≠ .tru) g hg⟩

/-- Adding verum discards everything else: `a | b` and verum together count as one model, and so do falsum and verum.  There
are three models and none. -/
theorem C62_verum_wrong (ans : Nat → List (List Int) → Nat) :
    ((Solver.new.addAll [.nary .disj [v 0, v 1], .tru]).map (Solver.solve ans) = some 1 ∧
      (satOver (varsOf [.nary .disj [v 0, v 1], .tru] ∅) fun σ => [Formula.nary .disj [v 0, v 1], .tru].all fun g => g.eval σ).card = 3) ∧
    (Solver.new.addAll [.fls, .tru]).map (Solver.solve ans) = some 1 ∧ ∀ σ, Formula.fls.eval σ = false := by
  refine ⟨⟨rfl, by decide +kernel⟩, rfl, fun _ => rfl⟩

end Verif.SharpSat
