import Verif.Dnnf.Compile
import Verif.Dnnf.Form
import Verif.Sat.Inv
/-
What the compiler has to deliver for a subtree under an assignment.
-/
namespace Verif.Dnnf
open Verif.Sat Verif.Formula

variable {nm : List Var} {s s' : Core} {t : DTree} {K : Canon}

/-- A literal of the solver is true under an assignment of the variables. -/
def T (nm : List Var) (σ : Asg) (l : Nat) : Prop := (litOf nm l).eval σ = true

theorem T_iff {σ : Asg} {l : Nat} : T nm σ l ↔ σ (nm.getD (vr l) default) = !sgn l := by
  unfold T litOf Lit.eval
  simp only
  cases sgn l <;> cases σ (nm.getD (vr l) default) <;> simp

theorem T_neg {σ : Asg} {l : Nat} : T nm σ (neg l) ↔ ¬ T nm σ l := by
  rw [T_iff, T_iff, vr_neg, sgn_neg]
  cases sgn l <;> cases σ (nm.getD (vr l) default) <;> simp

theorem eval_lit_T {σ : Asg} {l : Nat} : (Formula.lit (litOf nm l)).eval σ = true ↔ T nm σ l := by simp [T]

theorem eval_lit_neg_T {σ : Asg} {l : Nat} : (Formula.lit (litOf nm l).neg).eval σ = true ↔ ¬ T nm σ l := by
  simp [T]

/-- The residual clauses of the tree: the literals that are not assigned, of the leaves without a true literal. -/
def Res (nm : List Var) (s : Core) (t : DTree) (σ : Asg) : Prop := ∀ c ∈ openLeaves s t, ∃ l ∈ c.2, s.value l = none ∧ T nm σ l

/-- The formula `g` is right for the tree and the newly implied literals `imp`. -/
structure Exact (nm : List Var) (s : Core) (t : DTree) (imp : List Nat) (g : Formula) : Prop where
  eval : ∀ σ, g.eval σ = true ↔ (∀ l ∈ imp, T nm σ l) ∧ Res nm s t σ
  occ : ∀ x, Occ x g → ∃ v, (v ∈ imp.map vr ∨ v ∈ openVars s t) ∧ x = nm.getD v default
  norm : g.Norm
  ddnnf : Ddnnf g
  sat : ∃ σ, g.eval σ = true
  lits : ∀ l ∈ imp, .lit (litOf nm l) ∈ g.parts .conj

theorem Exact.ne_fls {imp : List Nat} {g : Formula} (h : Exact nm s t imp g) : g ≠ .fls := by
  rintro rfl
  obtain ⟨σ, h⟩ := h.sat
  cases h

theorem mem_openLeaves {c : Nat × List Nat} : c ∈ openLeaves s t ↔ c ∈ t.leaves ∧ ∀ l ∈ c.2, s.value l ≠ some true := by
  unfold openLeaves
  rw [List.mem_filter, List.all_eq_true]
  simp

theorem mem_openVars {v : Nat} : v ∈ openVars s t ↔ ∃ c ∈ openLeaves s t, ∃ l ∈ c.2, s.value l = none ∧ vr l = v := by
  unfold openVars
  simp only [List.mem_flatMap, List.mem_map, List.mem_filter, beq_iff_eq]
  constructor
  · rintro ⟨c, hc, l, ⟨hl, hv⟩, e⟩; exact ⟨c, hc, l, hl, hv, e⟩
  · rintro ⟨c, hc, l, hl, hv, e⟩; exact ⟨c, hc, l, ⟨hl, hv⟩, e⟩

theorem value_none_iff {l : Nat} : s.value l = none ↔ s.asg (vr l) = none := by
  unfold Core.value; exact Option.map_eq_none_iff

theorem openVars_none {v : Nat} (h : v ∈ openVars s t) : s.asg v = none := by
  obtain ⟨c, _, l, _, hv, rfl⟩ := mem_openVars.1 h
  exact value_none_iff.1 hv

theorem mem_vars {t : DTree} {v : Nat} : v ∈ t.vars ↔ ∃ c ∈ t.leaves, ∃ l ∈ c.2, vr l = v := by
  induction t with
  | leaf id ls => simp [DTree.vars, DTree.leaves, vr]
  | node l r h1 h2 =>
    simp only [DTree.vars, DTree.leaves, List.mem_append, h1, h2]
    constructor
    · rintro (⟨c, hc, h⟩ | ⟨c, hc, h⟩)
      · exact ⟨c, .inl hc, h⟩
      · exact ⟨c, .inr hc, h⟩
    · rintro ⟨c, hc | hc, h⟩
      · exact .inl ⟨c, hc, h⟩
      · exact .inr ⟨c, hc, h⟩

theorem openVars_vars {v : Nat} (h : v ∈ openVars s t) : v ∈ t.vars := by
  obtain ⟨c, hc, l, hl, _, e⟩ := mem_openVars.1 h
  exact mem_vars.2 ⟨c, (mem_openLeaves.1 hc).1, l, hl, e⟩

theorem openLeaves_congr (h : s'.value = s.value) (t : DTree) : openLeaves s' t = openLeaves s t := by simp [openLeaves, h]
theorem openVars_congr (h : s'.value = s.value) (t : DTree) : openVars s' t = openVars s t := by simp [openVars, openLeaves_congr h, h]
theorem separator_congr (h : s'.value = s.value) (t : DTree) : separator s' t = separator s t := by
  cases t <;> simp [separator, openVars_congr h]

theorem Res.congr (h : s'.value = s.value) {σ : Asg} : Res nm s' t σ ↔ Res nm s t σ := by
  unfold Res; rw [openLeaves_congr h, h]

theorem Exact.congr {imp : List Nat} {g : Formula} (h : Exact nm s t imp g) (hv : s'.value = s.value) : Exact nm s' t imp g :=
  ⟨fun σ => by rw [h.eval, Res.congr hv], fun x hx => by rw [openVars_congr hv]; exact h.occ x hx, h.norm, h.ddnnf, h.sat, h.lits⟩

theorem openLeaves_node {l r : DTree} : openLeaves s (.node l r) = openLeaves s l ++ openLeaves s r := by simp [openLeaves, DTree.leaves]

theorem res_node {l r : DTree} {σ : Asg} : Res nm s (.node l r) σ ↔ Res nm s l σ ∧ Res nm s r σ := by
  unfold Res
  rw [openLeaves_node]
  simp only [List.mem_append]
  exact ⟨fun h => ⟨fun c hc => h c (.inl hc), fun c hc => h c (.inr hc)⟩, fun h c hc => hc.elim (h.1 c) (h.2 c)⟩

theorem openVars_node {l r : DTree} {v : Nat} : v ∈ openVars s (.node l r) ↔ v ∈ openVars s l ∨ v ∈ openVars s r := by
  unfold openVars; rw [openLeaves_node, List.flatMap_append, List.mem_append]

/-! ### Literals and conjunctions -/

/-- Names of different variables are different. -/
theorem name_inj (hn : nm.Nodup) {a b : Nat} (ha : a < nm.length) (hb : b < nm.length) (h : nm.getD a default = nm.getD b default) : a = b := by
  rw [List.getD_eq_getElem?_getD, List.getD_eq_getElem?_getD, List.getElem?_eq_getElem ha, List.getElem?_eq_getElem hb] at h
  exact (hn.getElem_inj_iff).1 h

theorem occ_litOf {l : Nat} {x : Var} : Occ x (.lit (litOf nm l)) ↔ x = nm.getD (vr l) default := by
  simp [litOf, eq_comm]

/-- The conjunction of the newly implied literals. -/
theorem imp_ok (K : Canon) {imp : List Nat} (hn : nm.Nodup) (hr : ∀ l ∈ imp, vr l < nm.length) (hd : (imp.map vr).Nodup) :
    (∀ σ, (mkAnd K (imp.map fun l => .lit (litOf nm l))).eval σ = true ↔ ∀ l ∈ imp, T nm σ l) ∧
    (∀ x, Occ x (mkAnd K (imp.map fun l => .lit (litOf nm l))) → ∃ v ∈ imp.map vr, x = nm.getD v default) ∧
    (mkAnd K (imp.map fun l => .lit (litOf nm l))).Norm ∧ Ddnnf (mkAnd K (imp.map fun l => .lit (litOf nm l))) ∧
    (∃ σ, (mkAnd K (imp.map fun l => .lit (litOf nm l))).eval σ = true) ∧
    ∀ l ∈ imp, .lit (litOf nm l) ∈ (mkAnd K (imp.map fun l => .lit (litOf nm l))).parts .conj := by
  have hnm : ∀ f ∈ imp.map fun l => Formula.lit (litOf nm l), f.Norm := fun f hf => by obtain ⟨l, _, rfl⟩ := List.mem_map.1 hf; exact .lit _
  have hev : ∀ σ, (mkAnd K (imp.map fun l => .lit (litOf nm l))).eval σ = true ↔ ∀ l ∈ imp, T nm σ l := by
    intro σ
    rw [eval_mkNary]
    simp [Op.eval, T]
  have hsat : ∃ σ, (mkAnd K (imp.map fun l => .lit (litOf nm l))).eval σ = true := by
    refine ⟨fun x => decide (∃ l ∈ imp, x = nm.getD (vr l) default ∧ sgn l = false), (hev _).2 fun l hl => T_iff.2 ?_⟩
    cases hs : sgn l with
    | false => simp only [Bool.not_false, decide_eq_true_eq]; exact ⟨l, hl, rfl, hs⟩
    | true =>
      simp only [Bool.not_true, decide_eq_false_iff_not]
      rintro ⟨k, hk, e, hs'⟩
      have := name_inj hn (hr l hl) (hr k hk) e
      have e' := List.inj_on_of_nodup_map hd hl hk this
      rw [e', hs'] at hs; cases hs
  refine ⟨hev, ?_, norm_mkNary _ _ hnm, ddnnf_mkAnd hnm (fun f hf => ?_) ?_, hsat, ?_⟩
  · intro x hx
    obtain ⟨f, hf, hx⟩ := occ_mkNary hx
    obtain ⟨l, hl, rfl⟩ := List.mem_map.1 hf
    exact ⟨vr l, List.mem_map_of_mem hl, occ_litOf.1 hx⟩
  · obtain ⟨l, _, rfl⟩ := List.mem_map.1 hf; exact .lit _
  · rw [List.pairwise_map]
    have hd' : imp.Pairwise fun a b => vr a ≠ vr b := List.pairwise_map.1 hd
    refine hd'.imp_of_mem fun ha hb h v ⟨h1, h2⟩ => h ?_
    exact name_inj hn (hr _ ha) (hr _ hb) ((occ_litOf.1 h1).symm.trans (occ_litOf.1 h2))
  · intro l hl
    refine (parts_mkNary hnm (List.mem_map_of_mem hl) (by rw [parts_of_ne (by simp)]; simp) rfl (by simp)).resolve_left ?_
    intro e
    obtain ⟨σ, h⟩ := hsat
    rw [show mkAnd K _ = _ from e] at h; cases h

/-- Satisfiable formulas without common variables are satisfied together. -/
theorem sat_together {fs : List Formula} (h : ∀ f ∈ fs, ∃ σ, f.eval σ = true) (hp : fs.Pairwise Dj) : ∃ σ, ∀ f ∈ fs, f.eval σ = true := by
  classical
  induction fs with
  | nil => exact ⟨fun _ => false, by simp⟩
  | cons f fs ih =>
    rw [List.pairwise_cons] at hp
    obtain ⟨σ1, h1⟩ := h f (by simp)
    obtain ⟨σ2, h2⟩ := ih (fun g hg => h g (by simp [hg])) hp.2
    refine ⟨fun v => if Occ v f then σ1 v else σ2 v, fun g hg => ?_⟩
    rcases List.mem_cons.1 hg with rfl | hg
    · rw [← h1]; exact eval_congr fun v hv => by simp [hv]
    · rw [← h2 g hg]; exact eval_congr fun v hv => by simp [show ¬ Occ v f from fun h' => hp.1 g hg v ⟨h', hv⟩]

theorem eval_mkAnd {K : Canon} {fs : List Formula} {σ : Asg} : (mkAnd K fs).eval σ = true ↔ ∀ f ∈ fs, f.eval σ = true := by
  rw [eval_mkNary]; simp [Op.eval]

theorem eval_mkOr {K : Canon} {fs : List Formula} {σ : Asg} : (mkOr K fs).eval σ = true ↔ ∃ f ∈ fs, f.eval σ = true := by
  rw [eval_mkNary]; simp [Op.eval]

/-- Adding the newly implied literals to right formulas for parts of the tree. -/
theorem exact_conj {imp : List Nat} {gs : List Formula} (hn : nm.Nodup) (hr : ∀ l ∈ imp, vr l < nm.length) (hd : (imp.map vr).Nodup)
    (ha : ∀ l ∈ imp, s.value l ≠ none) (hlen : ∀ v ∈ openVars s t, v < nm.length)
    (he : ∀ σ, (∀ g ∈ gs, g.eval σ = true) ↔ Res nm s t σ)
    (ho : ∀ g ∈ gs, ∀ x, Occ x g → ∃ v ∈ openVars s t, x = nm.getD v default) (hg : ∀ g ∈ gs, g.Norm ∧ Ddnnf g ∧ ∃ σ, g.eval σ = true) (hp : gs.Pairwise Dj) :
    Exact nm s t imp (mkAnd K (mkAnd K (imp.map fun l => .lit (litOf nm l)) :: gs)) := by
  obtain ⟨i1, i2, i3, i4, i5, i6⟩ := imp_ok (nm := nm) K hn hr hd
  have hnorm : ∀ f ∈ mkAnd K (imp.map fun l => .lit (litOf nm l)) :: gs, f.Norm := by
    intro f hf
    rcases List.mem_cons.1 hf with rfl | hf
    · exact i3
    · exact (hg f hf).1
  have hdj : (mkAnd K (imp.map fun l => .lit (litOf nm l)) :: gs).Pairwise Dj := by
    rw [List.pairwise_cons]
    refine ⟨fun g hg v ⟨h1, h2⟩ => ?_, hp⟩
    obtain ⟨w, hw, e⟩ := i2 v h1
    obtain ⟨w', hw', e'⟩ := ho g hg v h2
    obtain ⟨l, hl, rfl⟩ := List.mem_map.1 hw
    have := name_inj hn (hr l hl) (hlen w' hw') (e.symm.trans e')
    exact ha l hl (value_none_iff.2 (this ▸ openVars_none hw'))
  have hsat : ∃ σ, (mkAnd K (mkAnd K (imp.map fun l => .lit (litOf nm l)) :: gs)).eval σ = true := by
    obtain ⟨σ, h⟩ := sat_together (fun f hf => by
      rcases List.mem_cons.1 hf with rfl | hf
      · exact i5
      · exact (hg f hf).2.2) hdj
    exact ⟨σ, eval_mkAnd.2 h⟩
  refine ⟨fun σ => ?_, fun x hx => ?_, norm_mkNary _ _ hnorm, ddnnf_mkAnd hnorm (fun f hf => ?_) hdj, hsat, fun l hl => ?_⟩
  · rw [eval_mkAnd, ← i1, ← he]
    simp only [List.mem_cons, forall_eq_or_imp]
  · obtain ⟨f, hf, hx⟩ := occ_mkNary hx
    rcases List.mem_cons.1 hf with rfl | hf
    · obtain ⟨v, hv, e⟩ := i2 x hx; exact ⟨v, .inl hv, e⟩
    · obtain ⟨v, hv, e⟩ := ho f hf x hx; exact ⟨v, .inr hv, e⟩
  · rcases List.mem_cons.1 hf with rfl | hf
    · exact i4
    · exact (hg f hf).2.1
  · refine (parts_mkNary hnorm (List.mem_cons_self ..) (i6 l hl) rfl (by simp)).resolve_left ?_
    intro e
    obtain ⟨σ, h⟩ := hsat
    rw [show mkAnd K _ = _ from e] at h; cases h

/-! ### Leaves -/

/-- The operands that `leaf2ddnnf` builds from the unassigned literals. -/
def leafList (K : Canon) (nm : List Var) : List Nat → List Nat → List Formula
  | [], _ => []
  | l :: ls, cl => mkAnd K (cl.map (fun l => .lit (litOf nm l).neg) ++ [.lit (litOf nm l)]) :: leafList K nm ls (cl ++ [l])

theorem leafOps_eq (K : Canon) (nm : List Var) (s : Core) (ls : List Nat) : ∀ cl,
    leafOps K nm s ls (cl.map fun l => .lit (litOf nm l).neg) =
      if ∃ l ∈ ls, s.value l = some true then none else some (leafList K nm (ls.filter fun l => s.value l == none) cl) := by
  induction ls with
  | nil => intro cl; simp [leafOps, leafList]
  | cons l ls ih =>
    intro cl
    have e : cl.map (fun l => Formula.lit (litOf nm l).neg) ++ [.lit (litOf nm l).neg] = (cl ++ [l]).map fun l => .lit (litOf nm l).neg := by simp
    unfold leafOps
    rcases hv : s.value l with _ | b
    · simp only [e, ih]
      split <;> rename_i h
      · rw [if_pos (by obtain ⟨x, hx, h⟩ := h; exact ⟨x, by simp [hx], h⟩)]; rfl
      · rw [if_neg (by
          rintro ⟨x, hx, h'⟩
          rcases List.mem_cons.1 hx with rfl | hx
          · rw [hv] at h'; cases h'
          · exact h ⟨x, hx, h'⟩)]
        simp [hv, leafList]
    · cases b
      · simp only [ih]
        have : (∃ x ∈ l :: ls, s.value x = some true) ↔ ∃ x ∈ ls, s.value x = some true := by simp [hv]
        simp [hv]
      · rw [if_pos ⟨l, by simp, hv⟩]

theorem leafList_ok (hn : nm.Nodup) (ls : List Nat) : ∀ cl, (∀ l ∈ cl ++ ls, vr l < nm.length) → ((cl ++ ls).map vr).Nodup →
    (∀ σ, (∃ f ∈ leafList K nm ls cl, f.eval σ = true) ↔ (∀ l ∈ cl, ¬ T nm σ l) ∧ ∃ l ∈ ls, T nm σ l) ∧
    (∀ f ∈ leafList K nm ls cl, f.Norm ∧ Ddnnf f ∧ (∀ gs, f ≠ .nary .disj gs) ∧ ∀ x, Occ x f → ∃ l ∈ cl ++ ls, x = nm.getD (vr l) default) ∧
    (leafList K nm ls cl).Pairwise Excl := by
  induction ls with
  | nil => intro cl _ _; simp [leafList]
  | cons l ls ih =>
    intro cl hr hd
    obtain ⟨h1, h2, h3⟩ := ih (cl ++ [l]) (by simpa using hr) (by simpa using hd)
    have hev : ∀ σ, (mkAnd K (cl.map (fun l => .lit (litOf nm l).neg) ++ [.lit (litOf nm l)])).eval σ = true ↔ (∀ l ∈ cl, ¬ T nm σ l) ∧ T nm σ l := by
      intro σ
      rw [eval_mkAnd]
      simp only [List.mem_append, List.mem_map, List.mem_singleton]
      constructor
      · intro h
        exact ⟨fun k hk => eval_lit_neg_T.1 (h _ (.inl ⟨k, hk, rfl⟩)), eval_lit_T.1 (h _ (.inr rfl))⟩
      · rintro ⟨a, b⟩ f (⟨k, hk, rfl⟩ | rfl)
        · exact eval_lit_neg_T.2 (a k hk)
        · exact eval_lit_T.2 b
    refine ⟨fun σ => ?_, fun f hf => ?_, ?_⟩
    · simp only [leafList, List.mem_cons, exists_eq_or_imp, hev, h1, List.mem_append, List.mem_singleton]
      constructor
      · rintro (⟨a, b⟩ | ⟨a, k, hk, b⟩)
        · exact ⟨a, .inl b⟩
        · exact ⟨fun l hl => a l (.inl hl), .inr ⟨k, hk, b⟩⟩
      · rintro ⟨a, b⟩
        by_cases hl : T nm σ l
        · exact .inl ⟨a, hl⟩
        · rcases b with b | ⟨k, hk, b⟩
          · exact absurd b hl
          · exact .inr ⟨fun x hx => hx.elim (a x) (fun e => by simp at e; exact e ▸ hl), k, hk, b⟩
    · rcases List.mem_cons.1 hf with rfl | hf
      · have hnorm : ∀ f ∈ cl.map (fun l => Formula.lit (litOf nm l).neg) ++ [.lit (litOf nm l)], f.Norm := by
          intro f hf
          simp only [List.mem_append, List.mem_map, List.mem_singleton] at hf
          rcases hf with ⟨k, _, rfl⟩ | rfl <;> exact .lit _
        have hocc : ∀ f ∈ cl.map (fun l => Formula.lit (litOf nm l).neg) ++ [.lit (litOf nm l)], ∀ x, Occ x f → ∃ k ∈ cl ++ l :: ls, x = nm.getD (vr k) default := by
          intro f hf x hx
          simp only [List.mem_append, List.mem_map, List.mem_singleton] at hf
          rcases hf with ⟨k, hk, rfl⟩ | rfl
          · exact ⟨k, by simp [hk], by simpa [litOf, eq_comm] using hx⟩
          · exact ⟨l, by simp, occ_litOf.1 hx⟩
        refine ⟨norm_mkNary _ _ hnorm, ddnnf_mkAnd hnorm (fun f hf => ?_) ?_, fun gs e => ?_, fun x hx => ?_⟩
        · simp only [List.mem_append, List.mem_map, List.mem_singleton] at hf
          rcases hf with ⟨k, _, rfl⟩ | rfl <;> exact .lit _
        · have hd1 : (cl ++ [l]).Pairwise fun a b => vr a ≠ vr b :=
            List.pairwise_map.1 (hd.sublist (List.Sublist.map vr (by simp)))
          have hr1 : ∀ k ∈ cl ++ [l], vr k < nm.length := fun k hk => hr k (by
            simp only [List.mem_append, List.mem_singleton] at hk
            rcases hk with hk | rfl <;> simp [*])
          rw [List.pairwise_append] at hd1 ⊢
          obtain ⟨p1, _, p3⟩ := hd1
          refine ⟨?_, by simp, ?_⟩
          · rw [List.pairwise_map]
            refine p1.imp_of_mem fun {a b} ha hb h v ⟨o1, o2⟩ => h ?_
            have o1 : v = nm.getD (vr a) default := by simpa [litOf, eq_comm] using o1
            have o2 : v = nm.getD (vr b) default := by simpa [litOf, eq_comm] using o2
            exact name_inj hn (hr1 _ (by simp [ha])) (hr1 _ (by simp [hb])) (o1.symm.trans o2)
          · intro f hf g hg v ⟨o1, o2⟩
            obtain ⟨a, ha, rfl⟩ := List.mem_map.1 hf
            rw [List.mem_singleton] at hg; subst hg
            have o1 : v = nm.getD (vr a) default := by simpa [litOf, eq_comm] using o1
            exact p3 a ha l (by simp) (name_inj hn (hr1 _ (by simp [ha])) (hr1 _ (by simp)) (o1.symm.trans (occ_litOf.1 o2)))
        · have := parts_mkNary (K := K) (o := .conj) hnorm (f := .lit (litOf nm l)) (g := .lit (litOf nm l)) (by simp) (by rw [parts_of_ne (by simp)]; simp) rfl (by simp)
          have e : mkNary K .conj (cl.map (fun l => .lit (litOf nm l).neg) ++ [.lit (litOf nm l)]) = .nary .disj gs := e
          rw [e] at this
          rcases this with h | h
          · cases h
          · rw [parts_of_ne (by simp)] at h; simp at h
        · obtain ⟨f, hf, hx⟩ := occ_mkNary hx
          exact hocc f hf x hx
      · obtain ⟨a, b, c, d⟩ := h2 f hf
        refine ⟨a, b, c, fun x hx => ?_⟩
        obtain ⟨k, hk, e⟩ := d x hx
        exact ⟨k, by simpa using hk, e⟩
    · simp only [leafList, List.pairwise_cons]
      refine ⟨fun f hf σ ⟨e1, e2⟩ => ?_, h3⟩
      have := ((h1 σ).1 ⟨f, hf, e2⟩).1 l (by simp)
      exact this ((hev σ).1 e1).2

/-- `leaf2ddnnf` is right. -/
theorem leaf_exact (K : Canon) (hn : nm.Nodup) {id : Nat} {ls : List Nat} (hr : ∀ l ∈ ls, vr l < nm.length) (hd : (ls.map vr).Nodup)
    (hopen : (∃ l ∈ ls, s.value l = some true) ∨ ∃ l ∈ ls, s.value l = none) : Exact nm s (.leaf id ls) [] (leafDnnf K nm s ls) := by
  unfold leafDnnf
  have e := leafOps_eq K nm s ls []
  simp only [List.map_nil] at e
  rw [e]
  by_cases ht : ∃ l ∈ ls, s.value l = some true
  · rw [if_pos ht]
    have hno : openLeaves s (.leaf id ls) = [] := by
      rw [List.eq_nil_iff_forall_not_mem]
      intro c hc
      obtain ⟨h1, h2⟩ := mem_openLeaves.1 hc
      simp only [DTree.leaves, List.mem_singleton] at h1
      subst h1
      obtain ⟨l, hl, hv⟩ := ht
      exact h2 l hl hv
    exact ⟨fun σ => by simp [Res, hno], fun x hx => by simp at hx, .tru, .tru, ⟨fun _ => false, rfl⟩, by simp⟩
  · rw [if_neg ht]
    have hno : openLeaves s (.leaf id ls) = [(id, ls)] := by
      unfold openLeaves
      simp only [DTree.leaves]
      rw [List.filter_eq_self]
      intro c hc
      rw [List.mem_singleton] at hc; subst hc
      rw [List.all_eq_true]
      intro l hl
      simp only [bne_iff_ne, ne_eq]
      exact fun h => ht ⟨l, hl, h⟩
    obtain ⟨k, hk, hkv⟩ := hopen.resolve_left ht
    have hsub : (ls.filter fun l => s.value l == none).Sublist ls := List.filter_sublist
    obtain ⟨h1, h2, h3⟩ := leafList_ok (K := K) hn (ls.filter fun l => s.value l == none) [] (fun l hl => hr l (hsub.subset (by simpa using hl)))
      (hd.sublist (by simpa using hsub.map vr))
    have hev : ∀ σ, (mkOr K (leafList K nm (ls.filter fun l => s.value l == none) [])).eval σ = true ↔ Res nm s (.leaf id ls) σ := by
      intro σ
      rw [eval_mkOr, h1]
      simp [Res, hno, and_assoc]
    refine ⟨fun σ => by rw [hev]; simp, fun x hx => ?_, norm_mkNary _ _ fun f hf => (h2 f hf).1, ddnnf_mkOr (fun f hf => (h2 f hf).2.1) (fun f hf => (h2 f hf).2.2.1) h3, ?_, by simp⟩
    · obtain ⟨f, hf, hx⟩ := occ_mkNary hx
      obtain ⟨l, hl, e⟩ := (h2 f hf).2.2.2 x hx
      simp only [List.nil_append, List.mem_filter, beq_iff_eq] at hl
      exact ⟨vr l, .inr (mem_openVars.2 ⟨(id, ls), by rw [hno]; simp, l, hl.1, hl.2, rfl⟩), e⟩
    · refine ⟨fun x => decide (x = nm.getD (vr k) default ∧ sgn k = false), (hev _).2 ?_⟩
      intro c hc
      rw [hno, List.mem_singleton] at hc; subst hc
      refine ⟨k, hk, hkv, T_iff.2 ?_⟩
      cases sgn k <;> simp

end Verif.Dnnf
