import Verif.F.TsSize
/-
The size of the Plaisted-Greenbaum transformation.
-/
namespace Verif
open ER

namespace Size

/-- The literal of a formula. -/
def plit (st : TState) : Formula → Lit
  | .lit l => l
  | f => litOf st f

/-- The clauses of a node. -/
def pgNodeCl (C : Canon) (st : TState) : Formula → List Formula
  | .nary .conj fs => fs.map fun f => Formula.mkClause C [(plit st (.nary .conj fs)).neg, plit st f]
  | .nary .disj fs => [Formula.mkClause C ((plit st (.nary .disj fs)).neg :: fs.map (plit st))]
  | _ => []

/-- A bound for the measure of the clauses of a node. -/
def pgBound (w : Nat → Nat) : Formula → Nat
  | .nary .conj fs => fs.length * w 2
  | .nary .disj fs => w (fs.length + 1)
  | _ => 0

theorem pgNode_cl {C st f c} (h : c ∈ pgNodeCl C st f) : IsCl .disj c := by
  cases f with
  | nary o fs =>
    cases o with
    | conj =>
      simp only [pgNodeCl, List.mem_map] at h
      obtain ⟨f, _, rfl⟩ := h
      exact isCl_mkClause C _
    | disj =>
      simp only [pgNodeCl, List.mem_singleton] at h
      subst h
      exact isCl_mkClause C _
  | _ => simp [pgNodeCl] at h

theorem mkClause_lits (C : Canon) (c : Clause) : (clauseLits (Formula.mkClause C c)).length ≤ c.length := by
  have := mkOr_lits C (gs := c.map .lit) (by intro f hf; obtain ⟨l, _, rfl⟩ := List.mem_map.1 hf; exact .inl ⟨l, rfl⟩)
  simpa [Formula.mkClause] using this

theorem pgNode_sum {w : Nat → Nat} (hw : ∀ a b, a ≤ b → w a ≤ w b) (C : Canon) (st : TState) (f : Formula) :
    ((pgNodeCl C st f).map fun c => w (clauseLits c).length).sum ≤ pgBound w f := by
  cases f with
  | nary o fs =>
    cases o with
    | conj =>
      simp only [pgNodeCl, pgBound, List.map_map]
      exact sum_le_mul _ (w 2) fs fun f _ => hw _ _ (mkClause_lits C _)
    | disj =>
      simp only [pgNodeCl, pgBound, List.map_cons, List.map_nil, List.sum_cons, List.sum_nil, Nat.add_zero]
      exact hw _ _ (le_trans (mkClause_lits C _) (by simp))
  | _ => simp [pgNodeCl, pgBound]

/-- The node and its operands have variables. -/
def Kn (st : TState) (f : Formula) : Prop := ∀ g, g = f ∨ g ∈ f.operands → g.isLit = false → (st.varOf g).isSome = true

theorem Kn.mono {st st' f} (h : Kn st f) (hle : TLe st st') : Kn st' f := fun g hg hl => by
  obtain ⟨l, e⟩ := Option.isSome_iff_exists.1 (h g hg hl)
  rw [hle g l e]; rfl

theorem plit_mono {st st' f} (hle : TLe st st') (h : f.isLit = false → (st.varOf f).isSome = true) : plit st' f = plit st f := by
  cases hl : f.isLit with
  | true => cases f <;> simp [Formula.isLit] at hl; rfl
  | false =>
    obtain ⟨l, e⟩ := Option.isSome_iff_exists.1 (h hl)
    cases f <;> simp [Formula.isLit] at hl <;> simp [plit, litOf, e, hle _ l e]

theorem pgNode_mono {C st st' f} (h : Kn st f) (hle : TLe st st') : pgNodeCl C st' f = pgNodeCl C st f := by
  cases f with
  | nary o fs =>
    have hx := plit_mono hle (h (.nary o fs) (.inl rfl))
    have hop : ∀ g ∈ fs, plit st' g = plit st g := fun g hg => plit_mono hle (h g (.inr (by simpa [Formula.operands] using hg)))
    cases o with
    | conj => simp only [pgNodeCl, hx]; exact List.map_congr_left fun g hg => by rw [hop g hg]
    | disj => simp only [pgNodeCl, hx, List.map_congr_left hop]
  | _ => rfl

/-- The invariant. -/
def PgSz (C : Canon) (st : TState) : Prop := ∀ f d, st.formula f = some d → LeafIn d (pgNodeCl C st f) ∧ Kn st f

theorem PgSz.empty (C : Canon) : PgSz C .empty := fun _ _ h => by cases h

theorem PgSz.vars {C st st'} (h : PgSz C st) (hle : TLe st st') (hf : st'.formula = st.formula) : PgSz C st' := fun f d e => by
  rw [hf] at e
  obtain ⟨h1, h2⟩ := h f d e
  exact ⟨by rw [pgNode_mono h2 hle]; exact h1, h2.mono hle⟩

/-- What changes the variables. -/
structure VStep (st : TState) (w : World) (st' : TState) (w' : World) (fs : List Formula) : Prop where
  le : TLe st st'
  pot : ∀ N, (∀ f ∈ fs, f.isLit = false → f ∈ N) → pot N st' w' ≤ pot N st w

theorem pgVar_size (f : Formula) (st : TState) (w : World) : ∃ st' w', pgVar f st w = (plit st' f, st', w') ∧ VStep st w st' w' [f] ∧ st'.formula = st.formula ∧
    (f.isLit = false → (st'.varOf f).isSome = true) := by
  cases hl : f.isLit with
  | true =>
    cases f <;> simp [Formula.isLit] at hl
    exact ⟨st, w, rfl, ⟨fun _ _ e => e, fun _ _ => le_rfl⟩, rfl, fun h => by cases h⟩
  | false =>
    have e : pgVar f st w = match st.varOf f with
        | some l => (l, st, w)
        | none => (w.newCnf.1.p, { st with varOf := mapPut st.varOf f w.newCnf.1.p }, w.newCnf.2) := by
      cases f <;> simp [Formula.isLit] at hl <;> rfl
    have hpl : ∀ st : TState, plit st f = litOf st f := fun st => by cases f <;> simp [Formula.isLit] at hl <;> rfl
    cases hv : st.varOf f with
    | some l => exact ⟨st, w, by rw [e, hv, hpl]; simp [litOf, hv], ⟨fun _ _ e => e, fun _ _ => le_rfl⟩, rfl, fun _ => by rw [hv]; rfl⟩
    | none =>
      refine ⟨{ st with varOf := mapPut st.varOf f w.newCnf.1.p }, w.newCnf.2, by rw [e, hv, hpl]; simp [litOf, mapPut], ⟨fun g l e' => ?_, fun N hN => pot_new (hN f (by simp) hl) hv _⟩, rfl, fun _ => by simp [mapPut]⟩
      simp only [mapPut]
      split
      · rename_i hg; subst hg; rw [hv] at e'; cases e'
      · exact e'

theorem pgVars_size (fs : List Formula) : ∀ (st : TState) (w : World), ∃ st' w', pgVars fs st w = (fs.map (plit st'), st', w') ∧ VStep st w st' w' fs ∧ st'.formula = st.formula ∧
    ∀ f ∈ fs, f.isLit = false → (st'.varOf f).isSome = true := by
  induction fs with
  | nil => intro st w; exact ⟨st, w, rfl, ⟨fun _ _ e => e, fun _ _ => le_rfl⟩, rfl, by simp⟩
  | cons f fs ih =>
    intro st w
    obtain ⟨s1, w1, e1, v1, f1, k1⟩ := pgVar_size f st w
    obtain ⟨s2, w2, e2, v2, f2, k2⟩ := ih s1 w1
    refine ⟨s2, w2, ?_, ⟨v1.le.trans v2.le, fun N hN => le_trans (v2.pot N fun g hg => hN g (by simp [hg])) (v1.pot N fun g hg => hN g (by simp at hg; simp [hg]))⟩, f2.trans f1, fun g hg hl => ?_⟩
    · simp only [pgVars, e1, e2, List.map_cons, plit_mono v2.le k1]
    · rcases List.mem_cons.1 hg with rfl | hg
      · obtain ⟨l, e⟩ := Option.isSome_iff_exists.1 (k1 hl)
        rw [v2.le _ l e]; rfl
      · exact k2 g hg hl

theorem pgPos_size {C : Canon} {o fs st w} (h : PgSz C st) : ∃ d st' w', pgPos C o fs st w = (d, st', w') ∧ PgSz C st' ∧ VStep st w st' w' (.nary o fs :: fs) ∧
    LeafIn d (pgNodeCl C st' (.nary o fs)) ∧ Kn st' (.nary o fs) := by
  unfold pgPos
  cases hs : st.formula (.nary o fs) with
  | some d => exact ⟨d, st, w, rfl, h, ⟨fun _ _ e => e, fun _ _ => le_rfl⟩, h _ d hs⟩
  | none =>
    obtain ⟨s1, w1, e1, v1, f1, k1⟩ := pgVar_size (.nary o fs) st w
    obtain ⟨s2, w2, e2, v2, f2, k2⟩ := pgVars_size fs s1 w1
    simp only [e1, e2]
    have hk : Kn s2 (.nary o fs) := fun g hg hl => by
      rcases hg with rfl | hg
      · obtain ⟨l, e⟩ := Option.isSome_iff_exists.1 (k1 hl)
        rw [v2.le _ l e]; rfl
      · exact k2 g (by simpa [Formula.operands] using hg) hl
    have hleaf : LeafIn (pgClauses C o (plit s1 (.nary o fs)) (fs.map (plit s2))) (pgNodeCl C s2 (.nary o fs)) := by
      rw [← plit_mono v2.le k1]
      cases o with
      | conj =>
        simp only [pgClauses, pgNodeCl, List.map_map]
        refine leafIn_mkAnd fun f hf => .cl ?_ hf
        obtain ⟨g, _, rfl⟩ := List.mem_map.1 hf
        exact isCl_mkClause C _
      | disj => exact .cl (isCl_mkClause C _) (by simp [pgNodeCl, pgClauses])
    have hz2 : PgSz C s2 := h.vars (v1.le.trans v2.le) (f2.trans f1)
    refine ⟨_, _, _, rfl, fun f d e => ?_, ⟨v1.le.trans v2.le, fun N hN => ?_⟩, hleaf, hk⟩
    · simp only [mapPut] at e
      split at e
      · rename_i hg; subst hg; injection e with e; subst e; exact ⟨hleaf, hk⟩
      · exact hz2 f d e
    · exact le_trans (v2.pot N fun g hg => hN g (by simp [hg])) (v1.pot N fun g hg => hN g (by simp at hg; simp [hg]))

/-- The clauses of `d` are clauses of nodes of `f`. -/
def Nodes (C : Canon) (st : TState) (f d : Formula) : Prop := ∀ c, OLeaf .conj c d → c.isConst = false → ∃ g, Sub g f ∧ c ∈ pgNodeCl C st g ∧ Kn st g

theorem Nodes.mono {C st st' f d} (h : Nodes C st f d) (hle : TLe st st') : Nodes C st' f d := fun c hc hcc => by
  obtain ⟨g, h1, h2, h3⟩ := h c hc hcc
  exact ⟨g, h1, by rw [pgNode_mono h3 hle]; exact h2, h3.mono hle⟩

theorem pgG_size {C : Canon} (f : Formula) : ∀ {st w d st' w'}, PgSz C st → pgG C f st w = some (d, st', w') →
    PgSz C st' ∧ TLe st st' ∧ (∀ N, (∀ g, Sub g f → g.isLit = false → g ∈ N) → pot N st' w' ≤ pot N st w) ∧ Nodes C st' f d := by
  induction f using Formula.ind with
  | lit l =>
    intro st w d st' w' h e
    simp only [pgG, Option.some.injEq, Prod.mk.injEq] at e
    obtain ⟨rfl, rfl, rfl⟩ := e
    exact ⟨h, fun _ _ e => e, fun _ _ => le_rfl, fun c hc hcc => absurd (LeafIn.const (L := []) rfl c hc hcc) (by simp)⟩
  | nary o fs ih =>
    intro st w d st' w' h e
    obtain ⟨d1, s1, w1, e1, z1, v1, l1, k1⟩ := pgPos_size (C := C) (o := o) (fs := fs) (w := w) h
    have hlist : ∀ fs : List Formula, (∀ f ∈ fs, ∀ {st w d st' w'}, PgSz C st → pgG C f st w = some (d, st', w') →
        PgSz C st' ∧ TLe st st' ∧ (∀ N, (∀ g, Sub g f → g.isLit = false → g ∈ N) → pot N st' w' ≤ pot N st w) ∧ Nodes C st' f d) →
        ∀ {st w gs st' w'}, PgSz C st → pgGs C fs st w = some (gs, st', w') →
          PgSz C st' ∧ TLe st st' ∧ (∀ N, (∀ f ∈ fs, ∀ g, Sub g f → g.isLit = false → g ∈ N) → pot N st' w' ≤ pot N st w) ∧ ∀ d ∈ gs, ∃ f ∈ fs, Nodes C st' f d := by
      intro fs
      induction fs with
      | nil =>
        intro _ st w gs st' w' h e
        simp only [pgGs, Option.some.injEq, Prod.mk.injEq] at e
        obtain ⟨rfl, rfl, rfl⟩ := e
        exact ⟨h, fun _ _ e => e, fun _ _ => le_rfl, by simp⟩
      | cons f fs ihl =>
        intro ih st w gs st' w' h e
        rw [pgGs] at e
        cases e2 : pgG C f st w with
        | none => simp [e2] at e
        | some q =>
          obtain ⟨d, s2, w2⟩ := q
          simp only [e2] at e
          cases e3 : pgGs C fs s2 w2 with
          | none => simp [e3] at e
          | some q =>
            obtain ⟨gs', s3, w3⟩ := q
            simp only [e3, Option.some.injEq, Prod.mk.injEq] at e
            obtain ⟨rfl, rfl, rfl⟩ := e
            obtain ⟨z2, t2, p2, n2⟩ := ih f (by simp) h e2
            obtain ⟨z3, t3, p3, n3⟩ := ihl (fun f hf => ih f (by simp [hf])) z2 e3
            refine ⟨z3, t2.trans t3, fun N hN => le_trans (p3 N fun f hf => hN f (by simp [hf])) (p2 N (hN f (by simp))), fun d' hd' => ?_⟩
            rcases List.mem_cons.1 hd' with rfl | hd'
            · exact ⟨f, by simp, n2.mono t3⟩
            · obtain ⟨f', hf', h'⟩ := n3 d' hd'
              exact ⟨f', by simp [hf'], h'⟩
    simp only [pgG, e1] at e
    cases e2 : pgGs C fs s1 w1 with
    | none => simp [e2] at e
    | some q =>
      obtain ⟨gs, s2, w2⟩ := q
      simp only [e2, Option.some.injEq, Prod.mk.injEq] at e
      obtain ⟨rfl, rfl, rfl⟩ := e
      obtain ⟨z2, t2, p2, n2⟩ := hlist fs (fun f hf => ih f hf) z1 e2
      have hop : ∀ f ∈ fs, Sub f (.nary o fs) := fun f hf => op_sub (by simpa [Formula.operands] using hf)
      refine ⟨z2, v1.le.trans t2, fun N hN => le_trans (p2 N fun f hf g hg => hN g (hg.trans (hop f hf))) (v1.pot N fun g hg hl => ?_), ?_⟩
      · rcases List.mem_cons.1 hg with rfl | hg
        · exact hN _ (.refl _) hl
        · exact hN g (hop g hg) hl
      · -- the clauses of the conjunction
        have hnode : ∀ d ∈ d1 :: gs, ∀ c, OLeaf .conj c d → c.isConst = false → ∃ g, Sub g (.nary o fs) ∧ c ∈ pgNodeCl C s2 g ∧ Kn s2 g := by
          intro d hd c hc hcc
          rcases List.mem_cons.1 hd with rfl | hd
          · exact ⟨_, .refl _, by rw [pgNode_mono k1 t2]; exact l1 c hc hcc, k1.mono t2⟩
          · obtain ⟨f, hf, hn⟩ := n2 d hd
            obtain ⟨g, g1, g2⟩ := hn c hc hcc
            exact ⟨g, g1.trans (hop f hf), g2⟩
        intro c hc hcc
        rcases Formula.mkNary_cases C .conj (d1 :: gs) with ⟨e, _⟩ | e | ⟨f, hf, hl⟩ | ⟨l, e, _, hl⟩
        · unfold Formula.mkAnd at hc; rw [e] at hc; exact absurd (LeafIn.const (L := []) rfl c hc hcc) (by simp)
        · unfold Formula.mkAnd at hc; rw [e] at hc; exact absurd (LeafIn.const (L := []) rfl c hc hcc) (by simp)
        · have : c = Formula.mkNary C .conj (d1 :: gs) := oleaf_flat hc (Formula.OLeaf.flat hl)
          exact hnode f hf c (this ▸ hl) hcc
        · unfold Formula.mkAnd at hc
          rw [e] at hc
          cases hc with
          | self hs => exact absurd rfl (hs _)
          | @nary _ g hg hc =>
            obtain ⟨⟨f, hf, hfl⟩, _⟩ := hl g hg
            have := oleaf_flat hc (Formula.OLeaf.flat hfl)
            exact hnode f hf c (this ▸ hfl) hcc
  | _ => intro st w d st' w' h e; simp [pgG] at e

/-- `pg_on_formula`: the state stays fine, and past the bound the size of the result is linear. -/
theorem pgCnf_size {C : Canon} {cfg : FCfg} (hcfg : cfg.cc.Good) {c0 w E st} (h : WInv c0 w E) (hi : PgInv E w.cnt st) (hz : PgSz C st) {bound : Nat}
    {f : Formula} (hp : PTop cfg w.cnt f) {g st' w'} (e : pgCnf C cfg bound f st w = some (g, st', w')) :
    PgSz C st' ∧ ∀ n w1, nnf C cfg f w = some (n, w1) → n.isCnfF = false → ¬ fnAtoms64.val n < bound →
      ∀ N : List Formula, (∀ k, Sub k n → k.isLit = false → k ∈ N) →
        (∀ m : Nat → Nat, (∀ a b, a ≤ b → m a ≤ m b) → msum m g ≤ (N.map (pgBound m)).sum) ∧ w'.cnt .cnf ≤ w1.cnt .cnf + N.length := by
  obtain ⟨n, w1, E1, e1, h1, x1, k1⟩ := nnf_ok (C := C) hcfg h hp
  have hi1 := hi.mono x1
  obtain ⟨g', st'', w'', E', e', _, _, _, kk, _⟩ := pgCnf_ok (C := C) hcfg h hi bound hp
  rw [e] at e'
  simp only [Option.some.injEq, Prod.mk.injEq] at e'
  obtain ⟨rfl, rfl, rfl⟩ := e'
  have hgc : IsCnf g := kk.shape
  have hgn : g.Norm := kk.norm
  clear kk
  unfold pgCnf at e
  simp only [e1] at e
  by_cases hc : n.isCnfF = true
  · simp only [hc, if_true, Option.some.injEq, Prod.mk.injEq] at e
    obtain ⟨rfl, rfl, rfl⟩ := e
    refine ⟨hz, fun n' w1' e2 hc' => ?_⟩
    simp only [e1, Option.some.injEq, Prod.mk.injEq] at e2
    rw [← e2.1, hc] at hc'; cases hc'
  · simp only [if_neg hc] at e
    by_cases hb : fnAtoms64.val n < bound
    · simp only [if_pos hb] at e
      cases e2 : factorizationCnf C cfg n w1 with
      | none => simp [e2] at e
      | some q =>
        simp only [e2, Option.some.injEq, Prod.mk.injEq] at e
        obtain ⟨rfl, rfl, rfl⟩ := e
        refine ⟨hz, fun n' w1' e3 _ hb' => ?_⟩
        simp only [e1, Option.some.injEq, Prod.mk.injEq] at e3
        rw [← e3.1] at hb'
        exact absurd hb hb'
    · simp only [if_neg hb] at e
      have hnary : ∃ o fs, n = .nary o fs := by
        have hs := k1.shape
        cases hs with
        | nary h => exact ⟨_, _, rfl⟩
        | tru => exact absurd ((isCnfF_iff k1.norm).2 (.clause .tru)) hc
        | fls => exact absurd ((isCnfF_iff k1.norm).2 (.clause .fls)) hc
        | lit l => exact absurd ((isCnfF_iff k1.norm).2 (.clause (.lit l))) hc
      obtain ⟨d, st2, w2, E2, e2, p2, d2⟩ := pgG_ok (C := C) n h1 hi1 (tnode_sub k1.norm k1.shape hnary) k1.old
      obtain ⟨z2, _, q2, n2⟩ := pgG_size n hz e2
      simp only [e2] at e
      cases hv : st2.varOf n with
      | none => simp [hv] at e
      | some l =>
        simp only [hv, Option.map_eq_some_iff] at e
        obtain ⟨g', er, e⟩ := e
        simp only [Prod.mk.injEq] at e
        obtain ⟨rfl, rfl, rfl⟩ := e
        refine ⟨z2, fun n' w1' e3 _ _ N hN => ?_⟩
        simp only [e1, Option.some.injEq, Prod.mk.injEq] at e3
        obtain ⟨rfl, rfl⟩ := e3
        refine ⟨fun m hm => ?_, ?_⟩
        · have hleaf : LeafIn d (N.flatMap (pgNodeCl C st2)) := fun c hc hcc => by
            obtain ⟨k, k1, k2, _⟩ := n2 c hc hcc
            refine List.mem_flatMap.2 ⟨k, hN k k1 ?_, k2⟩
            cases k <;> simp only [pgNodeCl, List.not_mem_nil] at k2 <;> rfl
          have hne : N.flatMap (pgNodeCl C st2) ≠ [] := by
            obtain ⟨o, fs, rfl⟩ := hnary
            have h2 : 2 ≤ fs.length := by
              have := k1.norm
              cases this with
              | nary h _ _ => exact h
            have : pgNodeCl C st2 (.nary o fs) ≠ [] := by
              cases o with
              | conj => simp only [pgNodeCl, ne_eq, List.map_eq_nil_iff]; rintro rfl; simp at h2
              | disj => simp [pgNodeCl]
            obtain ⟨c, hc⟩ := List.exists_mem_of_ne_nil _ this
            exact List.ne_nil_of_mem (List.mem_flatMap.2 ⟨_, hN _ (.refl _) rfl, hc⟩)
          refine le_trans (msum_restrict hm d2.shape d2.norm er hgc hgn hleaf (fun c hc => ?_) hne) ?_
          · obtain ⟨k, _, hk⟩ := List.mem_flatMap.1 hc
            exact pgNode_cl hk
          · clear hleaf hne hN
            induction N with
            | nil => simp
            | cons k N ih =>
              simp only [List.flatMap_cons, List.map_append, List.sum_append, List.map_cons, List.sum_cons]
              exact Nat.add_le_add (pgNode_sum hm C st2 k) ih
        · have := q2 N hN
          have hle : (N.countP fun f => (st.varOf f).isNone) ≤ N.length := List.countP_le_length
          simp only [pot] at this
          omega

end Size

end Verif
