import Verif.F.CnfSize
/-
The size of the Tseitin transformation: the definitions in the state consist of the clauses of the nodes.
-/
namespace Verif
open ER

namespace Size

/-- The literal the state has for a formula. -/
def litOf (st : TState) (f : Formula) : Lit := (st.varOf f).getD ⟨.named 0, true⟩

/-- The clauses of a node. -/
def tsNode (C : Canon) (st : TState) : Formula → List Formula
  | .nary o fs => tsClauses C o (litOf st (.nary o fs)).v (fs.map (litOf st))
  | _ => []

/-- A bound for the measure of the clauses of a node. -/
def tsBound (w : Nat → Nat) : Formula → Nat
  | .nary _ fs => fs.length * w 2 + w (fs.length + 1)
  | _ => 0

theorem tsNode_cl {C st f c} (h : c ∈ tsNode C st f) : IsCl .disj c := by
  cases f <;> simp only [tsNode, List.not_mem_nil] at h
  exact (tsClauses_shape _ _ _ _ c h).2.1

theorem sum_le_mul {α : Type} (f : α → Nat) (b : Nat) : ∀ l : List α, (∀ x ∈ l, f x ≤ b) → (l.map f).sum ≤ l.length * b := by
  intro l h
  induction l with
  | nil => simp
  | cons x l ih =>
    have h1 := h x (by simp)
    have h2 := ih fun y hy => h y (by simp [hy])
    simp only [List.map_cons, List.sum_cons, List.length_cons, Nat.add_mul]
    omega

theorem tsNode_sum {w : Nat → Nat} (hw : ∀ a b, a ≤ b → w a ≤ w b) (C : Canon) (st : TState) (f : Formula) :
    ((tsNode C st f).map fun c => w (clauseLits c).length).sum ≤ tsBound w f := by
  cases f with
  | nary o fs =>
    have two : ∀ a b : Lit, w (clauseLits (Formula.mkOr C [.lit a, .lit b])).length ≤ w 2 := fun a b =>
      hw _ _ (mkOr_lits C (gs := [.lit a, .lit b]) (by simp))
    have long : ∀ (a : Lit) (ls : List Lit), w (clauseLits (Formula.mkOr C (.lit a :: ls.map .lit))).length ≤ w (ls.length + 1) := fun a ls => by
      refine hw _ _ (le_trans (mkOr_lits C ?_) (by simp))
      intro f hf
      rcases List.mem_cons.1 hf with rfl | hf
      · exact .inl ⟨_, rfl⟩
      · obtain ⟨l, _, rfl⟩ := List.mem_map.1 hf
        exact .inl ⟨l, rfl⟩
    simp only [tsNode, tsBound]
    generalize (litOf st (.nary o fs)).v = x
    generalize hls : fs.map (litOf st) = ls
    have hlen : fs.length = ls.length := by rw [← hls]; simp
    rw [hlen]
    cases o with
    | conj =>
      simp only [tsClauses, List.map_append, List.sum_append, List.map_map]
      refine Nat.add_le_add ?_ ?_
      · exact sum_le_mul _ (w 2) ls fun l _ => two _ _
      · have := long x.p (ls.map Lit.neg)
        simpa [Function.comp_def] using this
    | disj =>
      simp only [tsClauses, List.map_append, List.sum_append, List.map_map]
      refine Nat.add_le_add ?_ ?_
      · exact sum_le_mul _ (w 2) ls fun l _ => two _ _
      · have := long x.n ls
        simpa using this
  | _ => simp [tsNode, tsBound]

theorem tsNode_congr {C st st' f} (h : ∀ g, g = f ∨ g ∈ f.operands → litOf st g = litOf st' g) : tsNode C st f = tsNode C st' f := by
  cases f with
  | nary o fs =>
    simp only [tsNode]
    rw [h _ (.inl rfl), List.map_congr_left fun g hg => h g (.inr (by simpa [Formula.operands] using hg))]
  | _ => rfl

/-- The invariant: operands of known formulas are known, and definitions consist of the clauses of the nodes. -/
structure TsSz (C : Canon) (st : TState) : Prop where
  known : ∀ f, (st.formula f).isSome = true → ∀ g ∈ f.operands, (st.formula g).isSome = true
  leaf : ∀ f d, st.formula f = some d → f.isLit = false → ∀ c, OLeaf .conj c d → c.isConst = false → ∃ g, Sub g f ∧ c ∈ tsNode C st g

theorem TsSz.empty (C : Canon) : TsSz C .empty := ⟨fun _ h => (by cases h), fun _ _ h => (by cases h)⟩

theorem TsSz.sub {C st} (h : TsSz C st) {f g} (hs : Sub g f) (hf : (st.formula f).isSome = true) : (st.formula g).isSome = true := by
  induction hs with
  | refl => exact hf
  | op ho _ ih => exact ih (h.known _ hf _ ho)

/-- The number of the next variable plus the number of nodes in `N` without a variable. -/
def pot (N : List Formula) (st : TState) (w : World) : Nat := w.cnt .cnf + N.countP fun f => (st.varOf f).isNone

theorem pot_new {N : List Formula} {st : TState} {w : World} {f : Formula} {l : Lit} (hf : f ∈ N) (hn : st.varOf f = none) (d : Formula → Option Formula) :
    pot N ⟨d, mapPut st.varOf f l⟩ w.newCnf.2 ≤ pot N st w := by
  have key : ∀ N : List Formula, N.countP (fun g => (mapPut st.varOf f l g).isNone) + (if f ∈ N then 1 else 0) ≤ N.countP fun g => (st.varOf g).isNone := by
    intro N
    induction N with
    | nil => simp
    | cons g N ih =>
      by_cases hg : g = f
      · subst hg
        simp only [List.countP_cons, mapPut, hn, if_true, List.mem_cons, true_or, Option.isNone_none, Option.isNone_some]
        have : List.countP (fun g_1 => (mapPut st.varOf g l g_1).isNone) N ≤ List.countP (fun g => (st.varOf g).isNone) N := by omega
        simp only [mapPut] at this
        simp only [Bool.false_eq_true, if_false]
        omega
      · have hm : mapPut st.varOf f l g = st.varOf g := by simp [mapPut, hg]
        have hmem : (f ∈ g :: N) ↔ f ∈ N := by simp [Ne.symm hg]
        simp only [List.countP_cons, hm, hmem]
        omega
  have := key N
  simp only [hf, if_true] at this
  simp only [pot, World.newCnf, if_true]
  omega

/-- One call of `compute_tseitin` with all operands known. -/
theorem tsG_size {C : Canon} {E c st w st' w'} (hi : TsInv E c st) (hz : TsSz C st) {f : Formula} (hf : TNode f)
    (hops : ∀ g ∈ f.operands, TNode g ∧ (st.formula g).isSome = true) (e : tsG C f (st, w) = some (st', w')) :
    TsSz C st' ∧ ∀ N, (f.isLit = false → f ∈ N) → pot N st' w' ≤ pot N st w := by
  cases hs : (st.formula f).isSome with
  | true =>
    have : tsG C f (st, w) = some (st, w) := by
      rcases hf with hf | ⟨o, gs, rfl⟩
      · cases f <;> simp [Formula.isLit] at hf; simp [tsG, hs]
      · simp [tsG, hs]
    rw [this] at e
    simp only [Option.some.injEq, Prod.mk.injEq] at e
    obtain ⟨rfl, rfl⟩ := e
    exact ⟨hz, fun _ _ => le_rfl⟩
  | false =>
    have hv : st.varOf f = none := by
      have := hi.dom f
      rw [hs] at this
      exact Option.isNone_iff_eq_none.1 (by simpa using this.symm)
    -- entries for other formulas
    have keep : ∀ (d0 : Formula) (l : Lit), (∀ d, (mapPut st.formula f d0) f = some d → f.isLit = false → ∀ c, OLeaf .conj c d → c.isConst = false →
        ∃ g, Sub g f ∧ c ∈ tsNode C ⟨mapPut st.formula f d0, mapPut st.varOf f l⟩ g) → TsSz C ⟨mapPut st.formula f d0, mapPut st.varOf f l⟩ := by
      intro d0 l hnew
      have hsome : ∀ g, (st.formula g).isSome = true → (mapPut st.formula f d0 g).isSome = true := fun g hg => by
        simp only [mapPut]; split
        · rfl
        · exact hg
      refine ⟨fun g hg k hk => ?_, fun g d hd hl c hc hcc => ?_⟩
      · simp only [mapPut] at hg
        split at hg
        · rename_i h; subst h; exact hsome k (hops k hk).2
        · exact hsome k (hz.known g hg k hk)
      · by_cases h : g = f
        · subst h; exact hnew d hd hl c hc hcc
        · simp only [mapPut, if_neg h] at hd
          obtain ⟨k, k1, k2⟩ := hz.leaf g d hd hl c hc hcc
          refine ⟨k, k1, ?_⟩
          rw [tsNode_congr (st' := st)]
          · exact k2
          · intro j hj
            have hjk : Sub j k := by
              rcases hj with rfl | hj
              · exact .refl _
              · exact op_sub hj
            have hjs := hz.sub (hjk.trans k1) (by rw [hd]; rfl)
            have : j ≠ f := fun e => by rw [e, hs] at hjs; cases hjs
            simp [litOf, mapPut, this]
    rcases hf with hf | ⟨o, gs, rfl⟩
    · cases f with
      | lit l =>
        simp only [tsG, hs, Bool.false_eq_true, if_false, Option.some.injEq, Prod.mk.injEq] at e
        obtain ⟨rfl, rfl⟩ := e
        refine ⟨keep _ _ fun d hd hl => by simp [Formula.isLit] at hl, fun N _ => ?_⟩
        have : ∀ N : List Formula, N.countP (fun g => (mapPut st.varOf (.lit l) l g).isNone) ≤ N.countP fun g => (st.varOf g).isNone := by
          intro N
          refine List.countP_mono_left fun g _ hg => ?_
          simp only [mapPut] at hg
          split at hg
          · simp at hg
          · exact hg
        have := this N
        simp only [pot]
        omega
      | _ => simp [Formula.isLit] at hf
    · obtain ⟨ds, ls, e', h1, h2, h3⟩ := tsOps_known (C := C) gs (w := w.newCnf.2) hi
        (fun g hg => (hops g (by simpa [Formula.operands] using hg)).2) (fun g hg => (hops g (by simpa [Formula.operands] using hg)).1)
      simp only [tsG, hs, Bool.false_eq_true, if_false, e', Option.some.injEq, Prod.mk.injEq] at e
      obtain ⟨rfl, rfl⟩ := e
      refine ⟨keep _ _ fun d hd hl c hc hcc => ?_, fun N hN => pot_new (hN rfl) hv _⟩
      simp only [mapPut, if_true, Option.some.injEq] at hd
      subst hd
      -- the operands keep their literals
      have hls : gs.map (litOf ⟨mapPut st.formula (.nary o gs) (Formula.mkAnd C (ds ++ tsClauses C o w.newCnf.1 ls)), mapPut st.varOf (.nary o gs) w.newCnf.1.p⟩) = ls := by
        have hne : ∀ g ∈ gs, g ≠ .nary o gs := fun g hg e => by
          have h1 := (hops g (by simpa [Formula.operands] using hg)).2
          rw [e, hs] at h1; cases h1
        have : ∀ (gs' : List Formula) (ls' : List Lit), List.Forall₂ (fun f l => st.varOf f = some l) gs' ls' → (∀ g ∈ gs', g ≠ .nary o gs) →
            gs'.map (litOf ⟨mapPut st.formula (.nary o gs) (Formula.mkAnd C (ds ++ tsClauses C o w.newCnf.1 ls)), mapPut st.varOf (.nary o gs) w.newCnf.1.p⟩) = ls' := by
          intro gs' ls' h
          induction h with
          | nil => simp
          | @cons g l gs' ls' hgl _ ih =>
            intro hne
            rw [List.map_cons, ih fun g hg => hne g (by simp [hg])]
            simp [litOf, mapPut, hne g (by simp), hgl]
        exact this gs ls h1 hne
      have hin : LeafIn (Formula.mkAnd C (ds ++ tsClauses C o w.newCnf.1 ls)) (tsClauses C o w.newCnf.1 ls ++ ds.flatMap fun d => (if h : ∃ g ∈ gs, g.isLit = false ∧ st.formula g = some d then
          (fnSub.val h.choose).flatMap (tsNode C st) else [])) := by
        refine leafIn_mkAnd fun d hd => ?_
        rcases List.mem_append.1 hd with hd | hd
        · intro c hc hcc
          have hex := h2 d hd
          obtain ⟨q1, q2, q3⟩ := hex.choose_spec
          obtain ⟨k, k1, k2⟩ := hz.leaf _ d q3 q2 c hc hcc
          refine List.mem_append_right _ (List.mem_flatMap.2 ⟨d, hd, ?_⟩)
          rw [dif_pos hex]
          exact List.mem_flatMap.2 ⟨k, ((sub_val _).1 k).2 k1, k2⟩
        · exact .cl (tsClauses_shape _ _ _ _ d hd).2.1 (List.mem_append_left _ hd)
      rcases List.mem_append.1 (hin c hc hcc) with h | h
      · refine ⟨_, .refl _, ?_⟩
        simp only [tsNode, hls]
        simpa [litOf, mapPut] using h
      · obtain ⟨d, hd, h⟩ := List.mem_flatMap.1 h
        have hex := h2 d hd
        rw [dif_pos hex] at h
        obtain ⟨q1, q2, q3⟩ := hex.choose_spec
        obtain ⟨k, k1, k2⟩ := List.mem_flatMap.1 h
        have k1 := ((sub_val _).1 k).1 k1
        refine ⟨k, k1.trans (op_sub (by simpa [Formula.operands] using q1)), ?_⟩
        rw [tsNode_congr (st' := st)]
        · exact k2
        · intro j hj
          have hjk : Sub j k := by
            rcases hj with rfl | hj
            · exact .refl _
            · exact op_sub hj
          have hjs := hz.sub (hjk.trans k1) (by rw [q3]; rfl)
          have : j ≠ .nary o gs := fun e => by rw [e, hs] at hjs; cases hjs
          simp [litOf, mapPut, this]

theorem tsAll_size {C : Canon} {c0} (fs : List Formula) : ∀ {w E st st' w'} (pre : List Formula), WInv c0 w E → TsInv E w.cnt st → TsSz C st →
    Topo (pre ++ fs) → (∀ f ∈ pre, (st.formula f).isSome = true) → (∀ f ∈ pre ++ fs, TNode f ∧ ∀ v, Occ v f → (cER w.cnt).Old v) →
    tsAll C fs (st, w) = some (st', w') → TsSz C st' ∧ ∀ N, (∀ f ∈ fs, f.isLit = false → f ∈ N) → pot N st' w' ≤ pot N st w := by
  induction fs with
  | nil =>
    intro w E st st' w' pre h hi hz _ hp _ e
    simp only [tsAll, Option.some.injEq, Prod.mk.injEq] at e
    obtain ⟨rfl, rfl⟩ := e
    exact ⟨hz, fun _ _ => le_rfl⟩
  | cons f fs ih =>
    intro w E st st' w' pre h hi hz ht hp hn e
    have hop := ht pre f fs rfl
    have hops : ∀ g ∈ f.operands, TNode g ∧ (st.formula g).isSome = true := fun g hg => ⟨(hn g (by simp [hop g hg])).1, hp g (hop g hg)⟩
    obtain ⟨st1, w1, E1, e1, h1, x1, i1, s1, m1⟩ := tsG_ok (C := C) h hi (hn f (by simp)).1 hops (hn f (by simp)).2
    obtain ⟨z1, p1⟩ := tsG_size hi hz (hn f (by simp)).1 hops e1
    simp only [tsAll, e1] at e
    obtain ⟨z2, p2⟩ := ih (pre ++ [f]) h1 i1 z1 (by simpa using ht)
      (fun g hg => by
        rcases List.mem_append.1 hg with hg | hg
        · exact m1 g (hp g hg)
        · rw [List.mem_singleton.1 hg]; exact s1)
      (fun g hg => by
        have := hn g (by simpa using hg)
        exact ⟨this.1, fun v hv => x1.old (this.2 v hv)⟩) e
    exact ⟨z2, fun N hN => le_trans (p2 N fun f hf => hN f (by simp [hf])) (p1 N (hN f (by simp)))⟩

/-- `tseitin_cnf_with_boundary`: the state stays fine, and past the bound the size of the result is linear. -/
theorem tseitin_size {C : Canon} {cfg : FCfg} (hcfg : cfg.cc.Good) {c0 w E st} (h : WInv c0 w E) (hi : TsInv E w.cnt st) (hz : TsSz C st) {bound : Nat}
    {f : Formula} (hp : PTop cfg w.cnt f) {g st' w'} (e : tseitin C cfg bound f st w = some (g, st', w')) :
    TsSz C st' ∧ ∀ n w1, nnf C cfg f w = some (n, w1) → n.isCnfF = false → ¬ fnAtoms64.val n < bound →
      ∀ N : List Formula, (∀ k, Sub k n → k.isLit = false → k ∈ N) →
        (∀ m : Nat → Nat, (∀ a b, a ≤ b → m a ≤ m b) → msum m g ≤ (N.map (tsBound m)).sum) ∧ w'.cnt .cnf ≤ w1.cnt .cnf + N.length := by
  obtain ⟨n, w1, E1, e1, h1, x1, k1⟩ := nnf_ok (C := C) hcfg h hp
  have hi1 := hi.mono x1
  obtain ⟨g', st'', w'', E', e', _, _, _, kk, _⟩ := tseitin_ok (C := C) hcfg h hi bound hp
  rw [e] at e'
  simp only [Option.some.injEq, Prod.mk.injEq] at e'
  obtain ⟨rfl, rfl, rfl⟩ := e'
  have hgc : IsCnf g := kk.shape
  have hgn : g.Norm := kk.norm
  clear kk
  unfold tseitin at e
  simp only [e1] at e
  by_cases hc : n.isCnfF = true
  · simp only [hc, if_true, Option.some.injEq, Prod.mk.injEq] at e
    obtain ⟨rfl, rfl, rfl⟩ := e
    refine ⟨hz, fun n' w1' e2 hc' => ?_⟩
    simp only [e1, Option.some.injEq, Prod.mk.injEq] at e2
    rw [← e2.1, hc] at hc'; cases hc'
  · simp only [if_neg hc] at e
    by_cases hb : fnAtoms64.val n < bound
    · simp only [if_pos hb] at e
      cases e2 : factorizationCnf C cfg n w1 with
      | none => simp [e2] at e
      | some q =>
        simp only [e2, Option.some.injEq, Prod.mk.injEq] at e
        obtain ⟨rfl, rfl, rfl⟩ := e
        refine ⟨hz, fun n' w1' e3 _ hb' => ?_⟩
        simp only [e1, Option.some.injEq, Prod.mk.injEq] at e3
        rw [← e3.1] at hb'
        exact absurd hb hb'
    · simp only [if_neg hb] at e
      have hnary : ∃ o fs, n = .nary o fs := by
        have hs := k1.shape
        cases hs with
        | nary h => exact ⟨_, _, rfl⟩
        | tru => exact absurd ((isCnfF_iff k1.norm).2 (.clause .tru)) hc
        | fls => exact absurd ((isCnfF_iff k1.norm).2 (.clause .fls)) hc
        | lit l => exact absurd ((isCnfF_iff k1.norm).2 (.clause (.lit l))) hc
      obtain ⟨s1, s2, s3, _⟩ := sub_val n
      have hnodes : ∀ g ∈ [] ++ fnSub.val n, TNode g ∧ ∀ v, Occ v g → (cER w1.cnt).Old v := fun g hg => by
        have hg := (s1 g).1 (by simpa using hg)
        exact ⟨tnode_sub k1.norm k1.shape hnary g hg, fun v hv => k1.old v (hv.sub hg)⟩
      obtain ⟨st2, w2, E2, e2, h2, x2, i2, d2⟩ := tsAll_ok (C := C) (fnSub.val n) [] h1 hi1 (by simpa using s3) (by simp) hnodes
      obtain ⟨z2, p2⟩ := tsAll_size (C := C) (fnSub.val n) [] h1 hi1 hz (by simpa using s3) (by simp) hnodes e2
      have hlit : n.isLit = false := by obtain ⟨o, fs, rfl⟩ := hnary; rfl
      have hdn := d2 n (by simpa using (s1 n).2 (.refl n))
      obtain ⟨d, hd⟩ := Option.isSome_iff_exists.1 hdn
      have hvn : (st2.varOf n).isSome = true := by rw [← i2.dom]; exact hdn
      obtain ⟨l, hl⟩ := Option.isSome_iff_exists.1 hvn
      simp only [e2, hd, hl, Option.map_eq_some_iff, restrict1_eq] at e
      obtain ⟨g', er, e⟩ := e
      simp only [Prod.mk.injEq] at e
      obtain ⟨rfl, rfl, rfl⟩ := e
      have hdef := i2.def_ n d l hd hl hlit
      refine ⟨z2, fun n' w1' e3 _ _ N hN => ?_⟩
      simp only [e1, Option.some.injEq, Prod.mk.injEq] at e3
      obtain ⟨rfl, rfl⟩ := e3
      refine ⟨fun m hm => ?_, ?_⟩
      · have hleaf : LeafIn d (N.flatMap (tsNode C st2)) := fun c hc hcc => by
          obtain ⟨k, k1, k2⟩ := z2.leaf n d hd hlit c hc hcc
          refine List.mem_flatMap.2 ⟨k, hN k k1 ?_, k2⟩
          cases k <;> simp only [tsNode, List.not_mem_nil] at k2 <;> rfl
        have hne : N.flatMap (tsNode C st2) ≠ [] := by
          obtain ⟨o, fs, rfl⟩ := hnary
          have : tsNode C st2 (.nary o fs) ≠ [] := by cases o <;> simp [tsNode, tsClauses]
          obtain ⟨c, hc⟩ := List.exists_mem_of_ne_nil _ this
          exact List.ne_nil_of_mem (List.mem_flatMap.2 ⟨_, hN _ (.refl _) rfl, hc⟩)
        refine le_trans (msum_restrict hm hdef.shape hdef.norm er hgc hgn hleaf (fun c hc => ?_) hne) ?_
        · obtain ⟨k, _, hk⟩ := List.mem_flatMap.1 hc
          exact tsNode_cl hk
        · clear hleaf hne hN
          induction N with
          | nil => simp
          | cons k N ih =>
            simp only [List.flatMap_cons, List.map_append, List.sum_append, List.map_cons, List.sum_cons]
            exact Nat.add_le_add (tsNode_sum hm C st2 k) ih
      · have := p2 N fun k hk => hN k ((s1 k).1 hk)
        have hle : (N.countP fun f => (st.varOf f).isNone) ≤ N.length := List.countP_le_length
        simp only [pot] at this
        omega

end Size

end Verif
