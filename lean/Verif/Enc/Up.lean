import Verif.Enc.AmoLemmas3

/-
Unit propagation on the at-most-one encodings.
-/
namespace Verif
open ER

/-- The literals unit propagation derives from the literals `A` (specification): a literal of a clause all
of whose other literals are false. -/
inductive UP (cs : List Clause) (A : Lit → Prop) : Lit → Prop
  | ass {l} : A l → UP cs A l
  | prop {c l} : c ∈ cs → l ∈ c → (∀ l' ∈ c, l' ≠ l → UP cs A l'.neg) → UP cs A l

namespace Prop1

/-- `S` is closed under propagation by the clauses of two literals. -/
def Cl (S : Lit → Prop) (cs : List Clause) : Prop := ∀ a b, [a, b] ∈ cs → (S a.neg → S b) ∧ (S b.neg → S a)

theorem _root_.Verif.UP.cl (cs : List Clause) (A : Lit → Prop) : Cl (UP cs A) cs := by
  intro a b h
  refine ⟨fun ha => .prop h (by simp) fun l hl hne => ?_, fun hb => .prop h (by simp) fun l hl hne => ?_⟩
  · simp at hl
    rcases hl with rfl | rfl
    · exact ha
    · exact absurd rfl hne
  · simp at hl
    rcases hl with rfl | rfl
    · exact absurd rfl hne
    · exact hb

theorem Cl.mono {S : Lit → Prop} {cs cs' : List Clause} (h : Cl S cs') (hs : ∀ c ∈ cs, c ∈ cs') : Cl S cs :=
  fun a b hab => h a b (hs _ hab)

/-- Each of the literals makes the other false. -/
def Ex (S : Lit → Prop) (a b : Lit) : Prop := (S a → S b.neg) ∧ (S b → S a.neg)

theorem Ex.symm {S a b} (h : Ex S a b) : Ex S b a := ⟨h.2, h.1⟩

theorem pairNeg_up {S : Lit → Prop} {ls : List Lit} : ∀ {cs : List Clause}, Cl S cs → (∀ c ∈ pairNeg ls, c ∈ cs) → ls.Pairwise (Ex S) := by
  induction ls with
  | nil => intro _ _ _; exact .nil
  | cons a l ih =>
    intro cs h hs
    refine .cons (fun b hb => ?_) (ih h fun c hc => hs c (by simp [pairNeg, hc]))
    have := h _ _ (hs [a.neg, b.neg] (by simp only [pairNeg, List.mem_append, List.mem_map]; exact .inl ⟨b, hb, rfl⟩))
    simpa [Ex] using this

theorem Cl.np {S : Lit → Prop} {x y : Var} {cs : List Clause} (h : Cl S cs) (hm : [x.n, y.p] ∈ cs) : (S x.p → S y.p) ∧ (S y.n → S x.n) := h _ _ hm
theorem Cl.nn {S : Lit → Prop} {x y : Var} {cs : List Clause} (h : Cl S cs) (hm : [x.n, y.n] ∈ cs) : (S x.p → S y.n) ∧ (S y.p → S x.n) := h _ _ hm

/-! ### Ladder -/

theorem ladder_up {S : Lit → Prop} {vars : List Var} {s : ER} (hlen : 2 ≤ vars.length) (h : Cl S (amoLadder vars s).clauses) :
    (vars.map Var.p).Pairwise (Ex S) := by
  generalize hx : (s.newAuxs .cc (vars.length - 1)).1 = aux at *
  have hm : ∀ c i, i < vars.length → c ∈ (if i = 0 then [[(vars.nth i).n, (aux.nth 0).p]]
      else if i = vars.length - 1 then [[(vars.nth i).n, (aux.nth (i-1)).n]]
      else [[(vars.nth i).n, (aux.nth i).p], [(aux.nth (i-1)).n, (aux.nth i).p], [(vars.nth i).n, (aux.nth (i-1)).n]]) →
      c ∈ (amoLadder vars s).clauses := by
    intro c i hi hc
    simp only [amoLadder, ER.addClauses, List.mem_append, List.mem_flatMap, List.mem_range, hx]
    exact .inr ⟨i, hi, hc⟩
  have h1 : ∀ i, i < vars.length - 1 → Cl S [[(vars.nth i).n, (aux.nth i).p]] := by
    intro i hi
    refine h.mono fun c hc => ?_
    simp at hc; subst hc
    by_cases h0 : i = 0
    · subst h0; exact hm _ 0 (by omega) (by simp)
    · refine hm _ i (by omega) ?_
      rw [if_neg h0, if_neg (by omega)]; simp
  have h2 : ∀ i, 1 ≤ i → i < vars.length - 1 → Cl S [[(aux.nth (i-1)).n, (aux.nth i).p]] := by
    intro i h0 hi
    refine h.mono fun c hc => ?_
    simp at hc; subst hc
    refine hm _ i (by omega) ?_
    rw [if_neg (by omega), if_neg (by omega)]; simp
  have h3 : ∀ i, 1 ≤ i → i < vars.length → Cl S [[(vars.nth i).n, (aux.nth (i-1)).n]] := by
    intro i h0 hi
    refine h.mono fun c hc => ?_
    simp at hc; subst hc
    refine hm _ i hi ?_
    rw [if_neg (by omega)]
    by_cases h1 : i = vars.length - 1
    · rw [if_pos h1]; simp
    · rw [if_neg h1]; simp
  have up : ∀ d i, i + d < vars.length - 1 → S (aux.nth i).p → S (aux.nth (i + d)).p := by
    intro d
    induction d with
    | zero => intro i _ h; exact h
    | succ d ih =>
      intro i hi hs
      exact ((h2 (i + d + 1) (by omega) (by omega)).np (List.mem_singleton.2 rfl)).1 (ih i (by omega) hs)
  have down : ∀ d i, i + d < vars.length - 1 → S (aux.nth (i + d)).n → S (aux.nth i).n := by
    intro d
    induction d with
    | zero => intro i _ h; exact h
    | succ d ih =>
      intro i hi hs
      exact ih i (by omega) (((h2 (i + d + 1) (by omega) (by omega)).np (List.mem_singleton.2 rfl)).2 hs)
  rw [List.pairwise_map, List.pairwise_iff_getElem]
  intro i j hi hj hij
  rw [← getBang _ _ hi, ← getBang _ _ hj]
  obtain ⟨d, rfl⟩ : ∃ d, j = i + d + 1 := ⟨j - i - 1, by omega⟩
  refine ⟨fun hs => ?_, fun hs => ?_⟩
  · have := ((h1 i (by omega)).np (List.mem_singleton.2 rfl)).1 hs
    exact ((h3 (i + d + 1) (by omega) hj).nn (List.mem_singleton.2 rfl)).2 (up d i (by omega) this)
  · have := ((h3 (i + d + 1) (by omega) hj).nn (List.mem_singleton.2 rfl)).1 hs
    exact ((h1 i (by omega)).np (List.mem_singleton.2 rfl)).2 (down d i (by omega) this)

/-! ### Product -/

theorem mem_addClauses {s : ER} {cs : List Clause} {c : Clause} : c ∈ (s.addClauses cs).clauses ↔ c ∈ s.clauses ∨ c ∈ cs := by
  simp [ER.addClauses]

theorem productRec_mono {rb : Nat} : ∀ {fuel : Nat} {vars : List Var} {s s' : ER}, productRec rb fuel vars s = some s' → ∀ c ∈ s.clauses, c ∈ s'.clauses := by
  intro fuel
  induction fuel with
  | zero => intro _ _ _ h; simp [productRec] at h
  | succ fuel ih =>
    intro vars s s' h c hc
    have key : ∀ {n : Nat} {us : List Var} {t t' : ER}, (if n ≤ rb then some (amoPure us t) else productRec rb fuel us t) = some t' →
        ∀ c ∈ t.clauses, c ∈ t'.clauses := by
      intro n us t t' h c hc
      by_cases hn : n ≤ rb
      · rw [if_pos hn] at h; injection h with h; subst h; exact mem_addClauses.2 (.inl hc)
      · rw [if_neg hn] at h; exact ih h c hc
    simp only [productRec, Option.bind_eq_some_iff] at h
    obtain ⟨s1, h1, s2, h2, h3⟩ := h
    injection h3 with h3
    subst h3
    exact mem_addClauses.2 (.inl (key h2 c (key h1 c hc)))

theorem nth_ex {S : Lit → Prop} {vs : List Var} (h : (vs.map Var.p).Pairwise (Ex S)) {i j : Nat} (hi : i < vs.length) (hj : j < vs.length)
    (hij : i ≠ j) : Ex S (vs.nth i).p (vs.nth j).p := by
  rw [List.pairwise_map, List.pairwise_iff_getElem] at h
  rw [getBang _ _ hi, getBang _ _ hj]
  rcases Nat.lt_or_gt_of_ne hij with hl | hl
  · exact h i j hi hj hl
  · exact (h j i hj hi hl).symm

theorem productRec_up {rb : Nat} {S : Lit → Prop} : ∀ {fuel : Nat} {vars : List Var} {s s' : ER}, 1 ≤ vars.length → productRec rb fuel vars s = some s' →
    Cl S s'.clauses → (vars.map Var.p).Pairwise (Ex S) := by
  intro fuel
  induction fuel with
  | zero => intro _ _ _ _ h; simp [productRec] at h
  | succ fuel ih =>
    intro vars s s' hlen h hc
    have hp : 0 < ceilSqrt vars.length := by
      rcases Nat.eq_zero_or_pos (ceilSqrt vars.length) with h | h
      · have := ceilSqrt_spec vars.length; rw [h] at this; omega
      · exact h
    have hpq := ceilDiv_spec vars.length (ceilSqrt vars.length) hp
    generalize hpe : ceilSqrt vars.length = p at *
    generalize hqe : ceilDiv vars.length p = q at *
    have hq : 0 < q := by
      rcases Nat.eq_zero_or_pos q with h | h
      · rw [h, Nat.mul_zero] at hpq; omega
      · exact h
    simp only [productRec, hpe, hqe, Option.bind_eq_some_iff] at h
    obtain ⟨s1, h1, s2, h2, h3⟩ := h
    injection h3 with h3
    have lu : (s.newAuxs .cc p).1.length = p := newAuxs_length _ _ _
    have lv : ((s.newAuxs .cc p).2.newAuxs .cc q).1.length = q := newAuxs_length _ _ _
    generalize hus : (s.newAuxs .cc p).1 = us at *
    generalize hvs : ((s.newAuxs .cc p).2.newAuxs .cc q).1 = vs at *
    have c2 : Cl S s2.clauses := hc.mono fun c hc => by rw [← h3]; exact mem_addClauses.2 (.inl hc)
    have c3 : Cl S (productClauses p q vars us vs) := hc.mono fun c hc => by rw [← h3]; exact mem_addClauses.2 (.inr hc)
    have pv : (vs.map Var.p).Pairwise (Ex S) := by
      by_cases hb : q ≤ rb
      · rw [if_pos hb] at h2; injection h2 with h2
        exact pairNeg_up c2 fun c hc => by rw [← h2]; exact mem_addClauses.2 (.inr hc)
      · rw [if_neg hb] at h2; exact ih (by omega) h2 c2
    have c1 : Cl S s1.clauses := c2.mono fun c hc => by
      by_cases hb : q ≤ rb
      · rw [if_pos hb] at h2; injection h2 with h2; rw [← h2]; exact mem_addClauses.2 (.inl hc)
      · rw [if_neg hb] at h2; exact productRec_mono h2 c hc
    have pu : (us.map Var.p).Pairwise (Ex S) := by
      by_cases hb : p ≤ rb
      · rw [if_pos hb] at h1; injection h1 with h1
        exact pairNeg_up c1 fun c hc => by rw [← h1]; exact mem_addClauses.2 (.inr hc)
      · rw [if_neg hb] at h1; exact ih (by omega) h1 c1
    have cell : ∀ k, k < vars.length → Cl S [[(vars.nth k).n, (us.nth (k / q)).p], [(vars.nth k).n, (vs.nth (k % q)).p]] := by
      intro k hk
      refine c3.mono fun c hc => ?_
      have hkq : k / q < p := by rw [Nat.div_lt_iff_lt_mul hq]; omega
      have hkm : k % q < q := Nat.mod_lt _ hq
      have he : k / q * q + k % q = k := by rw [Nat.mul_comm]; exact Nat.div_add_mod k q
      simp only [productClauses, List.mem_flatMap, List.mem_range]
      refine ⟨k / q, hkq, k % q, hkm, ?_⟩
      rw [he, if_pos hk]
      exact hc
    rw [List.pairwise_map, List.pairwise_iff_getElem]
    intro i j hi hj hij
    rw [← getBang _ _ hi, ← getBang _ _ hj]
    have hdiv : ∀ k, k < vars.length → k / q < us.length := by
      intro k hk; rw [lu, Nat.div_lt_iff_lt_mul hq]; omega
    have hmod : ∀ k, k % q < vs.length := by intro k; rw [lv]; exact Nat.mod_lt _ hq
    have main : ∀ i j, i < vars.length → j < vars.length → i ≠ j → S (vars.nth i).p → S (vars.nth j).p.neg := by
      intro i j hi hj hij hs
      by_cases hd : i / q = j / q
      · have hm : i % q ≠ j % q := by
          intro hm
          have h1 := Nat.div_add_mod i q
          have h2 := Nat.div_add_mod j q
          rw [hd, hm] at h1
          omega
        have hv := ((cell i hi).np (y := vs.nth (i % q)) (by simp)).1 hs
        exact ((cell j hj).np (y := vs.nth (j % q)) (by simp)).2 ((nth_ex pv (hmod i) (hmod j) hm).1 hv)
      · have hv := ((cell i hi).np (y := us.nth (i / q)) (by simp)).1 hs
        exact ((cell j hj).np (y := us.nth (j / q)) (by simp)).2 ((nth_ex pu (hdiv i hi) (hdiv j hj) hd).1 hv)
    exact ⟨main i j hi hj (by omega), main j i hj hi (by omega)⟩

/-! ### Nested -/

theorem nestedRec_mono {gs : Nat} : ∀ {fuel : Nat} {ls : List Lit} {s s' : ER}, nestedRec gs fuel ls s = some s' → ∀ c ∈ s.clauses, c ∈ s'.clauses := by
  intro fuel
  induction fuel with
  | zero => intro _ _ _ h; simp [nestedRec] at h
  | succ fuel ih =>
    intro ls s s' h c hc
    simp only [nestedRec] at h
    by_cases hl : ls.length < gs
    · rw [if_pos hl] at h; injection h with h; rw [← h]; exact mem_addClauses.2 (.inl hc)
    · rw [if_neg hl, Option.bind_eq_some_iff] at h
      obtain ⟨s1, h1, h2⟩ := h
      exact ih h2 c (ih h1 c hc)

theorem nestedRec_up {gs : Nat} {S : Lit → Prop} : ∀ {fuel : Nat} {ls : List Lit} {s s' : ER}, nestedRec gs fuel ls s = some s' →
    Cl S s'.clauses → ls.Pairwise (Ex S) := by
  intro fuel
  induction fuel with
  | zero => intro _ _ _ h; simp [nestedRec] at h
  | succ fuel ih =>
    intro ls s s' h hc
    simp only [nestedRec] at h
    by_cases hl : ls.length < gs
    · rw [if_pos hl] at h; injection h with h
      exact pairNeg_up hc fun c hc => by rw [← h]; exact mem_addClauses.2 (.inr hc)
    · rw [if_neg hl, Option.bind_eq_some_iff] at h
      obtain ⟨s1, h1, h2⟩ := h
      have p2 := ih h2 hc
      have p1 := ih h1 (hc.mono (nestedRec_mono h2))
      generalize ((s.newAuxs .cc 1).1.nth 0) = x at p1 p2
      rw [← List.take_append_drop (ls.length / 2) ls]
      rw [List.pairwise_append] at p1 p2 ⊢
      refine ⟨p1.1, p2.1, fun a ha b hb => ?_⟩
      have e1 := p1.2.2 a ha x.p (by simp)
      have e2 := p2.2.2 b hb x.n (by simp)
      exact ⟨fun h => e2.2 (e1.1 h), fun h => e1.2 (e2.1 h)⟩

/-! ### Commander -/

theorem commanderGroup_mono {eo : Bool} {g : List Lit} {s : ER} : ∀ c ∈ s.clauses, c ∈ (commanderGroup eo g s).2.clauses := by
  intro c hc
  unfold commanderGroup
  cases eo <;> simp [ER.addClauses, ER.newAuxs, hc]

theorem commanderLevel_mono {eo : Bool} : ∀ {gs : List (List Lit)} {s : ER}, ∀ c ∈ s.clauses, c ∈ (commanderLevel eo gs s).2.clauses := by
  intro gs
  induction gs with
  | nil => intro s c hc; exact hc
  | cons g gs ih => intro s c hc; exact ih c (commanderGroup_mono c hc)

theorem commanderLoop_mono {k : Nat} : ∀ {fuel : Nat} {eo : Bool} {ls : List Lit} {s s' : ER}, commanderLoop k fuel eo ls s = some s' →
    ∀ c ∈ s.clauses, c ∈ s'.clauses := by
  intro fuel
  induction fuel with
  | zero => intro _ _ _ _ h; simp [commanderLoop] at h
  | succ fuel ih =>
    intro eo ls s s' h c hc
    simp only [commanderLoop] at h
    by_cases hl : k < ls.length
    · rw [if_pos hl] at h
      exact ih h c (commanderLevel_mono c hc)
    · rw [if_neg hl] at h; injection h with h; rw [← h]
      by_cases he : (eo && !ls.isEmpty) = true
      · rw [if_pos he]; exact mem_addClauses.2 (.inl (mem_addClauses.2 (.inl hc)))
      · rw [if_neg he]; exact mem_addClauses.2 (.inl hc)

/-- What a group and its commander give. -/
theorem commanderGroup_up {S : Lit → Prop} {eo : Bool} {g : List Lit} {s : ER} (h : Cl S (commanderGroup eo g s).2.clauses) :
    g.Pairwise (Ex S) ∧ ∀ l ∈ g, (S l → S (commanderGroup eo g s).1) ∧ (S (commanderGroup eo g s).1.neg → S l.neg) := by
  refine ⟨pairNeg_up h fun c hc => ?_, fun l hl => ?_⟩
  · unfold commanderGroup
    cases eo <;> simp [ER.addClauses, ER.newAuxs, hc]
  · have : [(((s.addClauses (pairNeg g)).newAuxs .cc 1).1.nth 0).n, l.neg] ∈ (commanderGroup eo g s).2.clauses := by
      unfold commanderGroup
      simp only [mem_addClauses, List.mem_map]
      exact .inr ⟨l, hl, rfl⟩
    have := h _ _ this
    refine ⟨fun hs => this.2 (by simpa using hs), fun hs => this.1 hs⟩

theorem commanderLevel_up {S : Lit → Prop} {eo : Bool} : ∀ {gs : List (List Lit)} {s : ER}, Cl S (commanderLevel eo gs s).2.clauses →
    (commanderLevel eo gs s).1.Pairwise (Ex S) →
    gs.flatten.Pairwise (Ex S) ∧ ∀ g ∈ gs, ∃ x ∈ (commanderLevel eo gs s).1, ∀ l ∈ g, (S l → S x) ∧ (S x.neg → S l.neg) := by
  intro gs
  induction gs with
  | nil => intro s _ _; exact ⟨.nil, by simp⟩
  | cons g gs ih =>
    intro s h hp
    have hg := commanderGroup_up (S := S) (eo := eo) (g := g) (s := s) (h.mono fun c hc => commanderLevel_mono (gs := gs) (s := (commanderGroup eo g s).2) c hc)
    have e : commanderLevel eo (g :: gs) s = ((commanderGroup eo g s).1 :: (commanderLevel eo gs (commanderGroup eo g s).2).1,
        (commanderLevel eo gs (commanderGroup eo g s).2).2) := rfl
    rw [e] at h hp ⊢
    rw [List.pairwise_cons] at hp
    obtain ⟨i1, i2⟩ := ih h hp.2
    refine ⟨?_, ?_⟩
    · rw [List.flatten_cons, List.pairwise_append]
      refine ⟨hg.1, i1, fun a ha b hb => ?_⟩
      obtain ⟨g', hg', hb'⟩ := List.mem_flatten.1 hb
      obtain ⟨x, hx, hxl⟩ := i2 g' hg'
      have e := hp.1 x hx
      exact ⟨fun hs => (hxl b hb').2 (e.1 ((hg.2 a ha).1 hs)), fun hs => (hg.2 a ha).2 (e.2 ((hxl b hb').1 hs))⟩
    · intro g' hg'
      rcases List.mem_cons.1 hg' with rfl | hg'
      · exact ⟨_, List.mem_cons_self .., hg.2⟩
      · obtain ⟨x, hx, hxl⟩ := i2 g' hg'
        exact ⟨x, List.mem_cons_of_mem _ hx, hxl⟩

theorem commanderLoop_up {k : Nat} (hk : 0 < k) {S : Lit → Prop} : ∀ {fuel : Nat} {eo : Bool} {ls : List Lit} {s s' : ER},
    commanderLoop k fuel eo ls s = some s' → Cl S s'.clauses → ls.Pairwise (Ex S) := by
  intro fuel
  induction fuel with
  | zero => intro _ _ _ _ h; simp [commanderLoop] at h
  | succ fuel ih =>
    intro eo ls s s' h hc
    simp only [commanderLoop] at h
    by_cases hl : k < ls.length
    · rw [if_pos hl] at h
      have p := ih h hc
      have := (commanderLevel_up (hc.mono (commanderLoop_mono h)) p).1
      rwa [chunks_flatten hk _ _ (Nat.le_refl _)] at this
    · rw [if_neg hl] at h; injection h with h
      refine pairNeg_up hc fun c hc => ?_
      rw [← h]
      by_cases he : (eo && !ls.isEmpty) = true
      · rw [if_pos he]; exact mem_addClauses.2 (.inl (mem_addClauses.2 (.inr hc)))
      · rw [if_neg he]; exact mem_addClauses.2 (.inr hc)

/-! ### Binary and bimander -/

theorem gray_up {S : Lit → Prop} {nb n : Nat} {bits : List Var} {groups : List (List Lit)} (hlen : groups.length = n) (hn : n ≤ 2 ^ nb)
    (hn2 : 2 ^ nb ≤ 2 * n) (h : Cl S (grayClauses nb ((2 ^ nb - n) * 2) bits groups)) (hg : ∀ g ∈ groups, g.Pairwise (Ex S)) :
    groups.flatten.Pairwise (Ex S) := by
  rw [List.pairwise_flatten]
  refine ⟨hg, ?_⟩
  rw [List.pairwise_iff_getElem]
  intro i j hi hj hij a ha b hb
  obtain ⟨t, v, h1, h2⟩ := grayCons_conflict hn hn2 hij (hlen ▸ hj)
  have cell : ∀ (i : Nat) (hi : i < groups.length) (a : Lit), a ∈ groups[i] → ∀ v, (t, v) ∈ grayCons nb ((2 ^ nb - n) * 2) i →
      (S a → S ⟨bits.nth t, v⟩) ∧ (S ⟨bits.nth t, !v⟩ → S a.neg) := by
    intro i hi a ha v hv
    have := h a.neg ⟨bits.nth t, v⟩ (by
      simp only [grayClauses, List.mem_flatMap, List.mem_range, List.mem_map]
      exact ⟨i, hi, (t, v), hv, a, by rw [getBang _ _ hi]; exact ha, rfl⟩)
    exact ⟨fun hs => this.1 (by simpa using hs), this.2⟩
  have ca := cell i hi a ha v h1
  have cb := cell j hj b hb (!v) h2
  rw [Bool.not_not] at cb
  exact ⟨fun hs => cb.2 (ca.1 hs), fun hs => ca.2 (cb.1 hs)⟩

end Prop1
end Verif
