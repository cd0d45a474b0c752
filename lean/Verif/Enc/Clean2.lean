import Verif.Enc.Clean
/-
Which variables the clauses of the remaining cardinality encodings are about (at-most-one, at-most-k, exactly-k).
-/
namespace Verif
open ER

variable {P : Var → Prop} {n : AuxTy → Nat} {s : ER}

theorem litsP_pos {vs : List Var} (h : ∀ v ∈ vs, P v) : LitsP P (vs.map Var.p) := fun l hl => by
  obtain ⟨v, hv, rfl⟩ := List.mem_map.1 hl
  exact h v hv
theorem litsP_neg {vs : List Var} (h : ∀ v ∈ vs, P v) : LitsP P (vs.map Var.n) := fun l hl => by
  obtain ⟨v, hv, rfl⟩ := List.mem_map.1 hl
  exact h v hv
theorem litsP_three {a b c : Lit} (ha : P a.v) (hb : P b.v) (hc : P c.v) : LitsP P [a, b, c] :=
  litsP_append (a := [a]) (litsP_one ha) (litsP_two hb hc)

/-! ### At most one -/

theorem pairNeg_clean : ∀ {ls : List Lit}, LitsP P ls → ∀ c ∈ pairNeg ls, LitsP P c
  | [], _, c, hc => by cases hc
  | a :: l, h, c, hc => by
    rcases List.mem_append.1 hc with hc | hc
    · obtain ⟨b, hb, rfl⟩ := List.mem_map.1 hc
      exact litsP_two (h a List.mem_cons_self) (h b (List.mem_cons_of_mem _ hb))
    · exact pairNeg_clean (fun x hx => h x (List.mem_cons_of_mem _ hx)) c hc

theorem amoPure_clean {vars : List Var} (h : Clean P n s) (hv : ∀ v ∈ vars, P v) : Clean P n (amoPure vars s) :=
  h.add (pairNeg_clean (litsP_pos hv))

theorem amoLadder_clean (hP : NewVars P n) {vars : List Var} (h : Clean P n s) (hv : ∀ v ∈ vars, P v) : Clean P n (amoLadder vars s) := by
  obtain ⟨h1, h2⟩ := h.newAuxs hP (vars.length - 1)
  refine Clean.add h1 fun c hc => ?_
  obtain ⟨i, _, hc⟩ := List.mem_flatMap.1 hc
  have a := hP.nthV hv
  have b := hP.nthV h2
  split at hc
  · rw [List.mem_singleton.1 hc]; exact litsP_two (a _) (b _)
  · split at hc
    · rw [List.mem_singleton.1 hc]; exact litsP_two (a _) (b _)
    · simp only [List.mem_cons, List.not_mem_nil, or_false] at hc
      rcases hc with rfl | rfl | rfl
      exacts [litsP_two (a _) (b _), litsP_two (b _) (b _), litsP_two (a _) (b _)]

theorem productClauses_clean (hP : NewVars P n) {p q : Nat} {vars us vs : List Var} (hv : ∀ v ∈ vars, P v) (hu : ∀ v ∈ us, P v) (hw : ∀ v ∈ vs, P v) :
    ∀ c ∈ productClauses p q vars us vs, LitsP P c := by
  intro c hc
  obtain ⟨i, _, hc⟩ := List.mem_flatMap.1 hc
  obtain ⟨j, _, hc⟩ := List.mem_flatMap.1 hc
  split at hc
  · simp only [List.mem_cons, List.not_mem_nil, or_false] at hc
    rcases hc with rfl | rfl
    exacts [litsP_two (hP.nthV hv _) (hP.nthV hu _), litsP_two (hP.nthV hv _) (hP.nthV hw _)]
  · cases hc

theorem productRec_clean (hP : NewVars P n) (rb fuel : Nat) : ∀ {vars : List Var} {s s' : ER}, Clean P n s → (∀ v ∈ vars, P v) →
    productRec rb fuel vars s = some s' → Clean P n s' := by
  induction fuel with
  | zero => intro _ _ _ _ _ e; cases e
  | succ fuel ih =>
    intro vars s s' h hv e
    unfold productRec at e
    obtain ⟨h1, hu⟩ := h.newAuxs hP (ceilSqrt vars.length)
    obtain ⟨h2, hw⟩ := h1.newAuxs hP (ceilDiv vars.length (ceilSqrt vars.length))
    obtain ⟨s3, e3, e⟩ := Option.bind_eq_some_iff.1 e
    obtain ⟨s4, e4, e⟩ := Option.bind_eq_some_iff.1 e
    cases e
    have h3 : Clean P n s3 := by
      split at e3
      · cases e3; exact amoPure_clean h2 hu
      · exact ih h2 hu e3
    have h4 : Clean P n s4 := by
      split at e4
      · cases e4; exact amoPure_clean h3 hw
      · exact ih h3 hw e4
    exact h4.add (productClauses_clean hP hv hu hw)

theorem nestedRec_clean (hP : NewVars P n) (gs fuel : Nat) : ∀ {ls : List Lit} {s s' : ER}, Clean P n s → LitsP P ls →
    nestedRec gs fuel ls s = some s' → Clean P n s' := by
  induction fuel with
  | zero => intro _ _ _ _ _ e; cases e
  | succ fuel ih =>
    intro ls s s' h hl e
    unfold nestedRec at e
    split at e
    · cases e
      exact h.add (pairNeg_clean hl)
    · obtain ⟨h1, hu⟩ := h.newAuxs hP 1
      obtain ⟨s3, e3, e⟩ := Option.bind_eq_some_iff.1 e
      have h3 := ih h1 (litsP_append (fun l hm => hl l (List.mem_of_mem_take hm)) (litsP_one (hP.nthV hu 0))) e3
      exact ih h3 (litsP_append (fun l hm => hl l (List.mem_of_mem_drop hm)) (litsP_one (hP.nthV hu 0))) e

theorem commanderGroup_clean (hP : NewVars P n) {eo : Bool} {g : List Lit} (h : Clean P n s) (hg : LitsP P g) :
    P (commanderGroup eo g s).1.v ∧ Clean P n (commanderGroup eo g s).2 := by
  obtain ⟨h1, hu⟩ := (h.add (pairNeg_clean hg)).newAuxs hP 1
  have hn := hP.nthV hu 0
  refine ⟨hn, ?_⟩
  have h2 : ∀ {t : ER}, Clean P n t → Clean P n (t.addClauses (g.map fun l => [(((s.addClauses (pairNeg g)).newAuxs .cc 1).1.nth 0).n, l.neg])) := by
    intro t ht
    refine ht.add fun c hc => ?_
    obtain ⟨l, hl, rfl⟩ := List.mem_map.1 hc
    exact litsP_two hn (hg l hl)
  unfold commanderGroup
  refine h2 ?_
  split
  · refine h1.add fun c hc => ?_
    rw [List.mem_singleton.1 hc]
    exact litsP_append hg (litsP_one hn)
  · exact h1

theorem chunks_clean {k : Nat} : ∀ {fuel : Nat} {l : List Lit}, LitsP P l → ∀ g ∈ chunks k fuel l, LitsP P g
  | 0, _, _, g, hg => by cases hg
  | fuel + 1, l, h, g, hg => by
    unfold chunks at hg
    split at hg
    · cases hg
    · rcases List.mem_cons.1 hg with rfl | hg
      · exact fun x hx => h x (List.mem_of_mem_take hx)
      · exact chunks_clean (fun x hx => h x (List.mem_of_mem_drop hx)) g hg

theorem commanderLevel_clean (hP : NewVars P n) {eo : Bool} : ∀ {gs : List (List Lit)} {s : ER}, Clean P n s → (∀ g ∈ gs, LitsP P g) →
    LitsP P (commanderLevel eo gs s).1 ∧ Clean P n (commanderLevel eo gs s).2
  | [], s, h, _ => ⟨fun l hl => (by cases hl), h⟩
  | g :: gs, s, h, hg => by
    obtain ⟨h1, h2⟩ := commanderGroup_clean hP (eo := eo) h (hg g List.mem_cons_self)
    obtain ⟨h3, h4⟩ := commanderLevel_clean hP (eo := eo) h2 (fun x hx => hg x (List.mem_cons_of_mem _ hx))
    exact ⟨litsP_append (a := [_]) (litsP_one h1) h3, h4⟩

theorem commanderLoop_clean (hP : NewVars P n) (k fuel : Nat) : ∀ {eo : Bool} {cur : List Lit} {s s' : ER}, Clean P n s → LitsP P cur →
    commanderLoop k fuel eo cur s = some s' → Clean P n s' := by
  induction fuel with
  | zero => intro _ _ _ _ _ _ e; cases e
  | succ fuel ih =>
    intro eo cur s s' h hc e
    unfold commanderLoop at e
    split at e
    · obtain ⟨h1, h2⟩ := commanderLevel_clean hP (eo := eo) h (chunks_clean hc (k := k) (fuel := cur.length))
      exact ih h2 h1 e
    · cases e
      have h1 := h.add (pairNeg_clean hc)
      split
      · exact h1.add fun c hm => by rw [List.mem_singleton.1 hm]; exact hc
      · exact h1

theorem grayClauses_clean (hP : NewVars P n) {nb k : Nat} {bits : List Var} {groups : List (List Lit)} (hb : ∀ v ∈ bits, P v) (hg : ∀ g ∈ groups, LitsP P g) :
    ∀ c ∈ grayClauses nb k bits groups, LitsP P c := by
  intro c hc
  obtain ⟨i, hi, hc⟩ := List.mem_flatMap.1 hc
  obtain ⟨jb, _, hc⟩ := List.mem_flatMap.1 hc
  obtain ⟨p, hp, rfl⟩ := List.mem_map.1 hc
  exact litsP_two (hg _ (getBang_mem (List.mem_range.1 hi)) p hp) (hP.nthV hb _)

theorem amoBinary_clean (hP : NewVars P n) {vars : List Var} (h : Clean P n s) (hv : ∀ v ∈ vars, P v) : Clean P n (amoBinary vars s) := by
  obtain ⟨h1, h2⟩ := h.newAuxs hP (clog2 vars.length)
  refine Clean.add h1 (grayClauses_clean hP h2 fun g hg => ?_)
  obtain ⟨v, hm, rfl⟩ := List.mem_map.1 hg
  exact litsP_one (hv v hm)

theorem splitGroups_clean : ∀ {m : Nat} {l : List Lit}, LitsP P l → ∀ g ∈ splitGroups m l, LitsP P g
  | 0, _, _, g, hg => by cases hg
  | m + 1, l, h, g, hg => by
    unfold splitGroups at hg
    rcases List.mem_cons.1 hg with rfl | hg
    · exact fun x hx => h x (List.mem_of_mem_take hx)
    · exact splitGroups_clean (fun x hx => h x (List.mem_of_mem_drop hx)) g hg

theorem amoBimander_clean (hP : NewVars P n) {m : Nat} {vars : List Var} (h : Clean P n s) (hv : ∀ v ∈ vars, P v) : Clean P n (amoBimander m vars s) := by
  have hg := splitGroups_clean (m := m) (litsP_pos hv)
  have h0 : Clean P n (s.addClauses ((splitGroups m (vars.map Var.p)).flatMap pairNeg)) := h.add fun c hc => by
    obtain ⟨g, hm, hc⟩ := List.mem_flatMap.1 hc
    exact pairNeg_clean (hg g hm) c hc
  obtain ⟨h1, h2⟩ := h0.newAuxs hP (clog2 m)
  exact Clean.add h1 (grayClauses_clean hP h2 hg)

theorem amo_clean (hP : NewVars P n) {cfg : AmoCfg} {fuel : Nat} {vars : List Var} {s' : ER} (h : Clean P n s) (hv : ∀ v ∈ vars, P v)
    (e : amo cfg fuel vars s = .ok s') : Clean P n s' := by
  have lift : ∀ {o : Option ER}, (match o with | some s => Out.ok s | none => .diverge) = .ok s' → o = some s' := by
    intro o h
    cases o with
    | none => cases h
    | some x => cases h; rfl
  unfold amo at e
  simp only at e
  split at e
  · cases e; exact h
  · split at e
    · cases e; exact amoPure_clean h hv
    · cases e; exact amoLadder_clean hP h hv
    · exact productRec_clean hP _ _ h hv (lift e)
    · exact nestedRec_clean hP _ _ h (litsP_pos hv) (lift e)
    · split at e
      · cases e
      · exact commanderLoop_clean hP _ _ h (litsP_pos hv) (lift e)
    · cases e; exact amoBinary_clean hP h hv
    · split at e
      · cases e
      · cases e; exact amoBimander_clean hP h hv
    · cases e; exact amoBimander_clean hP h hv
    · cases e; exact amoBimander_clean hP h hv
    · split at e
      · cases e; exact amoPure_clean h hv
      · exact productRec_clean hP _ _ h hv (lift e)

/-! ### Totalizer -/

theorem adderAmk_clean (hP : NewVars P n) {L R O : List Var} {rhs : Nat} (hL : ∀ v ∈ L, P v) (hR : ∀ v ∈ R, P v) (hO : ∀ v ∈ O, P v) :
    ∀ c ∈ adderAmk L R O rhs, LitsP P c := by
  intro c hc
  obtain ⟨i, _, hc⟩ := List.mem_flatMap.1 hc
  obtain ⟨j, _, hc⟩ := List.mem_flatMap.1 hc
  have h1 := hP.nthV hL
  have h2 := hP.nthV hR
  have h3 := hP.nthV hO
  split at hc
  · cases hc
  · split at hc
    · rw [List.mem_singleton.1 hc]; exact litsP_two (h2 _) (h3 _)
    · split at hc
      · rw [List.mem_singleton.1 hc]; exact litsP_two (h1 _) (h3 _)
      · rw [List.mem_singleton.1 hc]; exact litsP_three (h1 _) (h2 _) (h3 _)

theorem totCnf_cleanB (hP : NewVars P n) (rhs : Nat) (b : TBound) (fuel : Nat) : ∀ {st O : List Var} {s : ER}, Clean P n s → (∀ v ∈ st, P v) → (∀ v ∈ O, P v) →
    (∀ v ∈ (totCnf rhs b fuel st O s).1, P v) ∧ Clean P n (totCnf rhs b fuel st O s).2 := by
  induction fuel with
  | zero => intro st O s h hst _; exact ⟨hst, h⟩
  | succ fuel ih =>
    intro st O s h hst hO
    unfold totCnf
    obtain ⟨hL, hst1, h1⟩ := popOrNew_clean hP (k := O.length / 2) h hst
    rcases e1 : popOrNew (O.length / 2) st s with ⟨L, st1, s1⟩
    rw [e1] at hL hst1 h1
    simp only at hL hst1 h1
    simp only [e1]
    obtain ⟨hR, hst2, h2⟩ := popOrNew_clean hP (k := O.length - O.length / 2) h1 hst1
    rcases e2 : popOrNew (O.length - O.length / 2) st1 s1 with ⟨R, st2, s2⟩
    rw [e2] at hR hst2 h2
    simp only at hR hst2 h2
    simp only [e2]
    have h3 : Clean P n (if b = .upper ∨ b = .both then s2.addClauses (adderAmk L R O rhs) else s2) := by
      split
      · exact h2.add (adderAmk_clean hP hL hR hO)
      · exact h2
    generalize (if b = .upper ∨ b = .both then s2.addClauses (adderAmk L R O rhs) else s2) = s3 at h3 ⊢
    have h4 : Clean P n (if b = .lower ∨ b = .both then s3.addClauses (adderAlk L R O) else s3) := by
      split
      · exact h3.add (adderAlk_clean hP hL hR hO)
      · exact h3
    generalize (if b = .lower ∨ b = .both then s3.addClauses (adderAlk L R O) else s3) = s4 at h4 ⊢
    have h5 : (∀ v ∈ (if L.length > 1 then totCnf rhs b fuel st2 L s4 else (st2, s4)).1, P v) ∧
        Clean P n (if L.length > 1 then totCnf rhs b fuel st2 L s4 else (st2, s4)).2 := by
      split
      · exact ih h4 hst2 hL
      · exact ⟨hst2, h4⟩
    generalize (if L.length > 1 then totCnf rhs b fuel st2 L s4 else (st2, s4)) = r at h5 ⊢
    obtain ⟨st5, s5⟩ := r
    simp only at h5 ⊢
    split
    · exact ih h5.2 h5.1 hR
    · exact h5

theorem totBuild_clean (hP : NewVars P n) {b : TBound} {vars : List Var} {rhs : Nat} (h : Clean P n s) (hv : ∀ v ∈ vars, P v) :
    (∀ v ∈ (totBuild b vars rhs s).1, P v) ∧ Clean P n (totBuild b vars rhs s).2 := by
  unfold totBuild
  obtain ⟨h1, hO⟩ := h.newAuxs hP vars.length
  exact ⟨hO, (totCnf_cleanB hP rhs b (s.newAuxs .cc vars.length).1.length h1 (st := vars.reverse) (fun v hm => hv v (List.mem_reverse.1 hm)) hO).2⟩

theorem totAmk_clean (hP : NewVars P n) {vars : List Var} {rhs : Nat} (h : Clean P n s) (hv : ∀ v ∈ vars, P v) :
    (∀ v ∈ (totAmk vars rhs s).1, P v) ∧ Clean P n (totAmk vars rhs s).2 := by
  obtain ⟨h1, h2⟩ := totBuild_clean hP (b := .upper) (rhs := rhs) h hv
  refine ⟨h1, Clean.add h2 fun c hc => ?_⟩
  obtain ⟨o, ho, rfl⟩ := List.mem_map.1 hc
  exact litsP_one (h1 o (List.mem_of_mem_drop ho))

theorem totExk_clean (hP : NewVars P n) {vars : List Var} {rhs : Nat} (h : Clean P n s) (hv : ∀ v ∈ vars, P v) :
    Clean P n (totExk vars rhs s) := by
  obtain ⟨h1, h2⟩ := totBuild_clean hP (b := .both) (rhs := rhs) h hv
  refine Clean.add (Clean.add h2 fun c hc => ?_) fun c hc => ?_
  · obtain ⟨o, ho, rfl⟩ := List.mem_map.1 hc
    exact litsP_one (h1 o (List.mem_of_mem_take ho))
  · obtain ⟨o, ho, rfl⟩ := List.mem_map.1 hc
    exact litsP_one (h1 o (List.mem_of_mem_drop ho))

/-! ### Cardinality networks and the encoder -/

theorem cnAmk_clean (hP : NewVars P n) {vars : List Var} {rhs : Nat} {inc : Bool} {d : Option IncData} {s' : ER} (h : Clean P n s) (hv : ∀ v ∈ vars, P v)
    (e : cnAmk vars rhs inc s = .ok (d, s')) : Clean P n s' ∧ ∀ x ∈ d, x.LitsP P := by
  have hp := litsP_pos hv
  have hn := litsP_neg hv
  unfold cnAmk at e
  simp only at e
  split at e
  · obtain ⟨⟨out, s1⟩, e1, e⟩ := bind_ok e
    obtain ⟨g1, g2⟩ := ccSort_clean hP _ h hp (ofOption_ok e1)
    obtain ⟨o, e2, e⟩ := bind_ok e
    cases e
    rw [getU_ok e2]
    refine ⟨g2.add fun c hc => ?_, ?_⟩
    · rw [List.mem_singleton.1 hc]
      exact litsP_one (hP.nth g1 _)
    · rintro x ⟨⟩
      exact ⟨g1, fun l hl => by cases hl⟩
  · split at e
    · obtain ⟨⟨out, s1⟩, e1, e⟩ := bind_ok e
      obtain ⟨g1, g2⟩ := ccSort_clean hP _ h hn (ofOption_ok e1)
      cases e
      refine ⟨g2.add fun c hc => ?_, fun x hx => by cases hx⟩
      obtain ⟨o, ho, rfl⟩ := List.mem_map.1 hc
      exact litsP_one (g1 o (List.mem_of_mem_take ho))
    · obtain ⟨⟨out, s1⟩, e1, e⟩ := bind_ok e
      obtain ⟨g1, g2⟩ := ccSort_clean hP _ h hp (ofOption_ok e1)
      obtain ⟨o, e2, e⟩ := bind_ok e
      cases e
      rw [getU_ok e2]
      refine ⟨g2.add fun c hc => ?_, fun x hx => by cases hx⟩
      rw [List.mem_singleton.1 hc]
      exact litsP_one (hP.nth g1 _)

theorem cnExk_clean (hP : NewVars P n) {vars : List Var} {rhs : Nat} {s' : ER} (h : Clean P n s) (hv : ∀ v ∈ vars, P v)
    (e : cnExk vars rhs s = .ok s') : Clean P n s' := by
  unfold cnExk at e
  obtain ⟨⟨out, s1⟩, e1, e⟩ := bind_ok e
  obtain ⟨g1, g2⟩ := ccSort_clean hP _ h (litsP_pos hv) (ofOption_ok e1)
  obtain ⟨o, e2, e⟩ := bind_ok e
  obtain ⟨o', e3, e⟩ := bind_ok e
  cases e
  rw [getU_ok e2, getU_ok e3]
  refine (g2.add fun c hc => ?_).add fun c hc => ?_
  · rw [List.mem_singleton.1 hc]; exact litsP_one (hP.nth g1 _)
  · rw [List.mem_singleton.1 hc]; exact litsP_one (hP.nth g1 _)

theorem ccAmk_clean (hP : NewVars P n) {cfg : AmkEnc} {vars : List Var} {rhs : Nat} {inc : Bool} {d : Option IncData} {s' : ER} (h : Clean P n s) (hv : ∀ v ∈ vars, P v)
    (e : ccAmk cfg vars rhs inc s = .ok (d, s')) : Clean P n s' ∧ ∀ x ∈ d, x.LitsP P := by
  have hmod : ∀ {d s'}, ((Out.ofOption (modAmk vars rhs s)).bind fun ((U, W, md), s) =>
      Out.ok (if inc then some (⟨some .modular, none, U, some W, md, 0, rhs⟩ : IncData) else none, s)) = .ok (d, s') →
      Clean P n s' ∧ ∀ x ∈ d, x.LitsP P := by
    intro d s' e
    obtain ⟨⟨⟨U, W, md⟩, s1⟩, e1, e⟩ := bind_ok e
    obtain ⟨g1, g2, g3⟩ := modBuild_clean hP h (litsP_pos hv) (ofOption_ok e1)
    cases e
    refine ⟨g3, fun x hx => ?_⟩
    split at hx
    · cases hx; exact ⟨g1, g2⟩
    · cases hx
  unfold ccAmk at e
  split at e
  · cases e
    exact ⟨h, fun x hx => by cases hx⟩
  · split at e
    · cases e
      refine ⟨h.add fun c hc => ?_, fun x hx => by cases hx⟩
      obtain ⟨v, hv', rfl⟩ := List.mem_map.1 hc
      exact litsP_one (hv v hv')
    · split at e
      · obtain ⟨g1, g2⟩ := totAmk_clean hP (rhs := rhs) h hv
        generalize totAmk vars rhs s = r at *
        obtain ⟨O, s1⟩ := r
        cases e
        refine ⟨g2, fun x hx => ?_⟩
        split at hx
        · cases hx
          exact ⟨litsP_pos g1, fun l hl => by cases hl⟩
        · cases hx
      · exact hmod e
      · exact hmod e
      · exact cnAmk_clean hP h hv e

theorem ccExo_clean (hP : NewVars P n) {cfg : AmoCfg} {fuel : Nat} {vars : List Var} {s' : ER} (h : Clean P n s) (hv : ∀ v ∈ vars, P v)
    (e : ccExo cfg fuel vars s = .ok s') : Clean P n s' := by
  unfold ccExo at e
  split at e
  · cases e
    exact h.add fun c hc => by rw [List.mem_singleton.1 hc]; intro l hl; cases hl
  · split at e
    · cases e
      exact h.add fun c hc => by rw [List.mem_singleton.1 hc]; exact litsP_one (hP.nthV hv 0)
    · obtain ⟨s1, e1, e⟩ := bind_ok e
      cases e
      exact (amo_clean hP h hv e1).add fun c hc => by rw [List.mem_singleton.1 hc]; exact litsP_pos hv

theorem ccExk_clean (hP : NewVars P n) {cfg : ExkEnc} {vars : List Var} {rhs : Nat} {s' : ER} (h : Clean P n s) (hv : ∀ v ∈ vars, P v)
    (e : ccExk cfg vars rhs s = .ok s') : Clean P n s' := by
  unfold ccExk at e
  split at e
  · cases e
    exact h.add fun c hc => by rw [List.mem_singleton.1 hc]; intro l hl; cases hl
  · split at e
    · cases e
      refine h.add fun c hc => ?_
      obtain ⟨v, hv', rfl⟩ := List.mem_map.1 hc
      exact litsP_one (hv v hv')
    · split at e
      · cases e
        refine h.add fun c hc => ?_
        obtain ⟨v, hv', rfl⟩ := List.mem_map.1 hc
        exact litsP_one (hv v hv')
      · split at e
        · cases e; exact totExk_clean hP h hv
        · cases e; exact totExk_clean hP h hv
        · exact cnExk_clean hP h hv e

theorem encodeConstraint_clean (hP : NewVars P n) {cfg : CcCfg} {fuel : Nat} {cc : CC} {s' : ER} (h : Clean P n s) (hv : ∀ v ∈ cc.vars, P v)
    (e : encodeConstraint cfg fuel cc s = .ok s') : Clean P n s' := by
  unfold encodeConstraint at e
  split at e
  · split at e
    · exact amo_clean hP h hv e
    · obtain ⟨⟨d, s1⟩, e1, e⟩ := bind_ok e
      cases e
      exact (ccAmk_clean hP h hv e1).1
  · split at e
    · exact amo_clean hP h hv e
    · split at e
      · cases e
      · obtain ⟨⟨d, s1⟩, e1, e⟩ := bind_ok e
        cases e
        exact (ccAmk_clean hP h hv e1).1
  · obtain ⟨⟨d, s1⟩, e1, e⟩ := bind_ok e
    cases e
    exact (ccAlk_clean hP h hv e1).1
  · obtain ⟨⟨d, s1⟩, e1, e⟩ := bind_ok e
    cases e
    exact (ccAlk_clean hP h hv e1).1
  · split at e
    · exact ccExo_clean hP h hv e
    · exact ccExk_clean hP h hv e

end Verif
