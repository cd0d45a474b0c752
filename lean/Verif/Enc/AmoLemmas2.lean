import Verif.Enc.AmoLemmas
namespace Verif
open ER

/-- Encoding relative to a state in which variables have been allocated. -/
theorem alloc_encodes {s s1 s' : ER} {C D : Asg → Prop} (hw : Wf s) (hle : Le s s1)
    (hsat : ∀ σ, Sat σ s → Sat σ s1) (h : Encodes s1 s' D)
    (hC : ∀ σ σ', Agree s σ σ' → C σ → C σ')
    (sound : ∀ σ, D σ → C σ)
    (compl : ∀ σ, C σ → ∃ σ', Agree s σ σ' ∧ D σ') : Encodes s s' C := by
  refine Encodes.mk' (hle.trans h.le) hw h.wf hC (fun σ hs => sound σ (h.sound hs)) ?_
  intro σ hs hc
  obtain ⟨σ', ha, hd⟩ := compl σ hc
  obtain ⟨σ'', ha', hs'⟩ := h.compl (hsat _ ((ha.sat hw).1 hs)) hd
  exact ⟨σ'', ha.trans hle ha', hs'⟩

theorem newAuxs_ext! (n) (s : ER) (b : Nat → Bool) (σ : Asg) :
    ∃ σ', Agree s σ σ' ∧ ∀ i, i < n → σ' ((s.newAuxs .cc n).1.nth i) = b i := by
  obtain ⟨σ', h1, h2⟩ := newAuxs_ext .cc n s b σ
  refine ⟨σ', h1, fun i hi => ?_⟩
  rw [getBang _ _ (by simpa using hi)]; exact h2 i (by simpa using hi)

/-! ### product -/

theorem ceilSqrt_spec (n : Nat) : n ≤ ceilSqrt n * ceilSqrt n := by
  have h : ceilSqrt n < (List.range (n + 1)).length := by
    unfold ceilSqrt
    rw [List.findIdx_lt_length]
    refine ⟨n, by simp, ?_⟩
    simp; exact Nat.le_mul_self n
  unfold ceilSqrt at h ⊢
  have := List.findIdx_getElem (xs := List.range (n + 1)) (p := fun p => decide (n ≤ p * p)) (w := h)
  generalize List.findIdx (fun p => decide (n ≤ p * p)) (List.range (n + 1)) = i at *
  simpa using this

theorem ceilSqrt_lt {n p : Nat} (h : p < ceilSqrt n) : p * p < n := by
  have := List.not_of_lt_findIdx (xs := List.range (n + 1)) (p := fun p => decide (n ≤ p * p)) h
  simp at this; exact this

theorem ceilSqrt_le {n p : Nat} (h : n ≤ p * p) : ceilSqrt n ≤ p := by
  apply Nat.le_of_not_lt; intro hh; have := ceilSqrt_lt hh; omega

theorem ceilDiv_spec (a b : Nat) (hb : 0 < b) : a ≤ b * ceilDiv a b := by
  unfold ceilDiv
  have := Nat.div_add_mod (a + b - 1) b
  have h2 := Nat.mod_lt (a + b - 1) hb
  omega

theorem ceilDiv_le {a b c : Nat} (hb : 0 < b) (h : a ≤ b * c) : ceilDiv a b ≤ c := by
  unfold ceilDiv
  rw [← Nat.lt_succ_iff, Nat.div_lt_iff_lt_mul hb, Nat.succ_mul, Nat.mul_comm c b]; omega

theorem productClauses_sat {σ : Asg} {p q : Nat} {vars us vs : List Var} (hq : 0 < q) (hpq : vars.length ≤ p * q) :
    (∀ c ∈ productClauses p q vars us vs, Clause.Sat σ c) ↔
    ∀ k, k < vars.length → σ (vars.nth k) = true → σ (us.nth (k / q)) = true ∧ σ (vs.nth (k % q)) = true := by
  constructor
  · intro h k hk ht
    have hkq : k / q < p := by rw [Nat.div_lt_iff_lt_mul hq]; omega
    have hkm : k % q < q := Nat.mod_lt _ hq
    have he : k / q * q + k % q = k := by rw [Nat.mul_comm]; exact Nat.div_add_mod k q
    have hm : ∀ c ∈ [[(vars.nth k).n, (us.nth (k / q)).p], [(vars.nth k).n, (vs.nth (k % q)).p]], Clause.Sat σ c := by
      intro c hc
      apply h
      simp only [productClauses, List.mem_flatMap, List.mem_range]
      refine ⟨k / q, hkq, k % q, hkm, ?_⟩
      rw [he, if_pos hk]; exact hc
    have h1 := hm _ (List.mem_cons_self ..)
    have h2 := hm _ (List.mem_cons_of_mem _ (List.mem_cons_self ..))
    simp [ht] at h1 h2
    exact ⟨h1, h2⟩
  · intro h c hc
    simp only [productClauses, List.mem_flatMap, List.mem_range] at hc
    obtain ⟨i, hi, j, hj, hc⟩ := hc
    split at hc
    · rename_i hk
      have h1 : (i * q + j) / q = i := by
        rw [Nat.mul_comm, Nat.mul_add_div hq, Nat.div_eq_of_lt hj]; simp
      have h2 : (i * q + j) % q = j := by
        rw [Nat.mul_comm, Nat.mul_add_mod, Nat.mod_eq_of_lt hj]
      have := h (i * q + j) hk
      rw [h1, h2] at this
      simp only [List.mem_cons, List.not_mem_nil, or_false] at hc
      rcases hc with rfl | rfl <;> simp only [Clause.sat_cons, Lit.eval_n, Lit.eval_p, Clause.sat_nil, or_false] <;>
        cases ht : σ (vars.nth (i * q + j)) <;> simp_all
    · simp at hc

theorem productClauses_vars {p q : Nat} {vars us vs : List Var} {P : Var → Prop}
    (h1 : ∀ v ∈ vars, P v) (h2 : ∀ i, i < p → P (us.nth i)) (h3 : ∀ i, i < q → P (vs.nth i)) :
    ∀ c ∈ productClauses p q vars us vs, ∀ l ∈ c, P l.v := by
  intro c hc l hl
  simp only [productClauses, List.mem_flatMap, List.mem_range] at hc
  obtain ⟨i, hi, j, hj, hc⟩ := hc
  split at hc
  · rename_i hk
    simp only [List.mem_cons, List.not_mem_nil, or_false] at hc
    have hv := h1 _ (getBang_mem hk)
    rcases hc with rfl | rfl <;> simp at hl <;> rcases hl with rfl | rfl <;> first | exact hv | exact h2 i hi | exact h3 j hj
  · simp at hc

theorem productRec_encodes {rb : Nat} (hrb : 2 ≤ rb) : ∀ (fuel : Nat) (vars : List Var) (s : ER),
    2 ≤ vars.length → vars.length ≤ fuel → Wf s → (∀ v ∈ vars, s.Old v) →
    ∃ s', productRec rb fuel vars s = some s' ∧ Encodes s s' (fun σ => cntV σ vars ≤ 1) := by
  intro fuel
  induction fuel with
  | zero => intro vars s h1 h2; omega
  | succ fuel ih =>
    intro vars s hlen hfuel hw hv
    simp only [productRec]
    generalize hp : ceilSqrt vars.length = p
    generalize hq : ceilDiv vars.length p = q
    have hpp : vars.length ≤ p * p := hp ▸ ceilSqrt_spec _
    have hp0 : 0 < p := by
      rcases Nat.eq_zero_or_pos p with h | h
      · subst h; omega
      · exact h
    have hqp : q ≤ p := hq ▸ ceilDiv_le hp0 hpp
    have hpq : vars.length ≤ p * q := hq ▸ ceilDiv_spec _ _ hp0
    have hq0 : 0 < q := by
      rcases Nat.eq_zero_or_pos q with h | h
      · subst h; omega
      · exact h
    have hlt : p ≤ rb ∨ p < vars.length := by
      by_cases h3 : vars.length ≤ 2
      · left
        have : p ≤ 2 := hp ▸ ceilSqrt_le (by omega)
        omega
      · right
        have : p ≤ vars.length - 1 := hp ▸ ceilSqrt_le (by
          have : 2 * (vars.length - 1) ≤ (vars.length - 1) * (vars.length - 1) := Nat.mul_le_mul_right _ (by omega)
          omega)
        omega
    generalize hs1 : s.newAuxs .cc p = r1
    obtain ⟨us, s1⟩ := r1
    generalize hs2 : s1.newAuxs .cc q = r2
    obtain ⟨vs, s2⟩ := r2
    have e1 : us = (s.newAuxs .cc p).1 := by rw [hs1]
    have e2 : s1 = (s.newAuxs .cc p).2 := by rw [hs1]
    have e3 : vs = (s1.newAuxs .cc q).1 := by rw [hs2]
    have e4 : s2 = (s1.newAuxs .cc q).2 := by rw [hs2]
    have hle1 : Le s s1 := e2 ▸ newAuxs_le _ _ _
    have hle2 : Le s1 s2 := e4 ▸ newAuxs_le _ _ _
    have hw1 : Wf s1 := e2 ▸ newAuxs_wf hw
    have hw2 : Wf s2 := e4 ▸ newAuxs_wf hw1
    have lus : us.length = p := by rw [e1]; simp
    have lvs : vs.length = q := by rw [e3]; simp
    have ous1 : ∀ v ∈ us, s1.Old v := by rw [e1, e2]; exact newAuxs_old (by decide)
    have ous : ∀ v ∈ us, s2.Old v := fun v h => hle2.old (ous1 v h)
    have ovs : ∀ v ∈ vs, s2.Old v := by rw [e3, e4]; exact newAuxs_old (by decide)
    simp only
    -- the two recursive encodings
    have A : ∃ s3, (if p ≤ rb then some (amoPure us s2) else productRec rb fuel us s2) = some s3 ∧
        Encodes s2 s3 (fun σ => cntV σ us ≤ 1) := by
      split
      · exact ⟨_, rfl, amoPure_encodes hw2 ous⟩
      · exact ih us s2 (by omega) (by omega) hw2 ous
    obtain ⟨s3, hA, A⟩ := A
    have ovs3 : ∀ v ∈ vs, s3.Old v := fun v h => A.le.old (ovs v h)
    have B : ∃ s4, (if q ≤ rb then some (amoPure vs s3) else productRec rb fuel vs s3) = some s4 ∧
        Encodes s3 s4 (fun σ => cntV σ vs ≤ 1) := by
      split
      · exact ⟨_, rfl, amoPure_encodes A.wf ovs3⟩
      · exact ih vs s3 (by omega) (by omega) A.wf ovs3
    obtain ⟨s4, hB, B⟩ := B
    rw [hA]; simp only [Option.bind_some]
    rw [hB]; simp only [Option.bind_some]
    refine ⟨_, rfl, ?_⟩
    have hle24 : Le s2 s4 := A.le.trans B.le
    have hcl : ∀ c ∈ productClauses p q vars us vs, ∀ l ∈ c, s2.Old l.v :=
      productClauses_vars (fun v h => hle2.old (hle1.old (hv v h)))
        (fun i hi => ous _ (getBang_mem (by omega))) (fun i hi => ovs _ (getBang_mem (by omega)))
    have hC : Encodes s4 (s4.addClauses (productClauses p q vars us vs)) _ :=
      addClauses_encodes B.wf (fun c hc l hl => hle24.old (hcl c hc l hl))
    have AB := A.trans B (fun σ σ' ha h => by rw [← ha.cntV ovs]; exact h)
    have ABC := AB.trans hC (fun σ σ' ha h c hc => (ha.clause (hcl c hc)).1 (h c hc))
    refine alloc_encodes hw (hle1.trans hle2) (fun σ h => ?_) ABC ?_ ?_ ?_
    · subst e4; exact newAuxs_sat.2 (by rw [e2]; exact newAuxs_sat.2 h)
    · intro σ σ' ha h; rw [← ha.cntV hv]; exact h
    · rintro σ ⟨⟨h1, h2⟩, h3⟩
      rw [productClauses_sat hq0 hpq] at h3
      rw [cntV_le_one_iff] at h1 h2 ⊢
      intro i j hij hj ti tj
      obtain ⟨a1, a2⟩ := h3 i (by omega) ti
      obtain ⟨b1, b2⟩ := h3 j hj tj
      have hdi : i / q < p := by rw [Nat.div_lt_iff_lt_mul hq0]; omega
      have hdj : j / q < p := by rw [Nat.div_lt_iff_lt_mul hq0]; omega
      have hmi := Nat.mod_lt i hq0
      have hmj := Nat.mod_lt j hq0
      have hd : i / q = j / q := by
        rcases Nat.lt_trichotomy (i / q) (j / q) with h | h | h
        · exact (h1 _ _ h (by omega) a1 b1).elim
        · exact h
        · exact (h1 _ _ h (by omega) b1 a1).elim
      have hm : i % q = j % q := by
        rcases Nat.lt_trichotomy (i % q) (j % q) with h | h | h
        · exact (h2 _ _ h (by omega) a2 b2).elim
        · exact h
        · exact (h2 _ _ h (by omega) b2 a2).elim
      have := Nat.div_add_mod i q
      have := Nat.div_add_mod j q
      rw [hd, hm] at *
      omega
    · intro σ hc
      rw [cntV_le_one_iff] at hc
      obtain ⟨σ1, ha1, hb1⟩ := newAuxs_ext! p s (fun i => (List.range vars.length).any fun k => σ (vars.nth k) && k / q == i) σ
      obtain ⟨σ2, ha2, hb2⟩ := newAuxs_ext! q s1 (fun i => (List.range vars.length).any fun k => σ (vars.nth k) && k % q == i) σ1
      rw [← e1] at hb1
      rw [← e3] at hb2
      have ha : Agree s σ σ2 := ha1.trans hle1 ha2
      have hu : ∀ i, i < p → σ2 (us.nth i) = (List.range vars.length).any fun k => σ (vars.nth k) && k / q == i := by
        intro i hi
        rw [← ha2 _ (ous1 _ (getBang_mem (by omega)))]; exact hb1 i hi
      have uniq : ∀ k k', k < vars.length → k' < vars.length → σ (vars.nth k) = true → σ (vars.nth k') = true → k = k' := by
        intro k k' h1 h2 t1 t2
        rcases Nat.lt_trichotomy k k' with h | h | h
        · exact (hc _ _ h h2 t1 t2).elim
        · exact h
        · exact (hc _ _ h h1 t2 t1).elim
      refine ⟨σ2, ha, ⟨?_, ?_⟩, ?_⟩
      · rw [cntV_le_one_iff]
        intro i j hij hj ti tj
        rw [hu i (by omega)] at ti; rw [hu j (by omega)] at tj
        simp only [List.any_eq_true, List.mem_range, Bool.and_eq_true, beq_iff_eq] at ti tj
        obtain ⟨k, hk, t1, e⟩ := ti
        obtain ⟨k', hk', t2, e'⟩ := tj
        have := uniq k k' hk hk' t1 t2
        subst this; omega
      · rw [cntV_le_one_iff]
        intro i j hij hj ti tj
        rw [hb2 i (by omega)] at ti; rw [hb2 j (by omega)] at tj
        simp only [List.any_eq_true, List.mem_range, Bool.and_eq_true, beq_iff_eq] at ti tj
        obtain ⟨k, hk, t1, e⟩ := ti
        obtain ⟨k', hk', t2, e'⟩ := tj
        have := uniq k k' hk hk' t1 t2
        subst this; omega
      · rw [productClauses_sat hq0 hpq]
        intro k hk ht
        rw [← ha _ (hv _ (getBang_mem hk))] at ht
        have hdk : k / q < p := by rw [Nat.div_lt_iff_lt_mul hq0]; omega
        constructor
        · rw [hu _ hdk]
          simp only [List.any_eq_true, List.mem_range, Bool.and_eq_true, beq_iff_eq]
          exact ⟨k, hk, ht, rfl⟩
        · rw [hb2 _ (Nat.mod_lt _ hq0)]
          simp only [List.any_eq_true, List.mem_range, Bool.and_eq_true, beq_iff_eq]
          exact ⟨k, hk, ht, rfl⟩

/-- With `recursive_bound ≤ 1` the product encoder never returns on two or more variables. -/
theorem productRec_diverges {rb : Nat} (hrb : rb ≤ 1) : ∀ (fuel : Nat) (vars : List Var) (s : ER),
    2 ≤ vars.length → productRec rb fuel vars s = none := by
  intro fuel
  induction fuel with
  | zero => intro vars s _; rfl
  | succ fuel ih =>
    intro vars s hlen
    simp only [productRec]
    have h2 : 2 ≤ ceilSqrt vars.length := by
      apply Nat.le_of_not_lt
      intro h
      have := ceilSqrt_spec vars.length
      have h3 : ceilSqrt vars.length ≤ 1 := by omega
      have := Nat.mul_le_mul h3 h3
      omega
    rw [if_neg (by omega)]
    have := ih (s.newAuxs .cc (ceilSqrt vars.length)).1
      (((s.newAuxs .cc (ceilSqrt vars.length)).2).newAuxs .cc (ceilDiv vars.length (ceilSqrt vars.length))).2 (by simpa using h2)
    rw [this]; rfl

/-! ### nested -/

theorem cntL_append (σ : Asg) (a b : List Lit) : cntL σ (a ++ b) = cntL σ a + cntL σ b := by
  simp [cntL, List.countP_append]

theorem cntL_singleton (σ : Asg) (a : Lit) : cntL σ [a] = if a.eval σ then 1 else 0 := by
  simp [cntL, List.countP_cons]

theorem nestedRec_encodes {gs : Nat} (hgs : 4 ≤ gs) : ∀ (fuel : Nat) (ls : List Lit) (s : ER),
    ls.length < fuel → Wf s → (∀ l ∈ ls, s.Old l.v) →
    ∃ s', nestedRec gs fuel ls s = some s' ∧ Encodes s s' (fun σ => cntL σ ls ≤ 1) := by
  intro fuel
  induction fuel with
  | zero => intro ls s h; omega
  | succ fuel ih =>
    intro ls s hlen hw hv
    simp only [nestedRec]
    split
    · exact ⟨_, rfl, pairNeg_encodes hw hv⟩
    · rename_i hge
      generalize hs1 : s.newAuxs .cc 1 = r1
      obtain ⟨nv, s1⟩ := r1
      have e1 : nv = (s.newAuxs .cc 1).1 := by rw [hs1]
      have e2 : s1 = (s.newAuxs .cc 1).2 := by rw [hs1]
      have hle1 : Le s s1 := e2 ▸ newAuxs_le _ _ _
      have hw1 : Wf s1 := e2 ▸ newAuxs_wf hw
      have hx : s1.Old (nv.nth 0) := by rw [e1, e2]; exact newAuxs_old! (by omega)
      simp only
      generalize hxx : nv.nth 0 = x at hx
      have hls : ∀ l ∈ ls, s1.Old l.v := fun l hl => hle1.old (hv l hl)
      have o1 : ∀ l ∈ ls.take (ls.length / 2) ++ [x.p], s1.Old l.v := by
        intro l hl
        simp only [List.mem_append, List.mem_singleton] at hl
        rcases hl with hl | rfl
        · exact hls l (List.mem_of_mem_take hl)
        · exact hx
      have o2 : ∀ l ∈ ls.drop (ls.length / 2) ++ [x.n], s1.Old l.v := by
        intro l hl
        simp only [List.mem_append, List.mem_singleton] at hl
        rcases hl with hl | rfl
        · exact hls l (List.mem_of_mem_drop hl)
        · exact hx
      obtain ⟨s2, h2, E2⟩ := ih (ls.take (ls.length / 2) ++ [x.p]) s1 (by simp; omega) hw1 o1
      rw [h2]; simp only [Option.bind_some]
      obtain ⟨s3, h3, E3⟩ := ih (ls.drop (ls.length / 2) ++ [x.n]) s2 (by simp; omega) E2.wf
        (fun l hl => E2.le.old (o2 l hl))
      refine ⟨s3, h3, ?_⟩
      have E := E2.trans E3 (fun σ σ' ha h => by rw [← ha.cntL o2]; exact h)
      have hsplit : ∀ σ, cntL σ ls = cntL σ (ls.take (ls.length / 2)) + cntL σ (ls.drop (ls.length / 2)) := by
        intro σ; rw [← cntL_append, List.take_append_drop]
      refine alloc_encodes hw hle1 (fun σ h => ?_) E ?_ ?_ ?_
      · rw [e2]; exact newAuxs_sat.2 h
      · intro σ σ' ha h; rw [← ha.cntL hv]; exact h
      · rintro σ ⟨h1, h2⟩
        rw [cntL_append, cntL_singleton] at h1 h2
        simp only [Lit.eval_p, Lit.eval_n] at h1 h2
        rw [hsplit]
        cases hσ : σ x <;> simp [hσ] at h1 h2 <;> omega
      · intro σ hc
        rw [hsplit] at hc
        obtain ⟨σ', ha, hb⟩ := newAuxs_ext! 1 s (fun _ => decide (cntL σ (ls.take (ls.length / 2)) = 0)) σ
        have hb := hb 0 (by omega)
        refine ⟨σ', ha, ?_⟩
        rw [cntL_append, cntL_singleton, cntL_append, cntL_singleton]
        simp only [Lit.eval_p, Lit.eval_n]
        rw [← ha.cntL (fun l hl => hv l (List.mem_of_mem_take hl)), ← ha.cntL (fun l hl => hv l (List.mem_of_mem_drop hl))]
        have hx' : σ' x = decide (cntL σ (ls.take (ls.length / 2)) = 0) := by
          rw [← hb, ← hxx, e1]
        rw [hx']
        by_cases h0 : cntL σ (ls.take (ls.length / 2)) = 0 <;> simp [h0] <;> omega

/-- With a group size of at most 3 the nested encoder never returns on three or more
literals (and with at most 2, on two or more). -/
theorem nestedRec_diverges {gs : Nat} : ∀ (fuel : Nat) (ls : List Lit) (s : ER),
    (gs ≤ 3 ∧ 3 ≤ ls.length ∨ gs ≤ 2 ∧ 2 ≤ ls.length) → nestedRec gs fuel ls s = none := by
  intro fuel
  induction fuel with
  | zero => intro ls s _; rfl
  | succ fuel ih =>
    intro ls s h
    simp only [nestedRec]
    rw [if_neg (by omega)]
    have : ∀ x s, nestedRec gs fuel (ls.drop (ls.length / 2) ++ [x]) s = none := by
      intro x s; apply ih; simp; omega
    cases nestedRec gs fuel (ls.take (ls.length / 2) ++ [((s.newAuxs .cc 1).1.nth 0).p]) (s.newAuxs .cc 1).2 <;>
      simp [this]

/-! ### commander -/

/-- What one commander literal `l` must say about its group. -/
def CmdRel (eo : Bool) (σ : Asg) (g : List Lit) (b : Bool) : Prop :=
  cntL σ g ≤ 1 ∧ (cntL σ g = 1 → b = true) ∧ (eo = true → b = true → cntL σ g = 1)

theorem cntL_pos {σ : Asg} {g : List Lit} : 1 ≤ cntL σ g ↔ ∃ l ∈ g, l.eval σ = true := by
  unfold cntL
  rw [Nat.succ_le_iff, List.countP_pos_iff]

theorem commanderGroup_spec (eo : Bool) (g : List Lit) (s : ER) (hw : Wf s) (hv : ∀ l ∈ g, s.Old l.v) :
    let r := commanderGroup eo g s
    Le s r.2 ∧ Wf r.2 ∧ r.2.Old r.1.v ∧
    (∀ σ, Sat σ r.2 → CmdRel eo σ g (r.1.eval σ)) ∧
    (∀ σ b, Sat σ s → CmdRel eo σ g b → ∃ σ', Agree s σ σ' ∧ Sat σ' r.2 ∧ r.1.eval σ' = b) := by
  simp only [commanderGroup]
  generalize hs1 : ER.newAuxs .cc 1 (s.addClauses (pairNeg g)) = r1
  obtain ⟨nv, s1⟩ := r1
  have e1 : nv = (ER.newAuxs .cc 1 (s.addClauses (pairNeg g))).1 := by rw [hs1]
  have e2 : s1 = (ER.newAuxs .cc 1 (s.addClauses (pairNeg g))).2 := by rw [hs1]
  have hle0 : Le s (s.addClauses (pairNeg g)) := addClauses_le _ _
  have hle1 : Le s s1 := hle0.trans (e2 ▸ newAuxs_le _ _ _)
  have hw0 : Wf (s.addClauses (pairNeg g)) := addClauses_wf hw (pairNeg_vars hv)
  have hw1 : Wf s1 := e2 ▸ newAuxs_wf hw0
  have hx : s1.Old (nv.nth 0) := by rw [e1, e2]; exact newAuxs_old! (by omega)
  simp only
  generalize hxx : nv.nth 0 = x at hx
  have hg1 : ∀ l ∈ g, s1.Old l.v := fun l hl => hle1.old (hv l hl)
  generalize hs2 : (if eo = true then s1.addClauses [g ++ [x.p]] else s1) = s2
  have hle2 : Le s1 s2 := by rw [← hs2]; split; exact addClauses_le _ _; exact Le.refl _
  have hw2 : Wf s2 := by
    rw [← hs2]; split
    · refine addClauses_wf hw1 ?_
      intro c hc l hl
      simp at hc; subst hc
      simp at hl
      rcases hl with hl | rfl
      · exact hg1 l hl
      · exact hx
    · exact hw1
  have sat2 : ∀ σ, Sat σ s2 ↔ Sat σ s1 ∧ (eo = true → Clause.Sat σ (g ++ [x.p])) := by
    intro σ; rw [← hs2]; split
    · rename_i h; rw [addClauses_sat]; simp [h]
    · rename_i h; simp [h]
  have sat1 : ∀ σ, Sat σ s1 ↔ Sat σ s ∧ cntL σ g ≤ 1 := by
    intro σ; rw [e2, newAuxs_sat, addClauses_sat, pairNeg_sat]
  have satg : ∀ σ, (∀ c ∈ g.map (fun l => [x.n, l.neg]), Clause.Sat σ c) ↔ (1 ≤ cntL σ g → σ x = false) := by
    intro σ
    rw [cntL_pos]
    simp only [List.mem_map, forall_exists_index, and_imp, forall_apply_eq_imp_iff₂, Clause.sat_cons,
      Lit.eval_n, Lit.eval_neg, Clause.sat_nil, or_false]
    constructor
    · intro h l hl ht; have := h l hl; simpa [ht] using this
    · intro h l hl; cases ht : l.eval σ with
      | false => simp
      | true => left; simp [h l hl ht]
  have satx : ∀ σ, Clause.Sat σ (g ++ [x.p]) ↔ (1 ≤ cntL σ g ∨ σ x = true) := by
    intro σ; rw [cntL_pos]; simp only [Clause.Sat, List.mem_append, List.mem_singleton]
    constructor
    · rintro ⟨l, hl | rfl, h⟩
      · exact Or.inl ⟨l, hl, h⟩
      · right; simpa using h
    · rintro (⟨l, hl, h⟩ | h)
      · exact ⟨l, Or.inl hl, h⟩
      · exact ⟨_, Or.inr rfl, by simpa using h⟩
  refine ⟨(hle1.trans hle2).trans (addClauses_le _ _), addClauses_wf hw2 ?_, ?_, ?_, ?_⟩
  · intro c hc l hl
    simp only [List.mem_map] at hc
    obtain ⟨m, hm, rfl⟩ := hc
    simp at hl
    rcases hl with rfl | rfl
    · exact hle2.old hx
    · exact hle2.old (hg1 m hm)
  · rw [addClauses_old]; exact hle2.old hx
  · intro σ h
    rw [addClauses_sat, sat2, sat1, satg] at h
    obtain ⟨⟨⟨_, h1⟩, h2⟩, h3⟩ := h
    refine ⟨h1, ?_, ?_⟩
    · intro he; simp [h3 (by omega)]
    · intro he hb
      simp at hb
      rw [satx] at h2
      rcases h2 he with h | h
      · omega
      · simp [hb] at h
  · intro σ b hs ⟨c1, c2, c3⟩
    obtain ⟨σ', ha, hb⟩ := newAuxs_ext! 1 (s.addClauses (pairNeg g)) (fun _ => !b) σ
    have hb := hb 0 (by omega)
    rw [← e1, hxx] at hb
    have ha := addClauses_agree.1 ha
    refine ⟨σ', ha, ?_, by simp [hb]⟩
    rw [addClauses_sat, sat2, sat1, satg, satx, ← ha.cntL hv, hb]
    refine ⟨⟨⟨(ha.sat hw).1 hs, c1⟩, ?_⟩, ?_⟩
    · intro he
      cases b with
      | false => simp
      | true => left; have := c3 he rfl; omega
    · intro h; have := c2 (by omega); simp [this]

/-- Pointwise relation of two lists (specification of one level). -/
inductive All2 {α β} (R : α → β → Prop) : List α → List β → Prop
  | nil : All2 R [] []
  | cons {a b as bs} : R a b → All2 R as bs → All2 R (a :: as) (b :: bs)

theorem commanderLevel_spec (eo : Bool) : ∀ (gs : List (List Lit)) (s : ER), Wf s →
    (∀ g ∈ gs, ∀ l ∈ g, s.Old l.v) →
    let r := commanderLevel eo gs s
    Le s r.2 ∧ Wf r.2 ∧ (∀ l ∈ r.1, r.2.Old l.v) ∧ r.1.length = gs.length ∧
    (∀ σ, Sat σ r.2 → All2 (fun g l => CmdRel eo σ g (Lit.eval σ l)) gs r.1) ∧
    (∀ σ bs, Sat σ s → All2 (fun g b => CmdRel eo σ g b) gs bs →
      ∃ σ', Agree s σ σ' ∧ Sat σ' r.2 ∧ r.1.map (Lit.eval σ') = bs) := by
  intro gs
  induction gs with
  | nil =>
    intro s hw _
    refine ⟨Le.refl _, hw, by simp [commanderLevel], rfl, fun _ _ => .nil, ?_⟩
    intro σ bs hs hb
    cases hb
    exact ⟨σ, Agree.refl _ _, hs, rfl⟩
  | cons g gs ih =>
    intro s hw hv
    obtain ⟨g1, g2, g3, g4, g5⟩ := commanderGroup_spec eo g s hw (fun l hl => hv g (by simp) l hl)
    simp only [commanderLevel]
    generalize commanderGroup eo g s = r1 at g1 g2 g3 g4 g5
    obtain ⟨l, s1⟩ := r1
    simp only at g1 g2 g3 g4 g5 ⊢
    have hv1 : ∀ g' ∈ gs, ∀ l ∈ g', s1.Old l.v := fun g' hg' l hl => g1.old (hv g' (by simp [hg']) l hl)
    obtain ⟨i1, i2, i3, i4, i5, i6⟩ := ih s1 g2 hv1
    generalize commanderLevel eo gs s1 = r2 at i1 i2 i3 i4 i5 i6
    obtain ⟨ls, s2⟩ := r2
    simp only at i1 i2 i3 i4 i5 i6 ⊢
    refine ⟨g1.trans i1, i2, ?_, by simp [i4], ?_, ?_⟩
    · intro m hm
      simp only [List.mem_cons] at hm
      rcases hm with rfl | hm
      · exact i1.old g3
      · exact i3 m hm
    · intro σ h; exact .cons (g4 σ (i1.sat h)) (i5 σ h)
    · intro σ bs hs hb
      cases hb with
      | @cons _ b _ bs h1 h2 =>
        obtain ⟨σ1, a1, s1', e1⟩ := g5 σ b hs h1
        have hb2 : All2 (fun g b => CmdRel eo σ1 g b) gs bs := by
          clear i6 i5 i4 i3 ih hv1
          have hv' : ∀ g' ∈ gs, ∀ l ∈ g', s.Old l.v := fun g' hg' l hl => hv g' (by simp [hg']) l hl
          clear hv
          induction h2 with
          | nil => exact .nil
          | cons hh _ ihh =>
            refine .cons ?_ (ihh (fun g' hg' l hl => hv' g' (by simp [hg']) l hl))
            unfold CmdRel at hh ⊢
            rw [← a1.cntL (fun l hl => hv' _ (by simp) l hl)]; exact hh
        obtain ⟨σ2, a2, s2', e2⟩ := i6 σ1 bs s1' hb2
        refine ⟨σ2, a1.trans g1 a2, s2', ?_⟩
        rw [List.map_cons, e2, ← a2.lit g3, e1]

theorem All2_sum {eo : Bool} {σ : Asg} {gs : List (List Lit)} {bs : List Bool}
    (h : All2 (fun g b => CmdRel eo σ g b) gs bs) :
    cntL σ gs.flatten ≤ bs.countP id ∧ (eo = true → bs.countP id = cntL σ gs.flatten) := by
  induction h with
  | nil => simp [cntL]
  | @cons g b gs bs h1 _ ih =>
    obtain ⟨c1, c2, c3⟩ := h1
    rw [List.flatten_cons, cntL_append, List.countP_cons]
    simp only [id]
    cases b with
    | false =>
      have : cntL σ g = 0 := by
        rcases Nat.eq_zero_or_pos (cntL σ g) with h | h
        · exact h
        · have := c2 (by omega); simp at this
      simp [this]; exact ih
    | true =>
      refine ⟨by simp; omega, ?_⟩
      intro he; have := c3 he rfl; have := ih.2 he; simp; omega

theorem All2_exact {eo : Bool} {σ : Asg} {gs : List (List Lit)} (h : cntL σ gs.flatten ≤ 1) :
    All2 (fun g b => CmdRel eo σ g b) gs (gs.map fun g => decide (cntL σ g = 1)) := by
  induction gs with
  | nil => exact .nil
  | cons g gs ih =>
    rw [List.flatten_cons, cntL_append] at h
    refine .cons ⟨by omega, by simp, by simp⟩ (ih (by omega))

theorem All2_map_right {α β γ} {R : α → γ → Prop} {f : β → γ} {as : List α} {bs : List β}
    (h : All2 (fun a b => R a (f b)) as bs) : All2 R as (bs.map f) := by
  induction h with
  | nil => exact .nil
  | cons h1 _ ih => exact .cons h1 ih

theorem chunks_flatten {k : Nat} (hk : 0 < k) : ∀ (fuel : Nat) (l : List Lit), l.length ≤ fuel → (chunks k fuel l).flatten = l := by
  intro fuel
  induction fuel with
  | zero => intro l h; simp [chunks]; cases l; rfl; simp at h
  | succ fuel ih =>
    intro l h
    simp only [chunks]
    split
    · simp_all
    · rename_i hne
      rw [List.flatten_cons, ih _ (by simp; omega), List.take_append_drop]

theorem chunks_length {k : Nat} (hk : 2 ≤ k) : ∀ (fuel : Nat) (l : List Lit), (chunks k fuel l).length ≤ (l.length + 1) / 2 := by
  intro fuel
  induction fuel with
  | zero => intro l; simp [chunks]
  | succ fuel ih =>
    intro l
    simp only [chunks]
    split
    · simp
    · rename_i hne
      have hl : 0 < l.length := by cases l <;> simp_all
      have := ih (l.drop k)
      simp only [List.length_cons]
      rw [List.length_drop] at this
      omega

theorem chunks_ne {k : Nat} {fuel : Nat} {l : List Lit} (hf : 0 < fuel) (hl : 0 < l.length) : chunks k fuel l ≠ [] := by
  cases fuel with
  | zero => omega
  | succ f => simp only [chunks]; cases l <;> simp_all

/-- What a level must enforce. -/
def CmdGoal (eo : Bool) (ls : List Lit) (σ : Asg) : Prop := cntL σ ls ≤ 1 ∧ (eo = true → cntL σ ls = 1)

theorem commanderLoop_encodes {k : Nat} (hk : 2 ≤ k) : ∀ (fuel : Nat) (eo : Bool) (cur : List Lit) (s : ER),
    0 < cur.length → cur.length ≤ fuel → Wf s → (∀ l ∈ cur, s.Old l.v) →
    ∃ s', commanderLoop k fuel eo cur s = some s' ∧ Encodes s s' (CmdGoal eo cur) := by
  intro fuel
  induction fuel with
  | zero => intro eo cur s h h'; omega
  | succ fuel ih =>
    intro eo cur s hpos hlen hw hv
    simp only [commanderLoop]
    split
    · rename_i hgt
      have hfl := chunks_flatten (k := k) (by omega) cur.length cur (Nat.le_refl _)
      have hcl := chunks_length hk cur.length cur
      have hne := chunks_ne (k := k) (l := cur) hpos hpos
      generalize chunks k cur.length cur = gs at hfl hcl hne
      have hvg : ∀ g ∈ gs, ∀ l ∈ g, s.Old l.v := by
        intro g hg l hl; apply hv; rw [← hfl]; exact List.mem_flatten.2 ⟨g, hg, hl⟩
      obtain ⟨l1, l2, l3, l4, l5, l6⟩ := commanderLevel_spec eo gs s hw hvg
      generalize commanderLevel eo gs s = r at l1 l2 l3 l4 l5 l6
      obtain ⟨next, s1⟩ := r
      simp only at l1 l2 l3 l4 l5 l6 ⊢
      have hnpos : 0 < next.length := by rw [l4]; cases gs <;> simp_all
      obtain ⟨s2, h2, E⟩ := ih true next s1 hnpos (by omega) l2 l3
      refine ⟨s2, h2, ?_⟩
      refine Encodes.mk' (l1.trans E.le) hw E.wf ?_ ?_ ?_
      · intro σ σ' ha h; unfold CmdGoal at h ⊢; rw [← ha.cntL hv]; exact h
      · intro σ hs
        have g := E.sound hs
        have a := All2_sum (All2_map_right (l5 σ (E.le.sat hs)))
        have hcnt : (next.map (Lit.eval σ)).countP id = cntL σ next := by
          simp [List.countP_map, cntL]
        rw [hcnt, hfl] at a
        have := g.2 rfl
        refine ⟨by omega, fun he => ?_⟩
        have := a.2 he; omega
      · intro σ hs hc
        obtain ⟨c1, c2⟩ := hc
        have : ∃ bs, All2 (fun g b => CmdRel eo σ g b) gs bs ∧ bs.countP id = 1 := by
          by_cases h1 : cntL σ cur = 1
          · refine ⟨_, All2_exact (by rw [hfl]; exact c1), ?_⟩
            rw [← hfl] at h1
            clear hfl hcl hne hvg l1 l2 l3 l4 l5 l6 hnpos h2 E
            have gen : ∀ gs : List (List Lit), cntL σ gs.flatten ≤ 1 →
                (gs.map fun g => decide (cntL σ g = 1)).countP id = cntL σ gs.flatten := by
              intro gs
              induction gs with
              | nil => simp [cntL]
              | cons g gs ihg =>
                intro hh
                rw [List.flatten_cons, cntL_append] at hh ⊢
                rw [List.map_cons, List.countP_cons, ihg (by omega)]
                simp only [id, decide_eq_true_eq]
                split <;> omega
            rw [gen gs (by omega)]; exact h1
          · have h0 : cntL σ cur = 0 := by omega
            have heo : eo = false := by
              cases eo with
              | false => rfl
              | true => exact absurd (c2 rfl) h1
            rw [← hfl] at h0
            cases gs with
            | nil => exact absurd rfl hne
            | cons g gs =>
              refine ⟨true :: gs.map fun g => decide (cntL σ g = 1), ?_, ?_⟩
              · rw [List.flatten_cons, cntL_append] at h0
                refine .cons ⟨by omega, by simp, by simp [heo]⟩ (All2_exact (by omega))
              · rw [List.flatten_cons, cntL_append] at h0
                have : ∀ g ∈ gs, cntL σ g = 0 := by
                  intro g hg
                  have h00 : cntL σ gs.flatten = 0 := by omega
                  unfold cntL at h00 ⊢
                  rw [List.countP_eq_zero] at h00 ⊢
                  intro l hl; exact h00 l (List.mem_flatten.2 ⟨g, hg, hl⟩)
                rw [List.countP_cons]
                have hz : (gs.map fun g => decide (cntL σ g = 1)).countP id = 0 := by
                  rw [List.countP_eq_zero]
                  intro b hb
                  simp only [List.mem_map] at hb
                  obtain ⟨g, hg, rfl⟩ := hb
                  simp [this g hg]
                rw [hz]; simp
        obtain ⟨bs, hA, hcnt⟩ := this
        obtain ⟨σ1, a1, hs1, e1⟩ := l6 σ bs hs hA
        have hcn : cntL σ1 next = 1 := by
          rw [← hcnt, ← e1]; simp [List.countP_map, cntL]
        obtain ⟨σ2, a2, hs2⟩ := E.compl hs1 ⟨by omega, fun _ => hcn⟩
        exact ⟨σ2, a1.trans l1 a2, hs2⟩
    · refine ⟨_, rfl, ?_⟩
      have E := pairNeg_encodes hw hv
      have hne : cur.isEmpty = false := by cases cur <;> simp_all
      simp only [hne, Bool.not_false, Bool.and_true]
      split
      · rename_i he
        have E2 := addClauses_encodes (cs := [cur]) E.wf (by
          intro c hc l hl; simp at hc; subst hc; exact E.le.old (hv l hl))
        refine (E.trans E2 ?_).congr ?_
        · intro σ σ' ha h c hc
          simp at hc; subst hc
          exact (ha.clause hv).1 (h c (by simp))
        · intro σ
          simp only [List.mem_singleton, forall_eq, CmdGoal]
          have : Clause.Sat σ cur ↔ 1 ≤ cntL σ cur := cntL_pos.symm
          rw [this]; constructor
          · rintro ⟨a, b⟩; exact ⟨a, fun _ => by omega⟩
          · rintro ⟨a, b⟩; have := b he; omega
      · rename_i he
        refine E.congr ?_
        intro σ; simp [CmdGoal, he]

theorem amoCommander_encodes {k fuel : Nat} (hk : 2 ≤ k) {vars : List Var} {s : ER} (hlen : 0 < vars.length)
    (hf : vars.length ≤ fuel) (hw : Wf s) (hv : ∀ v ∈ vars, s.Old v) :
    ∃ s', amoCommander k fuel vars s = some s' ∧ Encodes s s' (fun σ => cntV σ vars ≤ 1) := by
  obtain ⟨s', h, E⟩ := commanderLoop_encodes hk fuel false (vars.map Var.p) s (by simpa) (by simpa) hw (map_p_old hv)
  exact ⟨s', h, E.congr (fun σ => by simp [CmdGoal, cntL_map_p])⟩

theorem chunks_one : ∀ (fuel : Nat) (l : List Lit), l.length ≤ fuel → (chunks 1 fuel l).length = l.length := by
  intro fuel
  induction fuel with
  | zero => intro l h; simp [chunks]; omega
  | succ fuel ih =>
    intro l h
    simp only [chunks]
    cases l with
    | nil => simp
    | cons a l => simp [ih l (by simpa using h)]

theorem commanderLevel_length (eo : Bool) : ∀ (gs : List (List Lit)) (s : ER), (commanderLevel eo gs s).1.length = gs.length := by
  intro gs
  induction gs with
  | nil => intro s; rfl
  | cons g gs ih => intro s; simp [commanderLevel, ih]

/-- With group size 1 the commander encoder never returns on two or more literals. -/
theorem commanderLoop_diverges : ∀ (fuel : Nat) (eo : Bool) (cur : List Lit) (s : ER), 2 ≤ cur.length →
    commanderLoop 1 fuel eo cur s = none := by
  intro fuel
  induction fuel with
  | zero => intros; rfl
  | succ fuel ih =>
    intro eo cur s h
    simp only [commanderLoop]
    rw [if_pos (by omega)]
    apply ih
    rw [commanderLevel_length, chunks_one _ _ (Nat.le_refl _)]; exact h

end Verif
