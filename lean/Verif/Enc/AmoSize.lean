import Verif.Enc.AmoLemmas2
import Verif.Enc.AmoLemmas3
import Mathlib.Tactic.Linarith
import Mathlib.Tactic.Ring
/-
How many clauses and auxiliary variables the at-most-one encoders write.
-/
namespace Verif

/-- From `s` to `s'` at most `k` clauses and at most `a` auxiliary variables of kind `cc` were
added, and no other auxiliary variables (specification). -/
def Adds (s s' : ER) (k a : Nat) : Prop :=
  s'.clauses.length ≤ s.clauses.length + k ∧ s'.cnt .cc ≤ s.cnt .cc + a ∧ ∀ t, t ≠ .cc → s'.cnt t = s.cnt t

theorem Adds.trans {s s' s'' : ER} {k a k' a' : Nat} (h : Adds s s' k a) (h' : Adds s' s'' k' a') :
    Adds s s'' (k + k') (a + a') := by
  obtain ⟨x1, x2, x3⟩ := h
  obtain ⟨y1, y2, y3⟩ := h'
  exact ⟨by omega, by omega, fun t ht => (y3 t ht).trans (x3 t ht)⟩

theorem Adds.mono {s s' : ER} {k a k' a' : Nat} (h : Adds s s' k a) (hk : k ≤ k') (ha : a ≤ a') : Adds s s' k' a' :=
  ⟨by have := h.1; omega, by have := h.2.1; omega, h.2.2⟩

theorem Adds.rfl {s : ER} : Adds s s 0 0 := ⟨by omega, by omega, fun _ _ => Eq.refl _⟩

theorem adds_clauses (cs : List Clause) (s : ER) : Adds s (s.addClauses cs) cs.length 0 :=
  ⟨by simp [ER.addClauses], by simp [ER.addClauses], fun _ _ => Eq.refl _⟩

theorem adds_aux (n : Nat) (s : ER) : Adds s (s.newAuxs .cc n).2 0 n :=
  ⟨by simp [ER.newAuxs], by simp [ER.newAuxs], fun t ht => by simp [ER.newAuxs, ht]⟩

theorem auxs_length (n : Nat) (s : ER) : (s.newAuxs .cc n).1.length = n := by simp [ER.newAuxs]

theorem pairNeg_length (ls : List Lit) : 2 * (pairNeg ls).length = ls.length * (ls.length - 1) := by
  induction ls with
  | nil => rfl
  | cons a l ih =>
    simp only [pairNeg, List.length_append, List.length_map, List.length_cons, Nat.add_sub_cancel]
    rcases Nat.eq_zero_or_pos l.length with h | h
    · simp [h] at ih ⊢; exact ih
    · obtain ⟨m, hm⟩ : ∃ m, l.length = m + 1 := ⟨l.length - 1, by omega⟩
      rw [hm] at ih ⊢
      simp only [Nat.add_sub_cancel] at ih
      nlinarith

/-! ### Ladder -/

theorem sum_const_range {β} (n : Nat) (f : Nat → List β) (c : Nat) (h : ∀ i < n, (f i).length = c) :
    ((List.range n).flatMap f).length = n * c := by
  induction n with
  | zero => simp
  | succ n ih =>
    rw [List.range_succ, List.flatMap_append, List.length_append, ih (fun i hi => h i (by omega))]
    simp [h n (by omega), Nat.add_mul]

theorem amoLadder_size {vars : List Var} {s : ER} (hlen : 2 ≤ vars.length) :
    (amoLadder vars s).clauses.length + 4 = s.clauses.length + 3 * vars.length ∧
    (amoLadder vars s).cnt .cc + 1 = s.cnt .cc + vars.length := by
  obtain ⟨m, hm⟩ : ∃ m, vars.length = m + 2 := ⟨vars.length - 2, by omega⟩
  constructor
  · simp only [amoLadder, ER.addClauses, List.length_append, hm]
    rw [show m + 2 = (m + 1) + 1 from Eq.refl _, List.range_succ, List.flatMap_append, List.range_succ_eq_map, List.flatMap_cons,
      List.flatMap_map]
    simp only [List.length_append]
    rw [sum_const_range m _ 3 (fun i hi => by
      rw [if_neg (by omega), if_neg (by omega)]; rfl)]
    simp [ER.newAuxs]
    omega
  · simp only [amoLadder, ER.addClauses, ER.newAuxs, if_pos]
    omega

/-! ### Product -/

theorem row_length (n b q : Nat) (f : Nat → List Clause) (hf : ∀ j, (f j).length = 2) :
    ((List.range q).flatMap fun j => if b + j < n then f j else []).length = 2 * (min n (b + q) - min n b) := by
  induction q with
  | zero => simp
  | succ q ih =>
    rw [List.range_succ, List.flatMap_append, List.length_append, ih]
    simp only [List.flatMap_cons, List.flatMap_nil, List.append_nil]
    by_cases h : b + q < n
    · rw [if_pos h, hf]; omega
    · rw [if_neg h]; simp; omega

theorem productClauses_length (p q : Nat) (vars us vs : List Var) :
    (productClauses p q vars us vs).length = 2 * min vars.length (p * q) := by
  unfold productClauses
  induction p with
  | zero => simp
  | succ p ih =>
    rw [List.range_succ, List.flatMap_append, List.length_append, ih]
    simp only [List.flatMap_cons, List.flatMap_nil, List.append_nil]
    rw [row_length vars.length (p * q) q (fun j => [[(vars.nth (p * q + j)).n, (us.nth p).p], [(vars.nth (p * q + j)).n, (vs.nth j).p]])
      (fun j => Eq.refl _), Nat.add_mul, Nat.one_mul]
    omega

/-- The dimensions of the grid: `(p-1)² < n` and `(q-1)·p < n`. -/
theorem grid {n : Nat} (hn : 1 ≤ n) : ∃ p q, ceilSqrt n = p + 1 ∧ ceilDiv n (p + 1) = q + 1 ∧ p * p < n ∧ q * (p + 1) < n ∧
    n ≤ (p + 1) * (p + 1) ∧ q ≤ p := by
  have h1 := ceilSqrt_spec n
  have hp : 0 < ceilSqrt n := by
    rcases Nat.eq_zero_or_pos (ceilSqrt n) with h | h
    · rw [h] at h1; omega
    · exact h
  obtain ⟨p, hp'⟩ : ∃ p, ceilSqrt n = p + 1 := ⟨ceilSqrt n - 1, by omega⟩
  have h2 : p * p < n := ceilSqrt_lt (by omega)
  rw [hp'] at h1
  have h3 := ceilDiv_spec n (p + 1) (by omega)
  have hq : 0 < ceilDiv n (p + 1) := by
    rcases Nat.eq_zero_or_pos (ceilDiv n (p + 1)) with h | h
    · rw [h] at h3; omega
    · exact h
  obtain ⟨q, hq'⟩ : ∃ q, ceilDiv n (p + 1) = q + 1 := ⟨ceilDiv n (p + 1) - 1, by omega⟩
  refine ⟨p, q, hp', hq', h2, ?_, h1, ?_⟩
  · have h4 : (n + (p + 1) - 1) / (p + 1) = q + 1 := hq'
    have h5 : (q + 1) * (p + 1) ≤ n + (p + 1) - 1 := by
      rw [← h4]; exact Nat.div_mul_le_self _ _
    rw [Nat.add_mul, Nat.one_mul] at h5
    omega
  · have := ceilDiv_le (a := n) (b := p + 1) (c := p + 1) (by omega) h1
    omega

theorem grid_two {n p q : Nat} (h1 : p * p < n) (h2 : q * (p + 1) < n) (hq : q ≤ p) (hq2 : 2 ≤ q) :
    7 * ((p + 1) + (q + 1)) ≤ 6 * n := by
  rcases Nat.lt_or_ge q p with h | h
  · obtain ⟨r, rfl⟩ : ∃ r, p = r + 3 := ⟨p - 3, by omega⟩
    nlinarith
  · obtain rfl : q = p := by omega
    obtain ⟨r, rfl⟩ : ∃ r, q = r + 2 := ⟨q - 2, by omega⟩
    nlinarith

theorem grid_one {n p : Nat} (h1 : p * p < n) (hp : 2 ≤ p) : 2 * n + 5 * (p + 1) ≤ 5 * n := by
  obtain ⟨r, rfl⟩ : ∃ r, p = r + 2 := ⟨p - 2, by omega⟩
  nlinarith

/-- What one side of the grid costs. -/
theorem side {rb fuel : Nat} {us : List Var} {s s' : ER} {k a : Nat}
    (ih : rb < us.length → ∀ s', productRec rb fuel us s = some s' → Adds s s' k a)
    (h : (if us.length ≤ rb then some (amoPure us s) else productRec rb fuel us s) = some s') :
    (us.length ≤ rb ∧ Adds s s' (us.length * (us.length - 1) / 2) 0) ∨ (rb < us.length ∧ Adds s s' k a) := by
  by_cases hc : us.length ≤ rb
  · rw [if_pos hc] at h
    injection h with h
    subst h
    refine .inl ⟨hc, (adds_clauses _ s).mono ?_ (Nat.le_refl _)⟩
    have := pairNeg_length (us.map Var.p)
    rw [List.length_map] at this
    omega
  · rw [if_neg hc] at h
    exact .inr ⟨by omega, ih (by omega) s' h⟩

theorem productRec_size {rb : Nat} (hrb : 2 ≤ rb) : ∀ (fuel : Nat) (vars : List Var) (s s' : ER), 1 ≤ vars.length →
    productRec rb fuel vars s = some s' →
    Adds s s' (14 * vars.length) (6 * vars.length) ∧
    Adds s s' (2 * vars.length + (rb + 28) * ceilSqrt vars.length) (14 * ceilSqrt vars.length) := by
  intro fuel
  induction fuel with
  | zero => intro vars s s' _ h; cases h
  | succ fuel ih =>
    intro vars s s' hn h
    obtain ⟨p, q, hp, hq, g1, g2, g3, g4⟩ := grid hn
    simp only [productRec, hp, hq] at h
    generalize e1 : s.newAuxs .cc (p + 1) = r1 at h
    obtain ⟨us, s1⟩ := r1
    generalize e2 : s1.newAuxs .cc (q + 1) = r2 at h
    obtain ⟨vs, s2⟩ := r2
    have hus : us.length = p + 1 := by rw [← auxs_length (p + 1) s, e1]
    have hvs : vs.length = q + 1 := by rw [← auxs_length (q + 1) s1, e2]
    have a1 : Adds s s1 0 (p + 1) := by rw [show s1 = (s.newAuxs .cc (p + 1)).2 from by rw [e1]]; exact adds_aux _ _
    have a2 : Adds s1 s2 0 (q + 1) := by rw [show s2 = (s1.newAuxs .cc (q + 1)).2 from by rw [e2]]; exact adds_aux _ _
    simp only at h
    obtain ⟨s3, h3, h⟩ := Option.bind_eq_some_iff.1 h
    obtain ⟨s4, h4, h⟩ := Option.bind_eq_some_iff.1 h
    injection h with h
    have a5 : Adds s4 s' (2 * vars.length) 0 := by
      rw [← h]
      refine (adds_clauses _ s4).mono ?_ (Nat.le_refl _)
      rw [productClauses_length]; omega
    rw [← hus] at h3
    rw [← hvs] at h4
    have b3 := side (k := 14 * us.length) (a := 6 * us.length) (fun _ s' e => (ih us s2 s' (by omega) e).1) h3
    have b4 := side (k := 14 * vs.length) (a := 6 * vs.length) (fun _ s' e => (ih vs s3 s' (by omega) e).1) h4
    rw [hus] at b3
    rw [hvs] at b4
    simp only [Nat.add_sub_cancel] at b3 b4
    have c1 : (p + 1) * p / 2 ≤ vars.length := by
      have : (p + 1) * p ≤ 2 * vars.length := by nlinarith
      omega
    have c2 : 2 * ((q + 1) * q / 2) ≤ vars.length := by
      have : (q + 1) * q ≤ vars.length := by nlinarith
      omega
    have c3 : p + 1 ≤ rb → (p + 1) * p / 2 * 2 ≤ rb * (p + 1) := by
      intro hc
      have : (p + 1) * p ≤ rb * (p + 1) := by nlinarith
      omega
    have c4 : q + 1 ≤ rb → (q + 1) * q / 2 * 2 ≤ rb * (p + 1) := by
      intro hc
      have : (q + 1) * q ≤ rb * (p + 1) := by nlinarith
      omega
    rw [hp, Nat.add_mul]
    rcases b3 with ⟨x, b3⟩ | ⟨x, b3⟩ <;> rcases b4 with ⟨y, b4⟩ | ⟨y, b4⟩
    · have t := (((a1.trans a2).trans b3).trans b4).trans a5
      have c3 := c3 x
      have c4 := c4 y
      have hpn : p < vars.length := by nlinarith
      exact ⟨t.mono (by omega) (by omega), t.mono (by omega) (by omega)⟩
    · omega
    · have t := (((a1.trans a2).trans b3).trans b4).trans a5
      have c4 := c4 y
      have g := grid_one g1 (by omega)
      exact ⟨t.mono (by omega) (by omega), t.mono (by omega) (by omega)⟩
    · have t := (((a1.trans a2).trans b3).trans b4).trans a5
      have g := grid_two g1 g2 g4 (by omega)
      exact ⟨t.mono (by omega) (by omega), t.mono (by omega) (by omega)⟩

/-! ### Nested -/

theorem nestedRec_size {gs : Nat} (hgs : 4 ≤ gs) : ∀ (fuel : Nat) (ls : List Lit) (s s' : ER), 3 ≤ ls.length →
    nestedRec gs fuel ls s = some s' → Adds s s' ((gs + 2) * (ls.length - 2) / 2) (ls.length - 3) := by
  suffices H : ∀ (fuel : Nat) (ls : List Lit) (s s' : ER), 3 ≤ ls.length →
      nestedRec gs fuel ls s = some s' → ∃ k, 2 * k ≤ (gs + 2) * (ls.length - 2) ∧ Adds s s' k (ls.length - 3) by
    intro fuel ls s s' h3 h
    obtain ⟨k, hk, hA⟩ := H fuel ls s s' h3 h
    exact hA.mono (by omega) (Nat.le_refl _)
  intro fuel
  induction fuel with
  | zero => intro ls s s' _ h; cases h
  | succ fuel ih =>
    intro ls s s' h3 h
    simp only [nestedRec] at h
    by_cases hc : ls.length < gs
    · rw [if_pos hc] at h
      injection h with h
      subst h
      refine ⟨_, ?_, (adds_clauses _ s).mono (Nat.le_refl _) (Nat.zero_le _)⟩
      rw [pairNeg_length]
      obtain ⟨m, hm⟩ : ∃ m, ls.length = m + 3 := ⟨ls.length - 3, by omega⟩
      obtain ⟨d, hd⟩ : ∃ d, gs = m + 4 + d := ⟨gs - (m + 4), by omega⟩
      rw [hm, hd]
      simp only [show m + 3 - 1 = m + 2 from by omega, show m + 3 - 2 = m + 1 from by omega]
      nlinarith [Nat.zero_le (d * (m + 1))]
    · rw [if_neg hc] at h
      generalize e1 : s.newAuxs .cc 1 = r1 at h
      obtain ⟨nv, s1⟩ := r1
      have a1 : Adds s s1 0 1 := by rw [show s1 = (s.newAuxs .cc 1).2 from by rw [e1]]; exact adds_aux _ _
      simp only at h
      obtain ⟨s2, h2, h⟩ := Option.bind_eq_some_iff.1 h
      have l1 : (ls.take (ls.length / 2) ++ [(nv.nth 0).p]).length = ls.length / 2 + 1 := by
        simp; omega
      have l2 : (ls.drop (ls.length / 2) ++ [(nv.nth 0).n]).length = ls.length - ls.length / 2 + 1 := by
        simp
      obtain ⟨k1, hk1, b1⟩ := ih _ _ _ (by rw [l1]; omega) h2
      obtain ⟨k2, hk2, b2⟩ := ih _ _ _ (by rw [l2]; omega) h
      rw [l1] at hk1 b1
      rw [l2] at hk2 b2
      refine ⟨k1 + k2, ?_, ((a1.trans b1).trans b2).mono (by omega) (by omega)⟩
      have : ls.length - 2 = (ls.length / 2 + 1 - 2) + (ls.length - ls.length / 2 + 1 - 2) := by omega
      rw [this, Nat.mul_add, Nat.mul_add]
      exact Nat.add_le_add hk1 hk2

/-! ### Commander -/

theorem commanderGroup_size (eo : Bool) (g : List Lit) (k : Nat) (hg : g.length ≤ k) (s : ER) :
    ∃ c, 2 * c ≤ g.length * (k + 1) + 2 ∧ Adds s (commanderGroup eo g s).2 c 1 := by
  simp only [commanderGroup]
  generalize e1 : (s.addClauses (pairNeg g)).newAuxs .cc 1 = r1
  obtain ⟨nv, s1⟩ := r1
  have a1 : Adds (s.addClauses (pairNeg g)) s1 0 1 := by
    rw [show s1 = ((s.addClauses (pairNeg g)).newAuxs .cc 1).2 from by rw [e1]]; exact adds_aux _ _
  have a0 := (adds_clauses (pairNeg g) s).trans a1
  have a2 : Adds s1 (if eo then s1.addClauses [g ++ [(nv.nth 0).p]] else s1) 1 0 := by
    cases eo with
    | true => exact adds_clauses _ _
    | false => exact Adds.rfl.mono (by omega) (by omega)
  have a3 := adds_clauses (g.map fun l => [(nv.nth 0).n, l.neg]) (if eo then s1.addClauses [g ++ [(nv.nth 0).p]] else s1)
  rw [List.length_map] at a3
  refine ⟨_, ?_, ((a0.trans a2).trans a3).mono (Nat.le_refl _) (by omega)⟩
  have h := pairNeg_length g
  have : g.length * (g.length - 1) + g.length ≤ g.length * k := by
    rcases Nat.eq_zero_or_pos g.length with h0 | h0
    · rw [h0]; omega
    · obtain ⟨m, hm⟩ : ∃ m, g.length = m + 1 := ⟨g.length - 1, by omega⟩
      rw [hm] at hg ⊢
      simp only [Nat.add_sub_cancel]
      nlinarith
  rw [Nat.mul_succ g.length k]
  omega

theorem commanderLevel_size (eo : Bool) (k : Nat) : ∀ (gs : List (List Lit)) (s : ER), (∀ g ∈ gs, g.length ≤ k) →
    ∃ c, 2 * c ≤ gs.flatten.length * (k + 1) + 2 * gs.length ∧ Adds s (commanderLevel eo gs s).2 c gs.length := by
  intro gs
  induction gs with
  | nil => intro s _; exact ⟨0, by omega, Adds.rfl⟩
  | cons g gs ih =>
    intro s h
    simp only [commanderLevel]
    obtain ⟨c, hc, a⟩ := commanderGroup_size eo g k (h g (by simp)) s
    obtain ⟨d, hd, b⟩ := ih (commanderGroup eo g s).2 (fun x hx => h x (by simp [hx]))
    refine ⟨c + d, ?_, (a.trans b).mono (Nat.le_refl _) (by simp; omega)⟩
    simp only [List.flatten_cons, List.length_append, List.length_cons, Nat.add_mul] at hd ⊢
    omega

theorem chunks_size (k : Nat) : ∀ (fuel : Nat) (l : List Lit), ∀ g ∈ chunks k fuel l, g.length ≤ k := by
  intro fuel
  induction fuel with
  | zero => intro l g hg; simp [chunks] at hg
  | succ fuel ih =>
    intro l g hg
    simp only [chunks] at hg
    split at hg
    · simp at hg
    · rcases List.mem_cons.1 hg with rfl | hg
      · simp
      · exact ih _ g hg

theorem commanderLoop_size {k : Nat} (hk : 2 ≤ k) : ∀ (fuel : Nat) (eo : Bool) (cur : List Lit) (s s' : ER), 1 ≤ cur.length →
    commanderLoop k fuel eo cur s = some s' → ∃ c, 2 * c ≤ (3 * k + 7) * cur.length ∧ Adds s s' c (2 * cur.length) := by
  intro fuel
  induction fuel with
  | zero => intro eo cur s s' _ h; cases h
  | succ fuel ih =>
    intro eo cur s s' hl h
    simp only [commanderLoop] at h
    by_cases hc : k < cur.length
    · rw [if_pos hc] at h
      obtain ⟨c, h1, a⟩ := commanderLevel_size eo k (chunks k cur.length cur) s (chunks_size k _ _)
      rw [chunks_flatten (by omega) _ _ (Nat.le_refl _)] at h1
      have hm := chunks_length hk cur.length cur
      have hne := chunks_ne (k := k) (l := cur) (fuel := cur.length) (by omega) (by omega)
      have hlen := commanderLevel_length eo (chunks k cur.length cur) s
      have hpos : 1 ≤ (chunks k cur.length cur).length := List.length_pos_iff.2 hne
      obtain ⟨d, h2, b⟩ := ih _ _ _ _ (by rw [hlen]; exact hpos) h
      rw [hlen] at h2 b
      generalize (chunks k cur.length cur).length = m at *
      have h3m : 3 * m ≤ 2 * cur.length := by omega
      refine ⟨c + d, ?_, (a.trans b).mono (Nat.le_refl _) (by omega)⟩
      nlinarith
    · rw [if_neg hc] at h
      injection h with h
      have a : Adds s (s.addClauses (pairNeg cur)) (pairNeg cur).length 0 := adds_clauses _ _
      have b : Adds (s.addClauses (pairNeg cur)) s' 1 0 := by
        rw [← h]
        split
        · exact adds_clauses _ _
        · exact Adds.rfl.mono (by omega) (by omega)
      refine ⟨_, ?_, (a.trans b).mono (Nat.le_refl _) (by omega)⟩
      have h1 := pairNeg_length cur
      have h2 : cur.length * (cur.length - 1) ≤ cur.length * k := Nat.mul_le_mul_left _ (by omega)
      nlinarith

/-! ### Binary and bimander -/

theorem grayCons_length (nb k i : Nat) : (grayCons nb k i).length ≤ nb := by
  unfold grayCons
  split
  · exact Nat.le_trans (List.length_filterMap_le _ _) (by simp)
  · simp

theorem flatMap_length_le {α β} (l : List α) (f : α → List β) (c : Nat) (h : ∀ a ∈ l, (f a).length ≤ c) :
    (l.flatMap f).length ≤ l.length * c := by
  induction l with
  | nil => simp
  | cons a l ih =>
    have h1 := h a (by simp)
    have h2 := ih (fun b hb => h b (by simp [hb]))
    simp only [List.flatMap_cons, List.length_append, List.length_cons, Nat.add_mul, Nat.one_mul]
    omega

theorem grayClauses_length (nb k : Nat) (bits : List Var) (groups : List (List Lit)) :
    (grayClauses nb k bits groups).length ≤ nb * groups.flatten.length := by
  have H : ∀ m, m ≤ groups.length → ((List.range m).flatMap fun index =>
      (grayCons nb k index).flatMap fun jb =>
        (groups.nth index).map fun p => ([p.neg, ⟨(bits.nth (jb.1)), jb.2⟩] : Clause)).length ≤ nb * (groups.take m).flatten.length := by
    intro m
    induction m with
    | zero => intro _; simp
    | succ m ih =>
      intro hm
      rw [List.range_succ, List.flatMap_append, List.length_append]
      simp only [List.flatMap_cons, List.flatMap_nil, List.append_nil]
      have h1 := ih (by omega)
      have h2 := flatMap_length_le (grayCons nb k m)
        (fun jb => (groups.nth m).map fun p => ([p.neg, ⟨(bits.nth (jb.1)), jb.2⟩] : Clause)) (groups.nth m).length
        (fun a _ => by simp)
      have h3 := Nat.mul_le_mul_right (groups.nth m).length (grayCons_length nb k m)
      rw [List.take_add_one, List.getElem?_eq_getElem (by omega)]
      rw [getBang groups m (by omega)] at *
      simp only [Option.toList_some, List.flatten_append, List.length_append, List.flatten_cons, List.flatten_nil, List.append_nil,
        Nat.mul_add]
      omega
  have := H groups.length (Nat.le_refl _)
  rwa [List.take_length] at this

theorem amoBinary_size (vars : List Var) (s : ER) :
    Adds s (amoBinary vars s) (vars.length * clog2 vars.length) (clog2 vars.length) := by
  simp only [amoBinary]
  generalize e1 : s.newAuxs .cc (clog2 vars.length) = r1
  obtain ⟨bits, s1⟩ := r1
  have a1 : Adds s s1 0 (clog2 vars.length) := by
    rw [show s1 = (s.newAuxs .cc (clog2 vars.length)).2 from by rw [e1]]; exact adds_aux _ _
  refine (a1.trans (adds_clauses _ s1)).mono ?_ (by omega)
  have h := grayClauses_length (clog2 vars.length) ((2 ^ clog2 vars.length - vars.length) * 2) bits (vars.map fun v => [v.p])
  have e : ∀ vs : List Var, (vs.map fun v => [v.p]).flatten.length = vs.length := by
    intro vs
    induction vs with
    | nil => rfl
    | cons a l ih =>
      simp only [List.map_cons, List.flatten_cons, List.length_append, ih, List.length_cons, List.length_nil]
      omega
  rw [e] at h
  simp only
  rw [Nat.mul_comm vars.length]
  omega

/-- All groups have at most `⌈n/m⌉` literals. -/
theorem splitGroups_size (c : Nat) : ∀ (m : Nat) (l : List Lit), l.length ≤ m * c → ∀ g ∈ splitGroups m l, g.length ≤ c := by
  intro m
  induction m with
  | zero => intro l _ g hg; simp [splitGroups] at hg
  | succ m ih =>
    intro l hl g hg
    have h1 : ceilDiv l.length (m + 1) ≤ c := ceilDiv_le (by omega) hl
    have h2 := ceilDiv_spec l.length (m + 1) (by omega)
    simp only [splitGroups] at hg
    rcases List.mem_cons.1 hg with rfl | hg
    · simp; omega
    · refine ih _ ?_ g hg
      rw [List.length_drop]
      rw [Nat.add_mul, Nat.one_mul] at hl h2
      rcases Nat.lt_or_ge (ceilDiv l.length (m + 1)) c with h | h
      · have : m * ceilDiv l.length (m + 1) ≤ m * c := Nat.mul_le_mul_left _ h1
        omega
      · omega

theorem pairs_length (c : Nat) : ∀ gs : List (List Lit), (∀ g ∈ gs, g.length ≤ c) →
    2 * (gs.flatMap pairNeg).length ≤ gs.flatten.length * (c - 1) := by
  intro gs
  induction gs with
  | nil => intro _; simp
  | cons g gs ih =>
    intro h
    have h1 := ih (fun x hx => h x (by simp [hx]))
    have h2 := pairNeg_length g
    have h3 : g.length * (g.length - 1) ≤ g.length * (c - 1) :=
      Nat.mul_le_mul_left _ (by have := h g (by simp); omega)
    simp only [List.flatMap_cons, List.length_append, List.flatten_cons, Nat.add_mul]
    omega

theorem amoBimander_size {m : Nat} (hm : 1 ≤ m) (vars : List Var) (s : ER) :
    Adds s (amoBimander m vars s) (vars.length * (ceilDiv vars.length m - 1) / 2 + vars.length * clog2 m) (clog2 m) := by
  simp only [amoBimander]
  generalize e1 : (s.addClauses ((splitGroups m (vars.map Var.p)).flatMap pairNeg)).newAuxs .cc (clog2 m) = r1
  obtain ⟨bits, s1⟩ := r1
  have a0 := adds_clauses ((splitGroups m (vars.map Var.p)).flatMap pairNeg) s
  have a1 : Adds (s.addClauses ((splitGroups m (vars.map Var.p)).flatMap pairNeg)) s1 0 (clog2 m) := by
    rw [show s1 = ((s.addClauses ((splitGroups m (vars.map Var.p)).flatMap pairNeg)).newAuxs .cc (clog2 m)).2 from by rw [e1]]
    exact adds_aux _ _
  have a2 := adds_clauses (grayClauses (clog2 m) ((2 ^ clog2 m - m) * 2) bits (splitGroups m (vars.map Var.p))) s1
  refine ((a0.trans a1).trans a2).mono ?_ (by omega)
  have h1 := pairs_length (ceilDiv vars.length m) (splitGroups m (vars.map Var.p))
    (splitGroups_size _ m _ (by rw [List.length_map]; exact ceilDiv_spec _ _ hm))
  have h2 := grayClauses_length (clog2 m) ((2 ^ clog2 m - m) * 2) bits (splitGroups m (vars.map Var.p))
  rw [splitGroups_flatten m _ hm, List.length_map] at h1 h2
  rw [Nat.mul_comm vars.length (clog2 m)]
  omega

end Verif
