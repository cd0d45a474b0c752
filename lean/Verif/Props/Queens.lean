import Verif.Util.Queens
/-
Property C64: the formula of the n-queens generator is satisfied exactly by the placements of n queens that do not attack each other.
-/
namespace Verif.Queens
open ER

/-- The squares `(r, c)` and `(r', c')` attack each other: they are different, and in the same row, column or diagonal. -/
def Attack (r c r' c' : Nat) : Prop := (r, c) ≠ (r', c') ∧ (r = r' ∨ c = c' ∨ r + c = r' + c' ∨ (r : Int) - c = r' - c')

/-- A set of squares of the board is a solution: a queen in every row, and none attacks another. -/
def Solution (n : Nat) (q : Nat → Nat → Bool) : Prop :=
  (∀ r < n, ∃ c < n, q r c = true) ∧ ∀ r < n, ∀ c < n, ∀ r' < n, ∀ c' < n, q r c = true → q r' c' = true → ¬ Attack r c r' c'

/-- The squares with a queen: the variable of the square in row `r` and column `c`, numbered from 0, has the name `v{n * r + c + 1}`. -/
def board (n : Nat) (σ : Asg) (r c : Nat) : Bool := σ (.named (n * r + c + 1))

/-! ### Counting -/

theorem le_map {σ : Asg} {m : Nat} {v : Nat → Var} : Cmp.le.test (cntV σ ((List.range m).map v)) 1 = true ↔ ∀ i j, i < j → j < m → σ (v i) = true → σ (v j) = true → False := by
  have : Cmp.le.test (cntV σ ((List.range m).map v)) 1 = true ↔ cntV σ ((List.range m).map v) ≤ 1 := by
    unfold Cmp.test
    simp only [decide_eq_true_eq]
    omega
  rw [this]
  unfold cntV
  rw [countP_le_one_iff, List.pairwise_iff_getElem]
  simp only [List.length_map, List.length_range, List.getElem_map, List.getElem_range]
  constructor
  · intro h i j hij hj h1 h2
    have := h i j (by omega) hj hij
    simp_all
  · intro h i j hi hj hij
    have := h i j hij hj
    simp_all

theorem eq_map {σ : Asg} {m : Nat} {v : Nat → Var} : Cmp.eq.test (cntV σ ((List.range m).map v)) 1 = true ↔
    (∃ i < m, σ (v i) = true) ∧ ∀ i j, i < j → j < m → σ (v i) = true → σ (v j) = true → False := by
  have : Cmp.eq.test (cntV σ ((List.range m).map v)) 1 = true ↔ 1 ≤ cntV σ ((List.range m).map v) ∧ Cmp.le.test (cntV σ ((List.range m).map v)) 1 = true := by
    unfold Cmp.test
    simp only [decide_eq_true_eq]
    omega
  rw [this, le_map]
  refine and_congr_left fun _ => ?_
  unfold cntV
  rw [Nat.succ_le_iff, List.countP_pos_iff]
  simp

/-- The six kinds of constraints, unfolded. -/
structure Cons (n : Nat) (q : Nat → Nat → Bool) : Prop where
  row : ∀ r < n, (∃ c < n, q r c = true) ∧ ∀ i j, i < j → j < n → q r i = true → q r j = true → False
  col : ∀ c < n, (∃ r < n, q r c = true) ∧ ∀ i j, i < j → j < n → q i c = true → q j c = true → False
  d1 : ∀ i < n - 1, ∀ j j', j < j' → j' < n - i → q j (i + j) = true → q j' (i + j') = true → False
  d2 : ∀ i, 1 ≤ i → i < n - 1 → ∀ j j', j < j' → j' < n - i → q (j + i) j = true → q (j' + i) j' = true → False
  d3 : ∀ i < n - 1, ∀ j j', j < j' → j' < n - i → q j (n - 1 - (i + j)) = true → q j' (n - 1 - (i + j')) = true → False
  d4 : ∀ i, 1 ≤ i → i < n - 1 → ∀ j j', j < j' → j' < n - i → q (j + i) (n - 1 - j) = true → q (j' + i) (n - 1 - j') = true → False

theorem lines_cons {n : Nat} {σ : Asg} : (∀ l ∈ lines' n, l.1.test (cntV σ l.2) 1 = true) ↔ Cons n (board n σ) := by
  have hr : ∀ i, i ∈ List.range' 1 (n - 2) ↔ 1 ≤ i ∧ i < n - 1 := fun i => by rw [List.mem_range'_1]; omega
  unfold lines'
  simp only [List.forall_mem_append, List.forall_mem_map, le_map, eq_map, List.mem_range, hr]
  constructor
  · rintro ⟨⟨⟨⟨⟨h1, h2⟩, h3⟩, h4⟩, h5⟩, h6⟩
    exact ⟨h1, h2, h3, fun i a b => h4 i ⟨a, b⟩, h5, fun i a b => h6 i ⟨a, b⟩⟩
  · rintro ⟨h1, h2, h3, h4, h5, h6⟩
    exact ⟨⟨⟨⟨⟨h1, h2⟩, h3⟩, fun i a => h4 i a.1 a.2⟩, h5⟩, fun i a => h6 i a.1 a.2⟩

theorem Cons.diag {n : Nat} {q : Nat → Nat → Bool} (h : Cons n q) {r c r' c' : Nat} (hr : r' < n) (hc : c' < n) (hlt : r < r') (e : r + c' = r' + c)
    (h1 : q r c = true) (h2 : q r' c' = true) : False := by
  by_cases hd : r ≤ c
  · refine h.d1 (c - r) (by omega) r r' hlt (by omega) ?_ ?_
    · rw [show c - r + r = c by omega]; exact h1
    · rw [show c - r + r' = c' by omega]; exact h2
  · refine h.d2 (r - c) (by omega) (by omega) c c' (by omega) (by omega) ?_ ?_
    · rw [show c + (r - c) = r by omega]; exact h1
    · rw [show c' + (r - c) = r' by omega]; exact h2

theorem Cons.anti {n : Nat} {q : Nat → Nat → Bool} (h : Cons n q) {r c r' c' : Nat} (hr : r' < n) (hc : c < n) (hlt : r < r') (e : r + c = r' + c')
    (h1 : q r c = true) (h2 : q r' c' = true) : False := by
  by_cases hd : r + c ≤ n - 1
  · refine h.d3 (n - 1 - (r + c)) (by omega) r r' hlt (by omega) ?_ ?_
    · rw [show n - 1 - (n - 1 - (r + c) + r) = c by omega]; exact h1
    · rw [show n - 1 - (n - 1 - (r + c) + r') = c' by omega]; exact h2
  · refine h.d4 (r + c - (n - 1)) (by omega) (by omega) (n - 1 - c) (n - 1 - c') (by omega) (by omega) ?_ ?_
    · rw [show n - 1 - c + (r + c - (n - 1)) = r by omega, show n - 1 - (n - 1 - c) = c by omega]; exact h1
    · rw [show n - 1 - c' + (r + c - (n - 1)) = r' by omega, show n - 1 - (n - 1 - c') = c' by omega]; exact h2

/-- The constraints describe the solutions. -/
theorem cons_solution {n : Nat} {q : Nat → Nat → Bool} : Cons n q ↔ Solution n q := by
  constructor
  · intro h
    refine ⟨fun r hr => (h.row r hr).1, fun r hr c hc r' hr' c' hc' h1 h2 ha => ?_⟩
    obtain ⟨hne, ha⟩ := ha
    have hne' : ¬ (r = r' ∧ c = c') := fun hh => hne (by rw [hh.1, hh.2])
    by_cases e : r = r'
    · subst e
      rcases Nat.lt_trichotomy c c' with hlt | rfl | hlt
      · exact (h.row r hr).2 c c' hlt hc' h1 h2
      · exact hne rfl
      · exact (h.row r hr).2 c' c hlt hc h2 h1
    · by_cases e' : c = c'
      · subst e'
        rcases Nat.lt_trichotomy r r' with hlt | rfl | hlt
        · exact (h.col c hc).2 r r' hlt hr' h1 h2
        · exact hne rfl
        · exact (h.col c hc).2 r' r hlt hr h2 h1
      · have hd : r + c = r' + c' ∨ r + c' = r' + c := by omega
        rcases Nat.lt_or_ge r r' with hlt | hlt
        · rcases hd with hd | hd
          · exact h.anti hr' hc hlt hd h1 h2
          · exact h.diag hr' hc' hlt hd h1 h2
        · rcases hd with hd | hd
          · exact h.anti hr hc' (by omega) hd.symm h2 h1
          · exact h.diag hr hc (by omega) hd.symm h2 h1
  · rintro ⟨hrow, hfree⟩
    have key : ∀ {r c r' c'}, r < n → c < n → r' < n → c' < n → q r c = true → q r' c' = true → r ≠ r' ∨ c ≠ c' → r = r' ∨ c = c' ∨ r + c = r' + c' ∨ r + c' = r' + c → False := by
      intro r c r' c' hr hc hr' hc' h1 h2 hne ha
      refine hfree r hr c hc r' hr' c' hc' h1 h2 ⟨fun e => ?_, by omega⟩
      injection e with e1 e2
      omega
    have hcol : ∀ c < n, ∃ r < n, q r c = true := by
      intro c hc
      choose! f hf1 hf2 using hrow
      let F : Fin n → Fin n := fun r => ⟨f r.1, hf1 r.1 r.2⟩
      have hinj : Function.Injective F := by
        intro a b hab
        have hab : f a.1 = f b.1 := congrArg Fin.val hab
        by_contra hne
        refine key a.2 (hf1 a.1 a.2) b.2 (hf1 b.1 b.2) (hf2 a.1 a.2) (hf2 b.1 b.2) (.inl fun e => hne (Fin.ext e)) (.inr (.inl hab))
      obtain ⟨r, hr⟩ := (Finite.injective_iff_surjective.1 hinj) ⟨c, hc⟩
      refine ⟨r.1, r.2, ?_⟩
      have : f r.1 = c := congrArg Fin.val hr
      rw [← this]
      exact hf2 r.1 r.2
    refine ⟨fun r hr => ⟨hrow r hr, fun i j hij hj h1 h2 => ?_⟩, fun c hc => ⟨hcol c hc, fun i j hij hj h1 h2 => ?_⟩, fun i hi j j' hj hj' h1 h2 => ?_,
      fun i hi hi' j j' hj hj' h1 h2 => ?_, fun i hi j j' hj hj' h1 h2 => ?_, fun i hi hi' j j' hj hj' h1 h2 => ?_⟩
    · exact key hr (by omega) hr hj h1 h2 (by omega) (by omega)
    · exact key (by omega) hc hj hc h1 h2 (by omega) (by omega)
    all_goals exact key (by omega) (by omega) (by omega) (by omega) h1 h2 (by omega) (by omega)

/-! ### C64 -/

variable {C : Canon} {cfg cfg' : FCfg} {c : AuxTy → Nat}

/-- C64: in every state of the factory the generator, for a board with at least one row (and fewer than `2^30 - 1`), does not panic.  The result is in negation normal form; every
assignment that satisfies it places the queens rightly; and every right placement satisfies it once the auxiliary variables, if earlier encodings are in the caches, are chosen. -/
theorem C64_n_queens (hcfg : cfg.cc.Good) {w es rs} (h : TReach C cfg c w es rs) {n : Nat} (h0 : 0 < n) (hn : n + 1 < 2 ^ 30) :
    ∃ g w', generate C cfg' n w = some (g, w') ∧ IsNnf g ∧ g.Norm ∧ (∀ σ, g.eval σ = true → Solution n (board n σ)) ∧
      ∀ σ, Solution n (board n σ) → ∃ σ' : Asg, (∀ v, Known c v → σ' v = σ v) ∧ g.eval σ' = true := by
  obtain ⟨E, i⟩ := h.inv hcfg
  have h2 : ∀ l ∈ lines' n, l.1 = .eq ∨ l.1 = .le := by
    intro l hl
    unfold lines' at hl
    simp only [List.mem_append, List.mem_map] at hl
    rcases hl with ((((⟨i, _, rfl⟩ | ⟨i, _, rfl⟩) | ⟨i, _, rfl⟩) | ⟨i, _, rfl⟩) | ⟨i, _, rfl⟩) | ⟨i, _, rfl⟩ <;> simp
  have hq : (qCfg cfg').cc.Good := trivial
  obtain ⟨gs, w', E', e, k1, k2, k3, k4, k5⟩ := nnfs_ok (C := C) (cfg := qCfg cfg') hq hn lines_ok h2 i.w
  refine ⟨Formula.mkAnd C gs, w', ?_, IsNnf.mkNary C _ gs fun g hg => (k3 g hg).1, Formula.norm_mkNary C _ fun g hg => (k3 g hg).2, fun σ hσ => ?_, fun σ hσ => ?_⟩
  · unfold generate
    rw [lines_eq h0]
    simp only [e]
  · rw [Formula.eval_mkAnd, List.all_eq_true] at hσ
    exact cons_solution.1 (lines_cons.1 (k4 σ hσ))
  · obtain ⟨σ', ag, ok⟩ := k1.base.ext σ
    have ag : ∀ v, Known c v → σ' v = σ v := fun v hv => (ag v (known_iff.1 hv)).symm
    refine ⟨σ', ag, ?_⟩
    rw [Formula.eval_mkAnd, List.all_eq_true]
    refine k5 σ' ok (lines_cons.2 (cons_solution.2 ?_))
    have : board n σ' = board n σ := by
      funext r c
      exact ag _ trivial
    rw [this]
    exact hσ

/-- C64: without a row the generator panics. -/
theorem C64_none_panics (w : World) : generate C cfg' 0 w = none := rfl

/-- C64, as a statement about satisfiability. -/
theorem C64_satisfiable (hcfg : cfg.cc.Good) {w es rs} (h : TReach C cfg c w es rs) {n : Nat} (h0 : 0 < n) (hn : n + 1 < 2 ^ 30) :
    ∃ g w', generate C cfg' n w = some (g, w') ∧ ((∃ σ, g.eval σ = true) ↔ ∃ q, Solution n q) := by
  obtain ⟨g, w', e, _, _, h1, h2⟩ := C64_n_queens (cfg' := cfg') hcfg h h0 hn
  refine ⟨g, w', e, fun ⟨σ, hσ⟩ => ⟨_, h1 σ hσ⟩, fun ⟨q, hq⟩ => ?_⟩
  let σ : Asg := fun v => match v with
    | .named k => q ((k - 1) / n) ((k - 1) % n)
    | .aux _ _ => false
  have hb : ∀ r c, c < n → board n σ r c = q r c := by
    intro r c hc
    have e1 : (n * r + c + 1 - 1) / n = r := by rw [Nat.add_sub_cancel, Nat.mul_add_div h0, Nat.div_eq_of_lt hc]; rfl
    have e2 : (n * r + c + 1 - 1) % n = c := by rw [Nat.add_sub_cancel, Nat.mul_add_mod, Nat.mod_eq_of_lt hc]
    show q _ _ = _
    rw [e1, e2]
  have hs : Solution n (board n σ) := by
    refine ⟨fun r hr => ?_, fun r hr c hc r' hr' c' hc' k1 k2 => ?_⟩
    · obtain ⟨c, hc, h⟩ := hq.1 r hr
      exact ⟨c, hc, by rw [hb r c hc]; exact h⟩
    · rw [hb r c hc] at k1
      rw [hb r' c' hc'] at k2
      exact hq.2 r hr c hc r' hr' c' hc' k1 k2
  obtain ⟨σ', _, h3⟩ := h2 σ hs
  exact ⟨σ', h3⟩

/-! ### Examples -/

/-- Four queens. -/
def exQ (r c : Nat) : Bool := c == [1, 3, 0, 2].getD r 4

theorem exQ_solution : Solution 4 exQ := by
  have h : ∀ r < 4, [1, 3, 0, 2].getD r 4 < 4 ∧ exQ r ([1, 3, 0, 2].getD r 4) = true := by decide
  have k : ∀ r < 4, ∀ r' < 4, r = r' ∨ ([1, 3, 0, 2].getD r 4 ≠ [1, 3, 0, 2].getD r' 4 ∧ r + [1, 3, 0, 2].getD r 4 ≠ r' + [1, 3, 0, 2].getD r' 4 ∧
      r + [1, 3, 0, 2].getD r' 4 ≠ r' + [1, 3, 0, 2].getD r 4) := by decide
  refine ⟨fun r hr => ⟨_, h r hr⟩, fun r hr c hc r' hr' c' hc' h1 h2 ⟨h3, h4⟩ => ?_⟩
  have e1 : c = [1, 3, 0, 2].getD r 4 := eq_of_beq h1
  have e2 : c' = [1, 3, 0, 2].getD r' 4 := eq_of_beq h2
  have := k r hr r' hr'
  rw [← e1, ← e2] at this
  by_cases e : r = r'
  · subst e
    exact h3 (by rw [e1, e2])
  · omega

/-- The hypotheses hold, and there is a solution with four queens. -/
example : TReach canon0 (exFCfg .swc true) (fun _ => 7) (World.fresh fun _ => 7) [] [] ∧ (exFCfg .swc true).cc.Good ∧ Solution 4 exQ := ⟨.fresh, trivial, exQ_solution⟩

/-- On a fresh factory the formula for four queens holds of the solution, and of no board with a queen in the corner. -/
example : ((generate canon0 (exFCfg .swc true) 4 (World.fresh fun _ => 7)).any fun r =>
    r.1.eval (fun v => decide (v ∈ [Var.named 2, .named 8, .named 9, .named 15])) && !r.1.eval (fun v => decide (v ∈ [Var.named 1, .named 8, .named 9, .named 15]))) = true := by
  decide +kernel

end Verif.Queens
