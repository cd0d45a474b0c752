import Verif.Props.FactoryLarge

/-
C16 beyond 2^26 entries: `is_cnf` is wrong, because the flag is computed from operands that are dropped afterwards.
-/
namespace Verif
namespace LgCnf

def v (i : Nat) : H := H.ofLit (Var.p (.aux .cnf i))

/-- The `i`-th disjunction. -/
def e (i : Nat) : List H := [v (i % 2), v (i / 2 + 2)]

/-- The factory with `n` disjunctions. -/
def sN (m n : Nat) : FF :=
  { auxS m with ors := ⟨⟨(List.range n).map e, (List.range n).map fun i => (e i, hc .or i)⟩, ⟨[], []⟩⟩, isCnf := (List.range n).reverse.map (hc .or) }

theorem v_inj {i j} (h : v i = v j) : i = j := by
  simp only [v, H.ofLit, Var.p, H.mk.injEq] at h; exact h.2.1

theorem compl (s : FF) {a : FF.Acc} {i : Nat} (h : ∀ x ∈ a.r32, ∃ j, x = v j) (h64 : a.r64 = []) : s.containsComplement a (v i) = some false := by
  have hu : s.unpack (v i) = some (.lit ⟨.aux .cnf i, true⟩) := rfl
  simp only [FF.containsComplement, hu, FF.inAcc, h64]
  simp only [Lit.neg, H.ofLit, H.as32, List.not_mem_nil, decide_false, Bool.or_false, Option.some.injEq]
  refine decide_eq_false fun hx => ?_
  obtain ⟨j, hj⟩ := h _ hx
  simp [v, H.ofLit, Var.p] at hj

theorem flat2 (s : FF) (o : Op) {i j : Nat} (hi : i < 2 ^ 26) (hj : j < 2 ^ 26) (hne : i ≠ j) :
    s.filterFlatten o 2 [v i, v j] ⟨[], [], true⟩ = some (some ⟨[v i, v j], [], true⟩) := by
  have hty : ∀ i, (v i).ty ≠ o.fty := fun i => by cases o <;> simp [v, H.ofLit, Var.p, Op.fty]
  have hfl : ∀ i, s.cnfFlag o (v i) true = true := fun i => by cases o <;> rfl
  have ht : ∀ i, (v i).ty ≠ .tru ∧ (v i).ty ≠ .fls := fun i => by simp [v, H.ofLit, Var.p]
  have hl : ∀ i, i < 2 ^ 26 → (v i).isLarge = false := fun i hi => by
    simp only [v, H.ofLit, Var.p, H.isLarge]; exact decide_eq_false (by omega)
  have ha : ∀ i, i < 2 ^ 26 → (v i).as32 = v i := fun i hi => by
    simp only [v, H.ofLit, Var.p, H.as32, H.mk.injEq, true_and, and_true]; omega
  have hij : v j ≠ v i := fun h => hne (v_inj h).symm
  rw [FF.filterFlatten, FF.flattenLoop, if_neg (hty i)]
  simp only [hfl]
  rw [if_neg (ht i).1, if_neg (ht i).2, compl s (by simp) rfl]
  simp only [hl i hi, Bool.or_false, Bool.false_eq_true, if_false]
  rw [if_pos (by simp), FF.flattenLoop, if_neg (hty j)]
  simp only [hfl]
  rw [if_neg (ht j).1, if_neg (ht j).2, compl s (by simp [ha i hi]) rfl]
  simp only [hl j hj, Bool.or_false, Bool.false_eq_true, if_false]
  rw [if_pos (by simp [ha i hi, ha j hj, hij])]
  simp [FF.flattenLoop, ha i hi, ha j hj]

theorem find_none {n : Nat} {l : List H} (h : ∀ i < n, setEq (e i) l = false) :
    Cache.find setEq l ⟨(List.range n).map e, (List.range n).map fun i => (e i, hc .or i)⟩ = none := by
  unfold Cache.find
  rw [Option.map_eq_none_iff, List.find?_eq_none]
  intro q hq
  simp only [List.mem_map, List.mem_range] at hq
  obtain ⟨i, hi, rfl⟩ := hq
  simp [h i hi]

theorem sN_run (m n : Nat) (hm : 2 ^ 26 ≤ m) (hn : n ≤ 2 ^ 26) : ∃ pool, Run (sN m n) pool ∧ (∀ i < m, v i ∈ pool) ∧ (0 < n → hc .or 0 ∈ pool) := by
  induction n with
  | zero =>
    obtain ⟨pool, hr, hp⟩ := auxS_run m
    exact ⟨pool, hr, hp, by omega⟩
  | succ n ih =>
    obtain ⟨pool, hr, hp, h0⟩ := ih (by omega)
    refine ⟨hc .or n :: pool, .step hr (c := .nary .disj (e n)) ?_ trivial ?_, fun i hi => List.mem_cons_of_mem _ (hp i hi), fun _ => ?_⟩
    · intro h hh
      simp only [Cmd.args, e, List.mem_cons, List.not_mem_nil, or_false] at hh
      rcases hh with rfl | rfl
      · exact hp _ (by omega)
      · exact hp _ (by omega)
    · have hf := flat2 (sN m n) .disj (i := n % 2) (j := n / 2 + 2) (by omega) (by omega) (by omega)
      have hfind := find_none (n := n) (l := e n) (fun i hi => by
        have : ¬ (i % 2 = n % 2 ∧ i / 2 + 2 = n / 2 + 2) := by omega
        simp only [setEq, Bool.and_eq_false_iff, List.all_eq_false, decide_eq_true_eq]
        by_cases h1 : i % 2 = n % 2
        · refine .inl ⟨v (i / 2 + 2), by simp [e], ?_⟩
          simp only [e, List.mem_cons, List.not_mem_nil, or_false]
          rintro (h | h)
          · have := v_inj h; omega
          · have := v_inj h; omega
        · refine .inl ⟨v (i % 2), by simp [e], ?_⟩
          simp only [e, List.mem_cons, List.not_mem_nil, or_false]
          rintro (h | h)
          · exact h1 (v_inj h)
          · have := v_inj h; omega)
      simp only [FF.call, FF.nary]
      rw [show e n = [v (n % 2), v (n / 2 + 2)] from rfl, hf]
      simp only [FF.pick, FF.naryInsert, if_true, FF.naryC, Cache.getOrInsert]
      rw [show (sN m n).ors.small = ⟨(List.range n).map e, (List.range n).map fun i => (e i, hc .or i)⟩ from rfl]
      rw [show ([v (n % 2), v (n / 2 + 2)] : List H) = e n from rfl, hfind]
      simp [sN, FF.setNary, FF.isNaryTy, Op.fty, hc, List.range_succ]
    · cases n with
      | zero => simp
      | succ n => exact List.mem_cons_of_mem _ (h0 (by omega))

end LgCnf

open LgCnf in
/-- Beyond 2^26 disjunctions `is_cnf` is wrong: `(v0 | v2) & (v0 | (v1 & v2)) & v3`, where the second operand has the handle with
index 2^26, loses this operand, whose handle cut to 32 bits is that of the first; what is left is a CNF, but the flag was computed
from all operands (formula_factory.rs:1359-1393). -/
theorem C16_large_counterexample : ∃ s pool x f, Run s pool ∧ x ∈ pool ∧ Den s x f ∧ IsCnf f ∧ s.isCnfH x = false := by
  obtain ⟨n, hn⟩ : ∃ n, n = 2 ^ 26 := ⟨_, rfl⟩
  obtain ⟨pool, hr, hp, h0⟩ := sN_run n n (by omega) (by omega)
  have h0 := h0 (by omega)
  -- `v1 & v2`
  let s1 : FF := { sN n n with ands := ⟨⟨[[v 1, v 2]], [([v 1, v 2], hc .and 0)]⟩, ⟨[], []⟩⟩, isCnf := hc .and 0 :: (sN n n).isCnf }
  have r1 : Run s1 (hc .and 0 :: pool) := .step hr (c := .nary .conj [v 1, v 2]) (by
    intro h hh
    simp only [Cmd.args, List.mem_cons, List.not_mem_nil, or_false] at hh
    rcases hh with rfl | rfl
    · exact hp _ (by omega)
    · exact hp _ (by omega)) trivial (by
      simp only [FF.call, FF.nary]
      rw [flat2 _ _ (by decide) (by decide) (by decide)]
      rfl)
  -- `v0 | (v1 & v2)`
  let s2 : FF := { s1 with ors := ⟨⟨(List.range n).map e ++ [[v 0, hc .and 0]], ((List.range n).map fun i => (e i, hc .or i)) ++ [([v 0, hc .and 0], hc .or n)]⟩, ⟨[], []⟩⟩ }
  have r2 : Run s2 (hc .or n :: hc .and 0 :: pool) := .step r1 (c := .nary .disj [v 0, hc .and 0]) (by
    intro h hh
    simp only [Cmd.args, List.mem_cons, List.not_mem_nil, or_false] at hh
    rcases hh with rfl | rfl
    · exact List.mem_cons_of_mem _ (hp _ (by omega))
    · exact List.mem_cons_self) trivial (by
      have hf : s1.filterFlatten .disj 2 [v 0, hc .and 0] ⟨[], [], true⟩ = some (some ⟨[v 0, hc .and 0], [], false⟩) := by rfl
      have hfind := find_none (n := n) (l := [v 0, hc .and 0]) (fun i hi => by
        simp only [setEq, Bool.and_eq_false_iff, List.all_eq_false, decide_eq_true_eq]
        refine .inr ⟨hc .and 0, by simp, ?_⟩
        simp [e, v, hc, H.ofLit, Var.p])
      simp only [FF.call, FF.nary, hf]
      simp only [FF.pick, FF.naryInsert, if_true, FF.naryC, Cache.getOrInsert]
      rw [show s1.ors.small = ⟨(List.range n).map e, (List.range n).map fun i => (e i, hc .or i)⟩ from rfl, hfind]
      simp [s2, FF.setNary, Op.fty, hc, s1, sN])
  -- the conjunction
  let s3 : FF := { s2 with ands := ⟨⟨[[v 1, v 2]], [([v 1, v 2], hc .and 0)]⟩, ⟨[[hc .or 0, v 3]], [([hc .or 0, v 3], hk .and 0)]⟩⟩ }
  have u0 : s2.unpack (hc .or 0) = some (.nary .disj [v 0, v 2]) := by
    simp only [FF.unpack, hc, FF.sel, Bool.false_eq_true, if_false, s2]
    rw [List.getElem?_append_left (by simp; omega), List.getElem?_map, List.getElem?_range (by omega)]
    rfl
  have un : s2.unpack (hc .or n) = some (.nary .disj [v 0, hc .and 0]) := by
    simp only [FF.unpack, hc, FF.sel, Bool.false_eq_true, if_false, s2]
    rw [List.getElem?_append_right (by simp)]
    simp
  have hcall : s2.call (.nary .conj [hc .or 0, hc .or n, v 3]) = some (s3, hk .and 0) := by
    have hlk : ∀ h, s2.lookupNot h = none := fun h => by simp [FF.lookupNot, s2, s1, sN, auxS, FF.empty, Cache.find]
    have c0 : s2.isCnfH (hc .or 0) = true := by
      simp only [FF.isCnfH, hc, s2, s1]
      refine decide_eq_true (List.mem_cons_of_mem _ ?_)
      simp only [sN, List.mem_map, List.mem_reverse, List.mem_range]
      exact ⟨0, by omega, rfl⟩
    have cn : s2.isCnfH (hc .or n) = false := by
      simp only [FF.isCnfH, hc, decide_eq_false_iff_not, s2, s1]
      simp [sN, hc]
    have e32 : (hc .or n).as32 = hc .or 0 := by
      simp only [H.as32, hc, H.mk.injEq, true_and, and_true]; omega
    have hlarge : (hc .or n).isLarge = true := by simp only [H.isLarge, hc]; exact decide_eq_true (by omega)
    have f1 : FF.flattenLoop s2 .conj (s2.filterFlatten .conj 1) [hc .or 0, hc .or n, v 3] false ⟨[], [], true⟩ =
        FF.flattenLoop s2 .conj (s2.filterFlatten .conj 1) [hc .or n, v 3] false ⟨[hc .or 0], [], true⟩ := by
      rw [FF.flattenLoop, if_neg (by decide)]
      simp only [FF.cnfFlag, if_true, c0]
      rw [if_neg (by decide), if_neg (by decide)]
      simp only [FF.containsComplement, u0, hlk]
      rw [if_neg (by decide), if_pos (by simp)]
      rfl
    have f2 : FF.flattenLoop s2 .conj (s2.filterFlatten .conj 1) [hc .or n, v 3] false ⟨[hc .or 0], [], true⟩ =
        FF.flattenLoop s2 .conj (s2.filterFlatten .conj 1) [v 3] true ⟨[hc .or 0], [], false⟩ := by
      rw [FF.flattenLoop, if_neg (by simp [hc, Op.fty])]
      simp only [FF.cnfFlag, if_true, cn]
      rw [if_neg (by simp [hc]), if_neg (by simp [hc])]
      simp only [FF.containsComplement, un, hlk, hlarge, Bool.or_true, if_true]
      rw [if_neg (by rw [e32]; simp)]
    have f3 : FF.flattenLoop s2 .conj (s2.filterFlatten .conj 1) [v 3] true ⟨[hc .or 0], [], false⟩ = some (some ⟨[hc .or 0], [v 3], false⟩) := by rfl
    simp only [FF.call, FF.nary]
    rw [FF.filterFlatten, f1, f2, f3]
    rfl
  have r3 : Run s3 (hk .and 0 :: hc .or n :: hc .and 0 :: pool) := .step r2 (c := .nary .conj [hc .or 0, hc .or n, v 3]) (by
    intro h hh
    simp only [Cmd.args, List.mem_cons, List.not_mem_nil, or_false] at hh
    rcases hh with rfl | rfl | rfl
    · exact List.mem_cons_of_mem _ (List.mem_cons_of_mem _ h0)
    · exact List.mem_cons_self
    · exact List.mem_cons_of_mem _ (List.mem_cons_of_mem _ (hp _ (by omega)))) trivial hcall
  have u0' : s3.unpack (hc .or 0) = some (.nary .disj [v 0, v 2]) := u0
  refine ⟨s3, _, hk .and 0, .nary .conj [.nary .disj [.lit (Var.p (.aux .cnf 0)), .lit (Var.p (.aux .cnf 2))], .lit (Var.p (.aux .cnf 3))], r3, List.mem_cons_self, ?_, ?_, ?_⟩
  · simp only [Den]
    refine ⟨[hc .or 0, v 3], rfl, ?_⟩
    simp only [Dens, Den]
    exact ⟨⟨[v 0, v 2], u0', by simp only [Dens, Den]; exact ⟨rfl, rfl, trivial⟩⟩, rfl, trivial⟩
  · refine .and fun f hf => ?_
    simp only [List.mem_cons, List.not_mem_nil, or_false] at hf
    rcases hf with rfl | rfl
    · refine .or fun f hf => ?_
      simp only [List.mem_cons, List.not_mem_nil, or_false] at hf
      rcases hf with rfl | rfl <;> exact ⟨_, rfl⟩
    · exact .lit _
  · simp only [FF.isCnfH, hk, decide_eq_false_iff_not, s3, s2, s1, sN]
    simp [hc]

end Verif
