import Verif.Props.Factory

/-
C03, C06, C18 beyond 2^26 entries: what the theorems of Verif/Props/Factory.lean leave out is false of the code.
-/
namespace Verif

/-- Beyond 2^26 entries two handles can denote the same formula: `and` of the auxiliary variables 0, 2^26 and 1 drops the second
operand (its handle cut to 32 bits is that of the first), but the flag `is_large` stays set, so the rest goes to the table for
large operands, while `and` of variables 0 and 1 goes to the other one (formula_factory.rs:1383-1393, nary_formula_cache.rs:56-79). -/
theorem C03_large_counterexample : ∃ s pool x y f, Run s pool ∧ x ∈ pool ∧ y ∈ pool ∧ x ≠ y ∧ Den s x f ∧ Den s y f := by
  obtain ⟨pool, hr, hp⟩ := auxS_run (2 ^ 26 + 1)
  let v (i : Nat) : H := H.ofLit (Var.p (.aux .cnf i))
  let s1 : FF := { auxS (2 ^ 26 + 1) with ands := ⟨⟨[[v 0, v 1]], [([v 0, v 1], hc .and 0)]⟩, ⟨[], []⟩⟩, isCnf := [hc .and 0] }
  let s2 : FF := { s1 with ands := ⟨⟨[[v 0, v 1]], [([v 0, v 1], hc .and 0)]⟩, ⟨[[v 0, v 1]], [([v 0, v 1], hk .and 0)]⟩⟩, isCnf := [hk .and 0, hc .and 0] }
  have h1 : Run s1 (hc .and 0 :: pool) := Run.step hr (c := .nary .conj [v 0, v 1]) (by
    intro h hh
    simp only [Cmd.args, List.mem_cons, List.not_mem_nil, or_false] at hh
    rcases hh with rfl | rfl
    · exact hp _ (by omega)
    · exact hp _ (by omega)) trivial (by rfl)
  have hcall : s1.call (.nary .conj [v 0, v (2 ^ 26), v 1]) = some (s2, hk .and 0) := by
    have e : (v (2 ^ 26)).as32 = v 0 := by decide
    have hff : s1.filterFlatten .conj 2 [v 0, v (2 ^ 26), v 1] ⟨[], [], true⟩ = some (some ⟨[v 0], [v 1], true⟩) := by
      have u : ∀ i, s1.containsComplement ⟨[v 0], [], true⟩ (v i) = some false := fun i => rfl
      have a1 : s1.filterFlatten .conj 2 [v 0, v (2 ^ 26), v 1] ⟨[], [], true⟩ =
          FF.flattenLoop s1 .conj (s1.filterFlatten .conj 1) [v (2 ^ 26), v 1] false ⟨[v 0], [], true⟩ := by rfl
      rw [a1]
      have a2 : FF.flattenLoop s1 .conj (s1.filterFlatten .conj 1) [v (2 ^ 26), v 1] false ⟨[v 0], [], true⟩ =
          FF.flattenLoop s1 .conj (s1.filterFlatten .conj 1) [v 1] true ⟨[v 0], [], true⟩ := by
        rw [FF.flattenLoop, if_neg (by decide)]
        simp only [show s1.cnfFlag .conj (v (2 ^ 26)) true = true from rfl]
        rw [if_neg (by decide), if_neg (by decide), u]
        simp only [show (v (2 ^ 26)).isLarge = true from rfl, Bool.or_true, if_true]
        rw [if_neg (by rw [e]; simp)]
      rw [a2]
      rfl
    simp only [FF.call, FF.nary]
    rw [hff]
    rfl
  have h2 : Run s2 (hk .and 0 :: hc .and 0 :: pool) := Run.step h1 (c := .nary .conj [v 0, v (2 ^ 26), v 1]) (by
    intro h hh
    simp only [Cmd.args, List.mem_cons, List.not_mem_nil, or_false] at hh
    rcases hh with rfl | rfl | rfl
    · exact List.mem_cons_of_mem _ (hp _ (by omega))
    · exact List.mem_cons_of_mem _ (hp _ (by omega))
    · exact List.mem_cons_of_mem _ (hp _ (by omega))) trivial hcall
  refine ⟨_, _, hc .and 0, hk .and 0, .nary .conj [.lit (Var.p (.aux .cnf 0)), .lit (Var.p (.aux .cnf 1))], h2, ?_, ?_, by decide, ?_, ?_⟩
  · exact List.mem_cons_of_mem _ List.mem_cons_self
  · exact List.mem_cons_self
  · simp only [Den]; exact ⟨_, rfl, rfl, rfl, trivial⟩
  · simp only [Den]; exact ⟨_, rfl, rfl, rfl, trivial⟩

/-- `2a + 3b`. -/
def lgT : List (Lit × Int) := [(⟨.named 0, true⟩, 2), (⟨.named 1, true⟩, 3)]

/-- `2a + 3b < 4`, `2a + 3b = 4`, then `2a + 3b <= 0`, `2a + 3b <= 1`, ... -/
def lgVec (n : Nat) : List PBC := ⟨lgT, .lt, 4⟩ :: ⟨lgT, .eq, 4⟩ :: (List.range n).map fun k : Nat => ⟨lgT, .le, (k : Int)⟩

/-- The factory with these constraints. -/
def lgS (n : Nat) : FF := { FF.empty with pbcs := ⟨lgVec n, (lgVec n).zipIdx.map fun p => (p.1, ⟨.pbc, p.2, true⟩)⟩ }

theorem lgVec_length (n : Nat) : (lgVec n).length = n + 2 := by simp [lgVec]

theorem lg_insert {s : FF} {n : Nat} (hs : s = lgS n) {p : PBC} (hp : p ∉ lgVec n) :
    s.leaf (.pbc p) = ({ s with pbcs := ⟨lgVec n ++ [p], s.pbcs.map ++ [(p, ⟨.pbc, n + 2, true⟩)]⟩ }, ⟨.pbc, n + 2, true⟩) := by
  have hf : s.pbcs.find (· == ·) p = none := by
    subst hs
    unfold Cache.find
    rw [Option.map_eq_none_iff, List.find?_eq_none]
    intro q hq
    simp only [lgS, List.mem_map] at hq
    obtain ⟨⟨a, i⟩, h1, rfl⟩ := hq
    intro e
    have : a ∈ lgVec n := by
      have := List.mk_mem_zipIdx_iff_getElem?.1 h1
      exact List.mem_of_getElem? this
    rw [beq_iff_eq] at e
    exact hp (e ▸ this)
  simp only [FF.leaf, Cache.getOrInsert, hf]
  subst hs
  simp only [lgS, lgVec_length]

theorem lg_find {s : FF} {n : Nat} (hs : s = lgS n) : s.leaf (.pbc ⟨lgT, .lt, 4⟩) = (s, ⟨.pbc, 0, true⟩) := by
  subst hs
  rfl

theorem lgS_run (n : Nat) (hn : n < 2 ^ 26) : ∃ pool, Run (lgS n) pool ∧ (⟨.pbc, 1, true⟩ : H) ∈ pool ∧ (⟨.pbc, 0, true⟩ : H) ∈ pool := by
  induction n with
  | zero =>
    refine ⟨_, .step (c := .pbc .eq 4 lgT) (.step (c := .pbc .lt 4 lgT) .start (by simp [Cmd.args]) (by decide) rfl) (by simp [Cmd.args]) (by decide) rfl, List.mem_cons_self, List.mem_cons_of_mem _ List.mem_cons_self⟩
  | succ n ih =>
    obtain ⟨pool, hr, hp, hp0⟩ := ih (by omega)
    refine ⟨⟨.pbc, n + 2, true⟩ :: pool, .step hr (c := .pbc .le n lgT) (by simp [Cmd.args]) ?_ ?_, List.mem_cons_of_mem _ hp, List.mem_cons_of_mem _ hp0⟩
    · refine ⟨by simp only [I64]; omega, by simp only [I64]; decide, ?_⟩
      simp [Formula.RhsFits, lgT]
    · have hm : Formula.mkPbc .le n lgT = .pbc ⟨lgT, .le, n⟩ := rfl
      simp only [FF.call, FF.pbc]
      rw [hm, lg_insert rfl (by simp [lgVec]; omega)]
      simp only [lgS, lgVec, List.range_succ, List.map_append]
      simp [List.zipIdx_append]
      omega

theorem lg_negate {n : Nat} (hn : n + 2 = 2 ^ 26) : ∃ s', (lgS n).call (.negate ⟨.pbc, 1, true⟩) = some (s', ⟨.pbc, 0, true⟩) ∧
    s'.unpack ⟨.pbc, 0, true⟩ = some (.pbc ⟨lgT, .lt, 4⟩) ∧ s'.unpack ⟨.pbc, 1, true⟩ = some (.pbc ⟨lgT, .eq, 4⟩) := by
  have hg := lg_insert (s := lgS n) rfl (p := ⟨lgT, .gt, 4⟩) (by simp [lgVec])
  generalize hs' : ({ lgS n with pbcs := ⟨lgVec n ++ [⟨lgT, .gt, 4⟩], (lgS n).pbcs.map ++ [(⟨lgT, .gt, 4⟩, ⟨.pbc, n + 2, true⟩)]⟩ } : FF) = s' at hg
  have u0 : s'.unpack ⟨.pbc, 0, true⟩ = some (.pbc ⟨lgT, .lt, 4⟩) := by subst hs'; rfl
  have u1 : s'.unpack ⟨.pbc, n + 2, true⟩ = some (.pbc ⟨lgT, .gt, 4⟩) := by
    subst hs'
    simp only [FF.unpack, if_true]
    rw [List.getElem?_append_right (by rw [lgVec_length]; exact Nat.le_refl _), lgVec_length, Nat.sub_self]
    rfl
  have hnot : s'.nots = ⟨⟨[], []⟩, ⟨[], []⟩⟩ := by subst hs'; rfl
  have hlk : ∀ h, s'.lookupNot h = none := by intro h; simp [FF.lookupNot, hnot, Cache.find]
  have e32 : (⟨.pbc, n + 2, true⟩ : H).as32 = ⟨.pbc, 0, true⟩ := by
    simp only [H.as32, H.mk.injEq, true_and, and_true]; omega
  have hlarge : (⟨.pbc, n + 2, true⟩ : H).isLarge = true := by simp only [H.isLarge, decide_eq_true_eq]; omega
  refine ⟨s', ?_, u0, by subst hs'; rfl⟩
  have hneg : (lgS n).negConstraint 2 .eq 4 lgT = s'.nary 2 .disj [⟨.pbc, 0, true⟩, ⟨.pbc, n + 2, true⟩] := by
    have a1 : (lgS n).pbc .lt 4 lgT = (lgS n, ⟨.pbc, 0, true⟩) := lg_find rfl
    have a2 : (lgS n).pbc .gt 4 lgT = (s', ⟨.pbc, n + 2, true⟩) := hg
    simp only [FF.negConstraint, a1, a2]
  have hc : (lgS n).call (.negate ⟨.pbc, 1, true⟩) = (lgS n).negConstraint 2 .eq 4 lgT := rfl
  rw [hc, hneg]
  have f1 : FF.flattenLoop s' .disj (s'.filterFlatten .disj 1) [⟨.pbc, 0, true⟩, ⟨.pbc, n + 2, true⟩] false ⟨[], [], true⟩ =
      FF.flattenLoop s' .disj (s'.filterFlatten .disj 1) [⟨.pbc, n + 2, true⟩] false ⟨[⟨.pbc, 0, true⟩], [], false⟩ := by
    rw [FF.flattenLoop, if_neg (by decide)]
    simp only [FF.cnfFlag, if_true]
    rw [if_neg (by decide), if_neg (by decide)]
    simp only [FF.containsComplement, u0, hlk]
    rw [if_neg (by decide), if_pos (by simp)]
    rfl
  have f2 : FF.flattenLoop s' .disj (s'.filterFlatten .disj 1) [⟨.pbc, n + 2, true⟩] false ⟨[⟨.pbc, 0, true⟩], [], false⟩ =
      some (some ⟨[⟨.pbc, 0, true⟩], [], false⟩) := by
    rw [FF.flattenLoop, if_neg (by simp [Op.fty])]
    simp only [FF.cnfFlag, Bool.false_eq_true, if_false]
    rw [if_neg (by simp), if_neg (by simp)]
    simp only [FF.containsComplement, u1, hlk, hlarge, Bool.or_true, if_true]
    rw [if_neg (by rw [e32]; simp)]
    rfl
  have f3 : s'.filterFlatten .disj 2 [⟨.pbc, 0, true⟩, ⟨.pbc, n + 2, true⟩] ⟨[], [], true⟩ = some (some ⟨[⟨.pbc, 0, true⟩], [], false⟩) := by
    rw [FF.filterFlatten, f1, f2]
  simp only [FF.nary]
  rw [f3]
  rfl

/-- Beyond 2^26 constraints the negation of an equation is wrong: the handles of `<` and `>` are taken for equal after they are cut
to 32 bits, and `2a + 3b = 4` is negated to `2a + 3b < 4`. -/
theorem C18_large_counterexample : ∃ s pool x s' r σ, Run s pool ∧ x ∈ pool ∧ s.call (.negate x) = some (s', r) ∧ Val s σ x false ∧ Val s' σ r false := by
  obtain ⟨n, hn⟩ : ∃ n, n + 2 = 2 ^ 26 := ⟨2 ^ 26 - 2, by decide⟩
  obtain ⟨pool, hr, hp, _⟩ := lgS_run n (by omega)
  obtain ⟨s', h1, h2, _⟩ := lg_negate hn
  exact ⟨_, _, _, s', _, fun _ => true, hr, hp, h1, ⟨.pbc ⟨lgT, .eq, 4⟩, rfl, by decide⟩, ⟨.pbc ⟨lgT, .lt, 4⟩, h2, by decide⟩⟩

/-- Beyond 2^26 constraints implications and equivalences are wrong, too: both compare the left operand with the negation of the
right one, so `2a + 3b < 4 => 2a + 3b = 4` becomes `2a + 3b = 4`, and the equivalence becomes false. -/
theorem C07_large_counterexample : ∃ s pool x y s' r s'' σ, Run s pool ∧ x ∈ pool ∧ y ∈ pool ∧ Val s σ x false ∧ Val s σ y false ∧
    s.call (.impl x y) = some (s', r) ∧ Val s' σ r false ∧ s.call (.equiv x y) = some (s'', H.falsum) := by
  obtain ⟨n, hn⟩ : ∃ n, n + 2 = 2 ^ 26 := ⟨2 ^ 26 - 2, by decide⟩
  obtain ⟨pool, hr, hp1, hp0⟩ := lgS_run n (by omega)
  obtain ⟨s', h1, _, h3⟩ := lg_negate hn
  have h1 : (lgS n).negate 2 ⟨.pbc, 1, true⟩ = some (s', ⟨.pbc, 0, true⟩) := h1
  refine ⟨_, _, ⟨.pbc, 0, true⟩, ⟨.pbc, 1, true⟩, s', ⟨.pbc, 1, true⟩, s', fun _ => true, hr, hp0, hp1, ⟨.pbc ⟨lgT, .lt, 4⟩, rfl, by decide⟩,
    ⟨.pbc ⟨lgT, .eq, 4⟩, rfl, by decide⟩, ?_, ⟨.pbc ⟨lgT, .eq, 4⟩, h3, by decide⟩, ?_⟩
  · simp only [FF.call, FF.implication]
    rw [if_neg (by decide), if_neg (by decide), if_neg (by decide), if_neg (by decide), h1]
    simp
  · simp only [FF.call, FF.equivalence]
    rw [if_neg (by decide), if_neg (by decide), if_neg (by decide), if_neg (by decide), if_neg (by decide), h1]
    simp

end Verif
