import Verif.Enc.Modular3
import Verif.Enc.AmoSize
/-
How many clauses and auxiliary variables the modular totalizer writes.
-/
namespace Verif

theorem lits_adds (k : Nat) (s : ER) : Adds s (newLits k s).2 0 k ∧ (newLits k s).1.length = k :=
  ⟨adds_aux k s, by simp [newLits, auxs_length]⟩

theorem lowPair_length (md : Nat) (W LL RL : List Lit) (carry : Option Lit) (crhs i j : Nat) : (lowPair md W LL RL carry crhs i j).length ≤ 1 := by
  unfold lowPair
  repeat' split
  all_goals simp

theorem finalClauses_length (a b c d : Option Lit) (carry : Lit) : (finalClauses a b c d carry).length ≤ 2 := by
  unfold finalClauses
  rw [List.length_append]
  refine Nat.add_le_add (b := 1) (d := 1) ?_ ?_ <;> split <;> simp

theorem finalPair_length (md : Nat) (U LU RU : List Lit) (carry : Lit) (crhs i j : Nat) :
    (finalPair md U LU RU carry crhs i j).length ≤ if md * (i + j) > (crhs / md + (if crhs % md = 0 then 0 else 1)) * md then 0 else 2 := by
  simp only [finalPair]
  by_cases h : md * (i + j) > (crhs / md + (if crhs % md = 0 then 0 else 1)) * md
  · rw [if_pos h, if_pos h]; simp
  · rw [if_neg h, if_neg h]
    exact finalClauses_length ..

theorem lowAll_length (md : Nat) (W LL RL : List Lit) (carry : Option Lit) (crhs : Nat) :
    (lowAll md W LL RL carry crhs).length ≤ (LL.length + 1) * (RL.length + 1) := by
  unfold lowAll
  have := flatMap_length_le (List.range (LL.length + 1)) (fun i => (List.range (RL.length + 1)).flatMap fun j =>
    lowPair md W LL RL carry crhs i j) (RL.length + 1) (fun i _ => by
      have := flatMap_length_le (List.range (RL.length + 1)) (fun j => lowPair md W LL RL carry crhs i j) 1
        (fun j _ => lowPair_length ..)
      simpa using this)
  simpa using this

/-- Pairs `(i, j)` with `i + j ≤ c`, two clauses each. -/
theorem tri_length (f : Nat → Nat → List Clause) (c : Nat) (h : ∀ i j, (f i j).length ≤ if c < i + j then 0 else 2) (L R : Nat) :
    ((List.range L).flatMap fun i => (List.range R).flatMap (f i)).length ≤ (c + 1) * (c + 2) := by
  have inner : ∀ i R, ((List.range R).flatMap (f i)).length ≤ 2 * min R (c + 1 - i) := by
    intro i R
    induction R with
    | zero => simp
    | succ R ih =>
      rw [List.range_succ, List.flatMap_append, List.length_append]
      have := h i R
      simp only [List.flatMap_cons, List.flatMap_nil, List.append_nil]
      by_cases hc : c < i + R
      · rw [if_pos hc] at this; omega
      · rw [if_neg hc] at this; omega
  have key : ∀ L, ((List.range L).flatMap fun i => (List.range R).flatMap (f i)).length + (c + 1 - L) * (c + 2 - L) ≤ (c + 1) * (c + 2) := by
    intro L
    induction L with
    | zero => simp
    | succ L ih =>
      rw [List.range_succ, List.flatMap_append, List.length_append]
      simp only [List.flatMap_cons, List.flatMap_nil, List.append_nil]
      have hi := inner L R
      by_cases hc : L ≤ c
      · obtain ⟨d, rfl⟩ : ∃ d, c = L + d := ⟨c - L, by omega⟩
        have e1 : L + d + 1 - L = d + 1 := by omega
        have e2 : L + d + 2 - L = d + 2 := by omega
        have e3 : L + d + 1 - (L + 1) = d := by omega
        have e4 : L + d + 2 - (L + 1) = d + 1 := by omega
        rw [e1, e2] at ih
        rw [e1] at hi
        rw [e3, e4]
        have : (d + 1) * (d + 2) = d * (d + 1) + 2 * (d + 1) := by ring
        omega
      · have e1 : c + 1 - (L + 1) = 0 := by omega
        rw [e1, Nat.zero_mul]
        omega
  have := key L
  omega

theorem finalAll_length {md : Nat} (U LU RU : List Lit) (carry : Lit) {crhs : Nat} (h2 : 2 ≤ md) (hc : crhs ≤ md * md) :
    (finalAll md U LU RU carry crhs).length ≤ (md + 1) * (md + 2) := by
  have hcm : crhs / md + (if crhs % md = 0 then 0 else 1) ≤ md := by
    have h1 : crhs / md ≤ md := by
      have := Nat.div_le_div_right (c := md) hc
      rwa [Nat.mul_div_cancel _ (by omega)] at this
    by_cases h : crhs % md = 0
    · rw [if_pos h]; omega
    · rw [if_neg h]
      rcases Nat.lt_or_ge (crhs / md) md with h3 | h3
      · omega
      · exfalso
        have h4 : md * (crhs / md) + crhs % md = crhs := Nat.div_add_mod _ _
        have h5 : crhs / md = md := by omega
        rw [h5] at h4
        omega
  refine Nat.le_trans (tri_length _ (crhs / md + (if crhs % md = 0 then 0 else 1)) (fun i j => ?_) _ _)
    (Nat.mul_le_mul (by omega) (by omega))
  refine Nat.le_trans (finalPair_length ..) ?_
  by_cases h : crhs / md + (if crhs % md = 0 then 0 else 1) < i + j
  · have : (crhs / md + (if crhs % md = 0 then 0 else 1)) * md < md * (i + j) := by
      rw [Nat.mul_comm]; exact Nat.mul_lt_mul_of_pos_left h (by omega)
    rw [if_pos h, if_pos this]
  · rw [if_neg h]
    generalize (crhs / md + (if crhs % md = 0 then 0 else 1)) * md = z
    split <;> omega

/-- Clauses of one node with outputs above. -/
def modQ (md : Nat) : Nat := 2 * (md * md) + 3 * md + 2

theorem modAdder_size {md : Nat} {U W LU LL RU RL : List Lit} {crhs : Nat} {s s' : ER} (h2 : 2 ≤ md) (hc : crhs ≤ md * md)
    (e : modAdder md U W LU LL RU RL crhs s = some s') :
    Adds s s' ((LL.length + 1) * (RL.length + 1) + (if U.nth 0 = h0 then 0 else (md + 1) * (md + 2))) 1 := by
  unfold modAdder at e
  by_cases h : U.isEmpty = true ∨ ¬ (W.length ≥ LL.length ∧ W.length ≥ RL.length)
  · rw [if_pos h] at e; cases e
  rw [if_neg h] at e
  by_cases h1 : U.nth 0 = h0
  · rw [if_pos h1] at e
    rw [if_pos h1]
    split at e
    · cases e
    · simp only [Option.some.injEq] at e
      subst e
      exact (adds_clauses _ _).mono (lowAll_length ..) (by omega)
  · rw [if_neg h1] at e
    rw [if_neg h1]
    simp only at e
    split at e
    · cases e
    · simp only [Option.some.injEq] at e
      subst e
      refine ((((lits_adds 1 s).1.trans (adds_clauses _ _)).trans (adds_clauses _ _)).mono ?_ (by omega))
      have := lowAll_length md W LL RL (some ((newLits 1 s).1.nth 0)) crhs
      have := finalAll_length U LU RU ((newLits 1 s).1.nth 0) h2 hc
      omega

theorem modSide_size {md k : Nat} {st : List Lit} {s : ER} {u w st' : List Lit} {s' : ER} (h2 : 2 ≤ md) (hk : 1 ≤ k)
    (e : modSide md k st s = some (u, w, st', s')) :
    w.length = min k (md - 1) ∧ (k < md → (orH0 u).nth 0 = h0) ∧ Adds s s' 0 k := by
  unfold modSide at e
  by_cases h : k = 1
  · rw [if_pos h] at e
    cases st with
    | nil => cases e
    | cons x st =>
      simp only [Option.some.injEq, Prod.mk.injEq] at e
      obtain ⟨rfl, rfl, _, rfl⟩ := e
      refine ⟨by simp; omega, fun _ => by simp [orH0, List.nth], Adds.rfl.mono (by omega) (by omega)⟩
  · rw [if_neg h] at e
    simp only [Option.some.injEq, Prod.mk.injEq] at e
    obtain ⟨rfl, rfl, _, rfl⟩ := e
    have hl : (if k / md % md = 0 ∧ k < md - 1 then k else md - 1) = min k (md - 1) := by
      by_cases h3 : k < md - 1
      · have : k / md = 0 := Nat.div_eq_of_lt (by omega)
        rw [if_pos ⟨by rw [this]; exact Nat.zero_mod _, h3⟩]; omega
      · rw [if_neg (by omega)]; omega
    rw [hl]
    refine ⟨(lits_adds _ _).2, fun hlt => ?_, ((lits_adds _ _).1.trans (lits_adds _ _).1).mono (by omega) ?_⟩
    · rw [Nat.div_eq_of_lt hlt]
      simp [newLits, ER.newAuxs, orH0, List.nth]
    · rcases Nat.lt_or_ge k md with hlt | hge
      · rw [Nat.div_eq_of_lt hlt]; omega
      · have h3 : md * (k / md) ≤ k := Nat.mul_div_le _ _
        have h4 : 1 ≤ k / md := Nat.div_pos hge (by omega)
        obtain ⟨m, rfl⟩ : ∃ m, md = m + 1 := ⟨md - 1, by omega⟩
        have h5 : m ≤ m * (k / (m + 1)) := Nat.le_mul_of_pos_right _ h4
        have h6 : (m + 1) * (k / (m + 1)) = m * (k / (m + 1)) + k / (m + 1) := Nat.succ_mul _ _
        omega

/-- The bound on the clauses below a node over `n` inputs. -/
def ModBnd (md n c : Nat) : Prop := (n < md → c ≤ 2 * (n * (n - 1))) ∧ (md ≤ n → c + modQ md ≤ 12 * (md * n))

theorem ModBnd.child {md x c : Nat} (h : ModBnd md x c) (h2 : 2 ≤ md) (h1 : 1 ≤ x) (hx : md ≤ 2 * x + 1) : c + modQ md ≤ 12 * (md * x) := by
  rcases Nat.lt_or_ge x md with hl | hl
  · have hc := h.1 hl
    unfold modQ
    obtain ⟨y, rfl⟩ : ∃ y, x = y + 1 := ⟨x - 1, by omega⟩
    obtain ⟨t, rfl⟩ : ∃ t, md = y + 1 + 1 + t := ⟨md - y - 2, by omega⟩
    have ht : t ≤ y + 1 := by omega
    simp only [Nat.add_sub_cancel] at hc
    nlinarith
  · exact h.2 hl

theorem modBnd_one (md : Nat) (h2 : 2 ≤ md) : ModBnd md 1 0 := ⟨fun _ => by omega, fun h => by omega⟩

theorem ModBnd.node {md a b ca cb c : Nat} (h2 : 2 ≤ md) (ha1 : 1 ≤ a) (hab : a ≤ b) (hba : b ≤ a + 1) (ha : ModBnd md a ca) (hb : ModBnd md b cb)
    (hc1 : a + b < md → c ≤ (a + 1) * (b + 1)) (hc2 : md ≤ a + b → c ≤ modQ md) : ModBnd md (a + b) (c + ca + cb) := by
  constructor
  · intro h
    have h3 := hc1 h
    have h4 := ha.1 (by omega)
    have h5 := hb.1 (by omega)
    obtain ⟨a, rfl⟩ : ∃ y, a = y + 1 := ⟨a - 1, by omega⟩
    obtain ⟨b, rfl⟩ : ∃ y, b = y + 1 := ⟨b - 1, by omega⟩
    have e1 : a + 1 + (b + 1) - 1 = a + b + 1 := by omega
    simp only [Nat.add_sub_cancel] at h4 h5
    rw [e1]
    nlinarith [Nat.zero_le (a * b)]
  · intro h
    have h3 := hc2 h
    have h4 := ha.child h2 ha1 (by omega)
    have h5 := hb.child h2 (by omega) (by omega)
    rw [Nat.mul_add]
    omega

theorem modCnf_size {md crhs : Nat} (h2 : 2 ≤ md) (hc : crhs ≤ md * md) : ∀ (fuel : Nat) (U W : List Lit) (n : Nat) (st : List Lit) (s : ER) (st' : List Lit) (s' : ER),
    (n < md → U.nth 0 = h0) → modCnf md crhs fuel U W n st s = some (st', s') →
    ∃ c, ModBnd md n c ∧ ∀ e, n ≤ 2 ^ e → Adds s s' c (n * e + n - 1) := by
  intro fuel
  induction fuel with
  | zero => intro U W n st s st' s' _ h; cases h
  | succ fuel ih =>
    intro U W n st s st' s' hU h
    rw [modCnf] at h
    by_cases hn : n > 1
    case neg => rw [if_pos hn] at h; cases h
    rw [if_neg (by simpa using hn)] at h
    simp only [Option.bind_eq_some_iff] at h
    obtain ⟨⟨lu, ll, st1, s1⟩, e1, ⟨ru, rl, st2, s2⟩, e2, s3, e3, ⟨st4, s4⟩, e4, e5⟩ := h
    simp only at e2 e3 e4 e5
    obtain ⟨l1, l2, l3⟩ := modSide_size h2 (by omega) e1
    obtain ⟨r1, r2, r3⟩ := modSide_size h2 (by omega) e2
    have ad := modAdder_size h2 hc e3
    have hsub : ∀ (m : Nat) (V X : List Lit) (t : List Lit) (q : ER) (t' : List Lit) (q' : ER), 1 ≤ m → (m < md → V.nth 0 = h0) →
        (if m > 1 then modCnf md crhs fuel V X m t q else some (t, q)) = some (t', q') →
        ∃ c, ModBnd md m c ∧ ∀ e, m ≤ 2 ^ e → Adds q q' c (m * e + m - 1) := by
      intro m V X t q t' q' hm hV he
      by_cases hm1 : m > 1
      · rw [if_pos hm1] at he
        exact ih _ _ _ _ _ _ _ hV he
      · rw [if_neg hm1] at he
        simp only [Option.some.injEq, Prod.mk.injEq] at he
        obtain ⟨_, rfl⟩ := he
        have : m = 1 := by omega
        subst this
        exact ⟨0, modBnd_one md h2, fun e _ => Adds.rfl.mono (by omega) (by omega)⟩
    obtain ⟨ca, ba, aa⟩ := hsub _ _ _ _ _ _ _ (by omega) l2 e4
    obtain ⟨cb, bb, ab⟩ := hsub _ _ _ _ _ _ _ (by omega) r2 e5
    generalize hcv : (rl.length + 1) * (ll.length + 1) + (if U.nth 0 = h0 then 0 else (md + 1) * (md + 2)) = c at ad
    have hnode := ModBnd.node (a := n / 2) (b := n - n / 2) (c := c) h2 (by omega) (by omega) (by omega) ba bb (by
      intro hlt
      rw [if_pos (hU (by omega))] at hcv
      rw [← hcv, l1, r1, Nat.mul_comm]
      exact Nat.mul_le_mul (by omega) (by omega)) (by
      intro hge
      have m1 : (rl.length + 1) * (ll.length + 1) ≤ md * md := Nat.mul_le_mul (by omega) (by omega)
      have m2 : (if U.nth 0 = h0 then 0 else (md + 1) * (md + 2)) ≤ (md + 1) * (md + 2) := by split <;> omega
      have m3 : (md + 1) * (md + 2) = md * md + 3 * md + 2 := by ring
      unfold modQ
      omega)
    have hnn : n / 2 + (n - n / 2) = n := by omega
    rw [hnn] at hnode
    refine ⟨c + ca + cb, hnode, fun e he => ?_⟩
    obtain ⟨e, rfl⟩ : ∃ e', e = e' + 1 := by
      rcases e with _ | e
      · simp at he; omega
      · exact ⟨e, rfl⟩
    rw [Nat.pow_succ] at he
    have A := aa e (by omega)
    have B := ab e (by omega)
    refine ((((l3.trans r3).trans ad).trans A).trans B).mono (by omega) ?_
    have : n / 2 * e + (n - n / 2) * e = n * e := by rw [← Nat.add_mul, hnn]
    rw [Nat.mul_succ]
    generalize n / 2 * e = p at *
    generalize (n - n / 2) * e = q at *
    omega

theorem modBuild_size {ins : List Lit} {rhs e : Nat} {s s' : ER} {r} (h2 : 2 ≤ ins.length) (h1 : 1 ≤ rhs) (hr : rhs < ins.length)
    (he : ins.length ≤ 2 ^ e) (hb : modBuild ins rhs s = some (r, s')) :
    Adds s s' (12 * (ceilSqrt (rhs + 1) * ins.length) + 2 * ins.length) (ins.length * (e + 3)) := by
  have hmd := ceilSqrt_ge_two (n := rhs + 1) (by omega)
  have hsq := ceilSqrt_spec (rhs + 1)
  have hle : ceilSqrt (rhs + 1) ≤ ins.length :=
    Nat.le_trans (ceilSqrt_le (Nat.le_mul_of_pos_left (rhs + 1) (by omega))) hr
  unfold modBuild at hb
  generalize ceilSqrt (rhs + 1) = md at hb hmd hsq hle
  simp only [Option.bind_eq_some_iff] at hb
  obtain ⟨⟨st, s1⟩, e1, e2⟩ := hb
  simp only at e2
  have hdiv : ins.length / md ≤ ins.length := Nat.div_le_self _ _
  have hUl : (orH0 (newLits (ins.length / md) s).1).length ≤ ins.length := by
    unfold orH0
    by_cases h : (newLits (ins.length / md) s).1.isEmpty = true
    · rw [if_pos h]; simp; omega
    · rw [if_neg h, (lits_adds _ _).2]; exact hdiv
  obtain ⟨c, hc, ha⟩ := modCnf_size hmd hsq _ _ _ _ _ _ _ _ (fun hlt => by omega) e1
  have a0 := ((lits_adds (ins.length / md) s).1.trans (lits_adds (md - 1) (newLits (ins.length / md) s).2).1).trans (ha e he)
  have hW := (lits_adds (md - 1) (newLits (ins.length / md) s).2).2
  have hcb := hc.2 hle
  split at e2
  · cases e2
  · simp only [Option.some.injEq, Prod.mk.injEq] at e2
    obtain ⟨_, rfl⟩ := e2
    have hB : ∀ U W : List Lit, U.length ≤ ins.length → W.length = md - 1 → (modBound rhs md U W).length ≤ ins.length + md := by
      intro U W h3 h4
      simp only [modBound, List.length_append, List.length_map, List.length_drop]
      refine Nat.add_le_add (b := ins.length) (d := md) (Nat.le_trans (Nat.sub_le _ _) h3) ?_
      repeat' split
      all_goals simp
      all_goals omega
    refine (a0.trans (adds_clauses _ _)).mono ?_ ?_
    · have := hB _ _ hUl hW
      omega
    · have : ins.length * (e + 3) = ins.length * e + 3 * ins.length := by ring
      omega

/-- From the constraint: the modulus is the least number whose square exceeds the bound. -/
theorem modBuild_size' {ins : List Lit} {rhs r e : Nat} {s s' : ER} {x} (h2 : 2 ≤ ins.length) (h1 : 1 ≤ rhs) (hr : rhs < ins.length)
    (hq : rhs < r * r) (he : ins.length ≤ 2 ^ e) (hb : modBuild ins rhs s = some (x, s')) :
    Adds s s' (12 * (r * ins.length) + 2 * ins.length) (ins.length * (e + 3)) :=
  (modBuild_size h2 h1 hr he hb).mono (by have := Nat.mul_le_mul_right ins.length (ceilSqrt_le (n := rhs + 1) hq); omega) (Nat.le_refl _)

end Verif
