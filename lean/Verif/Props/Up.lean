import Verif.Enc.UpTot
import Verif.Enc.UpSort2
import Verif.Enc.CcEncoder
import Verif.Props.Amo

/-
C74: the encodings of cardinality constraints decide by unit propagation alone.
`UP cs A l` (Verif/Enc/Up.lean): unit propagation on the clauses `cs` derives `l` from the
assumed literals `A`.
-/
namespace Verif
open ER Prop1

/-- What unit propagation derives holds in every model. -/
theorem UP.sound {cs : List Clause} {A : Lit → Prop} {l : Lit} (h : UP cs A l) (σ : Asg) (hs : ∀ c ∈ cs, Clause.Sat σ c)
    (hA : ∀ l, A l → l.eval σ = true) : l.eval σ = true := by
  induction h with
  | ass h => exact hA _ h
  | @prop c l hc hl _ ih =>
    obtain ⟨l', hl', he⟩ := hs c hc
    by_cases hne : l' = l
    · exact hne ▸ he
    · have := ih l' hl' hne
      rw [Lit.eval_neg, he] at this
      exact absurd this (by simp)

/-- Unit propagation runs into a contradiction. -/
def UP.Conflict (cs : List Clause) (A : Lit → Prop) : Prop := [] ∈ cs ∨ ∃ l, UP cs A l ∧ UP cs A l.neg

/-- After a contradiction there is no model. -/
theorem UP.Conflict.sound {cs : List Clause} {A : Lit → Prop} (h : UP.Conflict cs A) (σ : Asg) (hs : ∀ c ∈ cs, Clause.Sat σ c)
    (hA : ∀ l, A l → l.eval σ = true) : False := by
  rcases h with h | ⟨l, h1, h2⟩
  · obtain ⟨l, hl, _⟩ := hs [] h
    exact absurd hl (by simp)
  · have h1 := h1.sound σ hs hA
    have h2 := h2.sound σ hs hA
    rw [Lit.eval_neg, h1] at h2
    exact absurd h2 (by simp)

theorem floorSqrt_pos {n : Nat} (h : 1 ≤ n) : 1 ≤ floorSqrt n := by
  have := ceilSqrt_spec (n + 1)
  unfold floorSqrt
  have h2 : ¬ ceilSqrt (n + 1) ≤ 1 := fun hc => by
    have : ceilSqrt (n + 1) * ceilSqrt (n + 1) ≤ 1 * 1 := Nat.mul_le_mul hc hc
    omega
  omega

theorem amo_up {cfg : AmoCfg} {fuel : Nat} {vars : List Var} {s s' : ER} (h : amo cfg fuel vars s = .ok s') {S : Lit → Prop}
    (hS : Cl S s'.clauses) : (vars.map Var.p).Pairwise (Prop1.Ex S) := by
  unfold amo at h
  by_cases h1 : vars.length ≤ 1
  · match vars, h1 with
    | [], _ => exact .nil
    | [_], _ => exact List.pairwise_singleton _ _
  simp only [h1, if_false] at h
  have hpure : ∀ {s'}, amoPure vars s = s' → Cl S s'.clauses → (vars.map Var.p).Pairwise (Prop1.Ex S) := by
    intro s' h hc
    subst h
    exact pairNeg_up hc fun c hc => mem_addClauses.2 (.inr hc)
  have hbim : ∀ {m s'}, 1 ≤ m → amoBimander m vars s = s' → Cl S s'.clauses → (vars.map Var.p).Pairwise (Prop1.Ex S) := by
    intro m s' hm h hc
    subst h
    rw [← splitGroups_flatten m (vars.map Var.p) hm]
    refine gray_up (splitGroups_length m _) (clog2_spec hm).1 (clog2_spec hm).2 (hc.mono fun c hc => mem_addClauses.2 (.inr hc)) fun g hg => ?_
    refine pairNeg_up hc fun c hc => mem_addClauses.2 (.inl ?_)
    show c ∈ (s.addClauses _).clauses
    exact mem_addClauses.2 (.inr (List.mem_flatMap.2 ⟨g, hg, hc⟩))
  cases cfg
  case pure => simp only [Out.ok.injEq] at h; exact hpure h hS
  case ladder => simp only [Out.ok.injEq] at h; subst h; exact ladder_up (by omega) hS
  case product rb =>
    cases hr : productRec rb fuel vars s with
    | none => simp [hr] at h
    | some t => simp [hr] at h; subst h; exact productRec_up (by omega) hr hS
  case nested gs =>
    cases hr : amoNested gs fuel vars s with
    | none => simp [hr] at h
    | some t => simp [hr] at h; subst h; exact nestedRec_up hr hS
  case commander gs =>
    by_cases hg : gs = 0
    · simp [hg] at h
    · cases hr : amoCommander gs fuel vars s with
      | none => simp [hr, hg] at h
      | some t => simp [hr, hg] at h; subst h; exact commanderLoop_up (by omega) hr hS
  case binary =>
    simp only [Out.ok.injEq] at h; subst h
    have e : (vars.map fun v => [v.p]).flatten = vars.map Var.p := by
      clear hS h1 hpure hbim
      induction vars with
      | nil => rfl
      | cons v vs ih => simp only [List.map_cons, List.flatten_cons, ih]; rfl
    rw [← e]
    refine gray_up (n := vars.length) (by simp) (clog2_spec (by omega)).1 (clog2_spec (by omega)).2 (hS.mono fun c hc => mem_addClauses.2 (.inr hc)) ?_
    intro g hg
    obtain ⟨v, _, rfl⟩ := List.mem_map.1 hg
    exact List.pairwise_singleton _ _
  case bimanderFixed m =>
    by_cases hm : m = 0
    · simp [hm] at h
    · simp only [hm, if_false, Out.ok.injEq] at h; exact hbim (by omega) h hS
  case bimanderHalf => simp only [Out.ok.injEq] at h; exact hbim (by omega) h hS
  case bimanderSqrt => simp only [Out.ok.injEq] at h; exact hbim (floorSqrt_pos (by omega)) h hS
  case best =>
    by_cases h10 : vars.length ≤ 10
    · simp only [h10, if_true, Out.ok.injEq] at h; exact hpure h hS
    · cases hr : productRec 20 fuel vars s with
      | none => simp [hr, h10] at h
      | some t => simp [hr, h10] at h; subst h; exact productRec_up (by omega) hr hS

/-- **C74.** At most one: as soon as one position is true, unit propagation makes all other
positions false, for every encoding. -/
theorem C74_amo (cfg : AmoCfg) (fuel : Nat) (vars : List Var) (s s' : ER) (h : amo cfg fuel vars s = .ok s') (A : Lit → Prop)
    (i j : Nat) (hi : i < vars.length) (hj : j < vars.length) (hij : i ≠ j) (hA : A vars[i].p) : UP s'.clauses A vars[j].n := by
  have := nth_ex (amo_up h (UP.cl s'.clauses A)) hi hj hij
  rw [getBang _ _ hi, getBang _ _ hj] at this
  exact this.1 (.ass hA)

private abbrev va : Var := .named 0
private abbrev vb : Var := .named 1
private abbrev vc : Var := .named 2

/-- Case: three variables, ladder; the second true makes the first and the third false. -/
example : ∃ s', amo .ladder 9 [va, vb, vc] ⟨fun _ => 0, []⟩ = .ok s' ∧ UP s'.clauses (· = vb.p) va.n ∧ UP s'.clauses (· = vb.p) vc.n :=
  ⟨_, rfl, C74_amo .ladder 9 [va, vb, vc] _ _ rfl _ 1 0 (by simp) (by simp) (by simp) rfl,
    C74_amo .ladder 9 [va, vb, vc] _ _ rfl _ 1 2 (by simp) (by simp) (by simp) rfl⟩

/-! ### Counting -/

open Classical in
/-- Number of positions whose literal is assumed. -/
noncomputable def assumed (A : Lit → Prop) (ls : List Lit) : Nat := ls.countP fun l => decide (A l)

private theorem countP_eq_imp {α} {p q : α → Bool} (hpq : ∀ x, p x = true → q x = true) : ∀ {l : List α}, l.countP p = l.countP q → ∀ x ∈ l, q x = true → p x = true
  | [], _, x, hx, _ => by simp at hx
  | a :: l, h, x, hx, hq => by
    have hle : l.countP p ≤ l.countP q := List.countP_mono_left fun x _ => hpq x
    simp only [List.countP_cons] at h
    have ha : q a = true → p a = true := by
      intro hqa
      by_cases hp : p a = true
      · exact hp
      · simp [hp, hqa] at h; omega
    have hl : l.countP p = l.countP q := by
      by_cases hp : p a = true
      · simpa [hp, hpq a hp] using h
      · have : ¬ q a = true := fun h => hp (ha h)
        simpa [hp, this] using h
    rcases List.mem_cons.1 hx with rfl | hx
    · exact ha hq
    · exact countP_eq_imp hpq hl x hx hq

open Classical in
private theorem assumed_p (A : Lit → Prop) (vars : List Var) : assumed A (vars.map Var.p) = vars.countP fun v => decide (A v.p) := by
  rw [assumed, List.countP_map]; rfl
open Classical in
private theorem assumed_n (A : Lit → Prop) (vars : List Var) : assumed A (vars.map Var.n) = vars.countP fun v => decide (A v.n) := by
  rw [assumed, List.countP_map]; rfl

private theorem assumed_le_tr (cs : List Clause) (A : Lit → Prop) (vars : List Var) : assumed A (vars.map Var.p) ≤ tr (UP cs A) vars := by
  rw [assumed_p]
  exact List.countP_mono_left fun v _ h => by simp at h ⊢; exact .ass h
private theorem assumed_le_fa (cs : List Clause) (A : Lit → Prop) (vars : List Var) : assumed A (vars.map Var.n) ≤ fa (UP cs A) vars := by
  rw [assumed_n]
  exact List.countP_mono_left fun v _ h => by simp at h ⊢; exact .ass h

/-- **Specification.** Propagation is complete for "at most k": more than `k` true positions
are contradictory, with exactly `k` all others become false. -/
def AmkComplete (cs : List Clause) (vars : List Var) (k : Nat) : Prop := ∀ A : Lit → Prop,
  (k < assumed A (vars.map Var.p) → UP.Conflict cs A) ∧
  (assumed A (vars.map Var.p) = k → UP.Conflict cs A ∨ ∀ v ∈ vars, A v.p ∨ UP cs A v.n)

/-- **Specification.** Propagation is complete for "at least k": if less than `k` positions
are left it is contradictory, if exactly `k` are left they become true. -/
def AlkComplete (cs : List Clause) (vars : List Var) (k : Nat) : Prop := ∀ A : Lit → Prop,
  (vars.length < assumed A (vars.map Var.n) + k → UP.Conflict cs A) ∧
  (assumed A (vars.map Var.n) + k = vars.length → UP.Conflict cs A ∨ ∀ v ∈ vars, A v.n ∨ UP cs A v.p)

private theorem tree_amk {cs : List Clause} {b : TBound} {rhs : Nat} {O ins vars : List Var} (hb : b ≠ .lower) (h : Tree cs b rhs O ins)
    (hp : ins.Perm vars) (hu : ∀ o ∈ O.drop rhs, [o.n] ∈ cs) : AmkComplete cs vars rhs := by
  intro A
  have H := h.amk (UP.clN cs A) hb hu
  have hle := assumed_le_tr cs A vars
  rw [tr_perm hp] at H
  refine ⟨fun hlt => .inr (H.1 (by omega)), fun he => ?_⟩
  by_cases ht : rhs + 1 ≤ tr (UP cs A) vars
  · exact .inl (.inr (H.1 ht))
  · right
    intro v hv
    rcases H.2 (by omega) v (hp.mem_iff.2 hv) with h | h
    · left
      have := countP_eq_imp (p := fun v => @decide (A v.p) (Classical.propDecidable _)) (q := fun v => @decide (UP cs A v.p) (Classical.propDecidable _))
        (l := vars) (fun x h => by simp at h ⊢; exact .ass h) (by rw [← assumed_p]; show _ = tr _ _; omega) v hv (by simpa using h)
      simpa using this
    · exact .inr h

private theorem tree_alk {cs : List Clause} {b : TBound} {rhs k : Nat} {O ins vars : List Var} (hb : b ≠ .upper) (h : Tree cs b rhs O ins)
    (hp : ins.Perm vars) (hk : k ≤ vars.length) (hu : ∀ o ∈ O.take k, [o.p] ∈ cs) : AlkComplete cs vars k := by
  intro A
  have hl : vars.length = O.length := by rw [← h.length]; exact hp.length_eq.symm
  have H := h.alk (UP.clN cs A) hb (by omega) hu
  have hle := assumed_le_fa cs A vars
  rw [fa_perm hp] at H
  refine ⟨fun hlt => .inr (H.1 (by omega)), fun he => ?_⟩
  by_cases ht : O.length - k + 1 ≤ fa (UP cs A) vars
  · exact .inl (.inr (H.1 ht))
  · right
    intro v hv
    rcases H.2 (by omega) v (hp.mem_iff.2 hv) with h | h
    · exact .inr h
    · left
      have := countP_eq_imp (p := fun v => @decide (A v.n) (Classical.propDecidable _)) (q := fun v => @decide (UP cs A v.n) (Classical.propDecidable _))
        (l := vars) (fun x h => by simp at h ⊢; exact .ass h) (by rw [← assumed_n]; show _ = fa _ _; omega) v hv (by simpa using h)
      simpa using this

open Classical in
private theorem assumed_pos {A : Lit → Prop} {ls : List Lit} (h : 0 < assumed A ls) : ∃ l ∈ ls, A l := by
  obtain ⟨l, hl, h⟩ := List.countP_pos_iff.1 h
  exact ⟨l, hl, by simpa using h⟩

open Classical in
private theorem assumed_all {A : Lit → Prop} {ls : List Lit} (h : ls.length ≤ assumed A ls) : ∀ l ∈ ls, A l := by
  have := List.countP_eq_length.1 (Nat.le_antisymm List.countP_le_length h)
  exact fun l hl => by simpa using this l hl

private theorem units_n {cs : List Clause} {vars : List Var} (h : ∀ v ∈ vars, [v.n] ∈ cs) : AmkComplete cs vars 0 := by
  intro A
  have h0 : ∀ v ∈ vars, UP cs A v.n := fun v hv => (UP.clN cs A).one (h v hv)
  refine ⟨fun hlt => ?_, fun _ => .inr fun v hv => .inr (h0 v hv)⟩
  obtain ⟨l, hl, hA⟩ := assumed_pos hlt
  obtain ⟨v, hv, rfl⟩ := List.mem_map.1 hl
  exact .inr ⟨v.p, .ass hA, h0 v hv⟩

private theorem units_p {cs : List Clause} {vars : List Var} (h : ∀ v ∈ vars, [v.p] ∈ cs) : AlkComplete cs vars vars.length := by
  intro A
  have h0 : ∀ v ∈ vars, UP cs A v.p := fun v hv => (UP.clN cs A).one (h v hv)
  refine ⟨fun hlt => ?_, fun _ => .inr fun v hv => .inr (h0 v hv)⟩
  obtain ⟨l, hl, hA⟩ := assumed_pos (A := A) (ls := vars.map Var.n) (by omega)
  obtain ⟨v, hv, rfl⟩ := List.mem_map.1 hl
  exact .inr ⟨v.p, h0 v hv, .ass hA⟩

private theorem amk_trivial {cs : List Clause} {vars : List Var} {k : Nat} (h : vars.length ≤ k) : AmkComplete cs vars k := by
  intro A
  have hle : assumed A (vars.map Var.p) ≤ (vars.map Var.p).length := List.countP_le_length
  rw [List.length_map] at hle
  refine ⟨fun hlt => by omega, fun he => .inr fun v hv => .inl ?_⟩
  exact assumed_all (by simp; omega) v.p (List.mem_map.2 ⟨v, hv, rfl⟩)

private theorem alk_zero {cs : List Clause} {vars : List Var} : AlkComplete cs vars 0 := by
  intro A
  have hle : assumed A (vars.map Var.n) ≤ (vars.map Var.n).length := List.countP_le_length
  rw [List.length_map] at hle
  refine ⟨fun hlt => by omega, fun he => .inr fun v hv => .inl ?_⟩
  exact assumed_all (by simp; omega) v.n (List.mem_map.2 ⟨v, hv, rfl⟩)

/-- A clause over all variables. -/
private theorem alk_clause {cs : List Clause} {vars : List Var} (h : vars.map Var.p ∈ cs) : AlkComplete cs vars 1 := by
  intro A
  by_cases hall : ∀ v ∈ vars, A v.n
  · refine ⟨fun _ => ?_, fun _ => .inr fun v hv => .inl (hall v hv)⟩
    match vars, h, hall with
    | [], h, _ => exact .inl h
    | v :: vs, h, hall =>
      refine .inr ⟨v.p, .prop h (by simp) fun l' hl' _ => ?_, .ass (hall v (by simp))⟩
      obtain ⟨w, hw, rfl⟩ := List.mem_map.1 hl'
      exact .ass (hall w hw)
  · refine ⟨fun hlt => absurd (fun (v : Var) (hv : v ∈ vars) => assumed_all (by simp; omega) v.n (List.mem_map.2 ⟨v, hv, rfl⟩)) hall, fun he => .inr fun v hv => ?_⟩
    by_cases hA : A v.n
    · exact .inl hA
    · refine .inr (.prop h (List.mem_map.2 ⟨v, hv, rfl⟩) fun l' hl' hne => ?_)
      obtain ⟨w, hw, rfl⟩ := List.mem_map.1 hl'
      refine .ass (Classical.byContradiction fun hw' => hne ?_)
      -- two different variables would be left
      obtain ⟨i, hi, rfl⟩ := List.getElem_of_mem hv
      obtain ⟨j, hj, rfl⟩ := List.getElem_of_mem hw
      congr 1
      refine Classical.byContradiction fun hwv => ?_
      have hperm := List.perm_cons_erase hv
      have hw2 : vars[j] ∈ vars.erase vars[i] := (List.mem_erase_of_ne hwv).2 hw
      have hperm2 := List.perm_cons_erase hw2
      rw [assumed_n, (hperm.trans (hperm2.cons _)).countP_eq, List.countP_cons, List.countP_cons] at he
      have hlen := (hperm.trans (hperm2.cons _)).length_eq
      have hle := @List.countP_le_length _ (fun v => @decide (A v.n) (Classical.propDecidable _)) ((vars.erase vars[i]).erase vars[j])
      have e1 : @decide (A (vars[i]).n) (Classical.propDecidable _) = false := by simpa using hA
      have e2 : @decide (A (vars[j]).n) (Classical.propDecidable _) = false := by simpa using (show ¬ A (vars[j]).n from hw')
      rw [e1, e2] at he
      simp only [List.length_cons] at hlen
      simp at he
      omega

private theorem alk_empty {cs : List Clause} {vars : List Var} {k : Nat} (h : [] ∈ cs) : AlkComplete cs vars k :=
  fun _ => ⟨fun _ => .inl h, fun _ => .inl (.inl h)⟩
private theorem amk_empty {cs : List Clause} {vars : List Var} {k : Nat} (h : [] ∈ cs) : AmkComplete cs vars k :=
  fun _ => ⟨fun _ => .inl h, fun _ => .inl (.inl h)⟩

/-- **C74.** At most k with the totalizer, for all variables, bounds and states. -/
theorem C74_amk_totalizer (vars : List Var) (rhs : Nat) (inc : Bool) (s s' : ER) (d : Option IncData)
    (h : ccAmk .totalizer vars rhs inc s = .ok (d, s')) : AmkComplete s'.clauses vars rhs := by
  unfold ccAmk at h
  by_cases h1 : rhs ≥ vars.length
  · exact amk_trivial h1
  rw [if_neg h1] at h
  by_cases h2 : rhs = 0
  · rw [if_pos h2] at h
    simp only [Out.ok.injEq, Prod.mk.injEq] at h
    rw [h2, ← h.2]
    exact units_n fun v hv => mem_addClauses.2 (.inr (List.mem_map.2 ⟨v, hv, rfl⟩))
  rw [if_neg h2] at h
  simp only [Out.ok.injEq, Prod.mk.injEq] at h
  rw [← h.2]
  obtain ⟨ins, hp, T, _⟩ := totBuild_tree .upper (vars := vars) (rhs := rhs) (s := s) (by omega)
  refine tree_amk (by simp) (T.mono fun c hc => mem_addClauses.2 (.inl hc)) hp fun o ho => ?_
  exact mem_addClauses.2 (.inr (List.mem_map.2 ⟨o, ho, rfl⟩))

/-- **C74.** At least k with the totalizer. -/
theorem C74_alk_totalizer (vars : List Var) (rhs : Nat) (inc : Bool) (s s' : ER) (d : Option IncData)
    (h : ccAlk .totalizer vars rhs inc s = .ok (d, s')) : AlkComplete s'.clauses vars rhs := by
  unfold ccAlk at h
  by_cases h1 : rhs > vars.length
  · rw [if_pos h1] at h
    simp only [Out.ok.injEq, Prod.mk.injEq] at h
    rw [← h.2]
    exact alk_empty (mem_addClauses.2 (.inr (by simp)))
  rw [if_neg h1] at h
  by_cases h2 : rhs = 0
  · rw [h2]; exact alk_zero
  rw [if_neg h2] at h
  by_cases h3 : rhs = 1
  · rw [if_pos h3] at h
    simp only [Out.ok.injEq, Prod.mk.injEq] at h
    rw [h3, ← h.2]
    exact alk_clause (mem_addClauses.2 (.inr (by simp)))
  rw [if_neg h3] at h
  by_cases h4 : rhs = vars.length
  · rw [if_pos h4] at h
    simp only [Out.ok.injEq, Prod.mk.injEq] at h
    rw [h4, ← h.2]
    exact units_p fun v hv => mem_addClauses.2 (.inr (List.mem_map.2 ⟨v, hv, rfl⟩))
  rw [if_neg h4] at h
  simp only [Out.ok.injEq, Prod.mk.injEq] at h
  rw [← h.2]
  obtain ⟨ins, hp, T, _⟩ := totBuild_tree .lower (vars := vars) (rhs := rhs) (s := s) (by omega)
  refine tree_alk (by simp) (T.mono fun c hc => mem_addClauses.2 (.inl hc)) hp (by omega) fun o ho => ?_
  exact mem_addClauses.2 (.inr (List.mem_map.2 ⟨o, ho, rfl⟩))

/-- **C74.** Exactly k with the totalizer, the default encoding: complete for both bounds. -/
theorem C74_exk_totalizer (cfg : ExkEnc) (hcfg : cfg ≠ .cardNet) (vars : List Var) (rhs : Nat) (s s' : ER)
    (h : ccExk cfg vars rhs s = .ok s') : AmkComplete s'.clauses vars rhs ∧ AlkComplete s'.clauses vars rhs := by
  unfold ccExk at h
  by_cases h1 : rhs > vars.length
  · rw [if_pos h1] at h
    simp only [Out.ok.injEq] at h
    have : [] ∈ s'.clauses := h ▸ mem_addClauses.2 (.inr (by simp))
    exact ⟨amk_empty this, alk_empty this⟩
  rw [if_neg h1] at h
  by_cases h2 : rhs = 0
  · rw [if_pos h2] at h
    simp only [Out.ok.injEq] at h
    rw [h2, ← h]
    exact ⟨units_n fun v hv => mem_addClauses.2 (.inr (List.mem_map.2 ⟨v, hv, rfl⟩)), alk_zero⟩
  rw [if_neg h2] at h
  by_cases h4 : rhs = vars.length
  · rw [if_pos h4] at h
    simp only [Out.ok.injEq] at h
    rw [h4, ← h]
    exact ⟨amk_trivial (Nat.le_refl _), units_p fun v hv => mem_addClauses.2 (.inr (List.mem_map.2 ⟨v, hv, rfl⟩))⟩
  rw [if_neg h4] at h
  have h' : totExk vars rhs s = s' := by
    cases cfg
    · simpa using h
    · exact absurd rfl hcfg
    · simpa using h
  rw [← h']
  obtain ⟨ins, hp, T, _⟩ := totBuild_tree .both (vars := vars) (rhs := rhs) (s := s) (by omega)
  have T' := T.mono (cs' := (totExk vars rhs s).clauses) fun c hc => mem_addClauses.2 (.inl (mem_addClauses.2 (.inl hc)))
  refine ⟨tree_amk (by simp) T' hp fun o ho => ?_, tree_alk (by simp) T' hp (by omega) fun o ho => ?_⟩
  · exact mem_addClauses.2 (.inr (List.mem_map.2 ⟨o, ho, rfl⟩))
  · exact mem_addClauses.2 (.inl (mem_addClauses.2 (.inr (List.mem_map.2 ⟨o, ho, rfl⟩))))

/-- **C74.** Exactly one, for every encoding: complete for "at least one", and one true position
makes all others false. -/
theorem C74_exo (cfg : AmoCfg) (fuel : Nat) (vars : List Var) (s s' : ER) (h : ccExo cfg fuel vars s = .ok s') :
    AlkComplete s'.clauses vars 1 ∧ ∀ (A : Lit → Prop) (i j : Nat) (hi : i < vars.length) (hj : j < vars.length), i ≠ j →
      A vars[i].p → UP s'.clauses A vars[j].n := by
  unfold ccExo at h
  by_cases h0 : vars.isEmpty
  · rw [if_pos h0] at h
    simp only [Out.ok.injEq] at h
    refine ⟨alk_empty (h ▸ mem_addClauses.2 (.inr (by simp))), fun A i j hi => ?_⟩
    simp at h0; subst h0; simp at hi
  rw [if_neg h0] at h
  by_cases h1 : vars.length = 1
  · rw [if_pos h1] at h
    simp only [Out.ok.injEq] at h
    refine ⟨?_, fun A i j hi hj hij => by omega⟩
    rw [← h]
    obtain ⟨x, rfl⟩ := List.length_eq_one_iff.1 h1
    exact alk_clause (mem_addClauses.2 (.inr (by simp [List.nth])))
  rw [if_neg h1] at h
  cases ha : amo cfg fuel vars s with
  | panic => simp [ha, Out.bind] at h
  | diverge => simp [ha, Out.bind] at h
  | ok t =>
    simp [ha, Out.bind] at h
    refine ⟨alk_clause (h ▸ mem_addClauses.2 (.inr (by simp))), fun A i j hi hj hij hA => ?_⟩
    have hm : ∀ c ∈ t.clauses, c ∈ s'.clauses := fun c hc => h ▸ mem_addClauses.2 (.inl hc)
    have := nth_ex (amo_up ha ((UP.cl s'.clauses A).mono hm)) hi hj hij
    rw [getBang _ _ hi, getBang _ _ hj] at this
    exact this.1 (.ass hA)

/-- The two specifications are no matter of course: nothing follows from no clauses. -/
example : ¬ AmkComplete [] [va, vb] 1 := by
  intro h
  have hup : ∀ l, UP [] (· = va.p) l → l = va.p := fun l h => by cases h with | ass h => exact h | prop h => simp at h
  have := (h (· = va.p)).2 (by rw [assumed_p]; simp [Var.p])
  rcases this with (h | ⟨l, h1, h2⟩) | h
  · simp at h
  · have h1 := hup _ h1
    have h2 := hup _ h2
    rw [h1] at h2
    simp [Lit.neg, Var.p] at h2
  · rcases h vb (by simp) with h | h
    · simp [Var.p] at h
    · have := hup _ h
      simp [Var.p, Var.n] at this

/-- Case: exactly two of three, two true: the third is false. -/
example : ∃ s', ccExk .totalizer [va, vb, vc] 2 ⟨fun _ => 0, []⟩ = .ok s' ∧
    (UP.Conflict s'.clauses (fun l => l = va.p ∨ l = vb.p) ∨ UP s'.clauses (fun l => l = va.p ∨ l = vb.p) vc.n) := by
  refine ⟨_, rfl, ?_⟩
  have := ((C74_exk_totalizer .totalizer (by simp) [va, vb, vc] 2 ⟨fun _ => 0, []⟩ _ rfl).1 (fun l => l = va.p ∨ l = vb.p)).2
    (by rw [assumed_p]; simp [Var.p])
  rcases this with h | h
  · exact .inl h
  · exact .inr ((h vc (by simp)).resolve_left (by simp [Var.p]))

/-! ### Cardinality networks -/

/-- `AmkComplete` for literals. -/
private def LitAmk (cs : List Clause) (x : List Lit) (k : Nat) : Prop := ∀ A : Lit → Prop,
  (k < assumed A x → UP.Conflict cs A) ∧ (assumed A x = k → UP.Conflict cs A ∨ ∀ l ∈ x, A l ∨ UP cs A l.neg)

/-- `AlkComplete` for literals. -/
private def LitAlk (cs : List Clause) (x : List Lit) (k : Nat) : Prop := ∀ A : Lit → Prop,
  (x.length < assumed A (x.map Lit.neg) + k → UP.Conflict cs A) ∧
  (assumed A (x.map Lit.neg) + k = x.length → UP.Conflict cs A ∨ ∀ l ∈ x, A l.neg ∨ UP cs A l)

private theorem map_pn (vars : List Var) : (vars.map Var.p).map Lit.neg = vars.map Var.n := by
  rw [List.map_map]; rfl
private theorem map_np (vars : List Var) : (vars.map Var.n).map Lit.neg = vars.map Var.p := by
  rw [List.map_map]; rfl

private theorem amk_of_p {cs : List Clause} {vars : List Var} {k : Nat} (h : LitAmk cs (vars.map Var.p) k) : AmkComplete cs vars k :=
  fun A => ⟨(h A).1, fun he => ((h A).2 he).imp id fun h v hv => h v.p (List.mem_map.2 ⟨v, hv, rfl⟩)⟩
private theorem alk_of_p {cs : List Clause} {vars : List Var} {k : Nat} (h : LitAlk cs (vars.map Var.p) k) : AlkComplete cs vars k := fun A => by
  have h := h A
  rw [map_pn, List.length_map] at h
  exact ⟨h.1, fun he => (h.2 he).imp id fun h v hv => h v.p (List.mem_map.2 ⟨v, hv, rfl⟩)⟩
private theorem amk_of_n {cs : List Clause} {vars : List Var} {k : Nat} (hk : k ≤ vars.length) (h : LitAlk cs (vars.map Var.n) (vars.length - k)) :
    AmkComplete cs vars k := fun A => by
  have h := h A
  rw [map_np, List.length_map] at h
  exact ⟨fun hl => h.1 (by omega), fun he => (h.2 (by omega)).imp id fun h v hv => h v.n (List.mem_map.2 ⟨v, hv, rfl⟩)⟩
private theorem alk_of_n {cs : List Clause} {vars : List Var} {k : Nat} (hk : k ≤ vars.length) (h : LitAmk cs (vars.map Var.n) (vars.length - k)) :
    AlkComplete cs vars k := fun A => by
  have h := h A
  exact ⟨fun hl => h.1 (by omega), fun he => (h.2 (by omega)).imp id fun h v hv => h v.n (List.mem_map.2 ⟨v, hv, rfl⟩)⟩

open Classical in
private theorem sort_amk {cs : List Clause} {d : Dir} {x out : List Lit} {k : Nat} (hd : d ≠ .o2i) (h : ∀ S, ClN S cs → SortP S d x out)
    (hk : k < out.length) (hu : [(out.nth k).neg] ∈ cs) : LitAmk cs x k := by
  intro A
  have P := h _ (UP.clN cs A)
  have hu : UP cs A (out.nth k).neg := (UP.clN cs A).one hu
  have hle : assumed A x ≤ trL (UP cs A) x := List.countP_mono_left fun v _ h => by simp at h ⊢; exact .ass h
  have hc : k < trL (UP cs A) x → UP.Conflict cs A := fun ht => .inr ⟨_, P.up hd k hk ht, hu⟩
  refine ⟨fun hl => hc (by omega), fun he => ?_⟩
  by_cases ht : k < trL (UP cs A) x
  · exact .inl (hc ht)
  have ht : trL (UP cs A) x = k := by omega
  right
  intro l hl
  rcases P.upBack hd (by omega) (by rw [ht]; exact hu) l hl with h | h
  · left
    have := countP_eq_imp (p := fun l => decide (A l)) (q := fun l => decide (UP cs A l)) (l := x) (fun x h => by simp at h ⊢; exact .ass h)
      (by show assumed A x = trL _ x; omega) l hl (by simpa using h)
    simpa using this
  · exact .inr h

open Classical in
private theorem sort_alk {cs : List Clause} {d : Dir} {x out : List Lit} {k : Nat} (hd : d ≠ .i2o) (h : ∀ S, ClN S cs → SortP S d x out)
    (hk1 : 1 ≤ k) (hk : k ≤ out.length) (hkx : k ≤ x.length) (hu : [out.nth (k - 1)] ∈ cs) : LitAlk cs x k := by
  intro A
  have P := h _ (UP.clN cs A)
  have hu : UP cs A (out.nth (k - 1)) := (UP.clN cs A).one hu
  have ea : assumed A (x.map Lit.neg) = x.countP fun l => decide (A l.neg) := by rw [assumed, List.countP_map]; rfl
  have hle : assumed A (x.map Lit.neg) ≤ faL (UP cs A) x := by
    rw [ea]; exact List.countP_mono_left fun v _ h => by simp at h ⊢; exact .ass h
  have hfx := faL_le (UP cs A) x
  have hc : x.length < faL (UP cs A) x + k → UP.Conflict cs A := fun ht => .inr ⟨_, hu, P.dn hd (k - 1) (by omega) (by omega)⟩
  refine ⟨fun hl => hc (by omega), fun he => ?_⟩
  by_cases ht : x.length < faL (UP cs A) x + k
  · exact .inl (hc ht)
  have ht : x.length - faL (UP cs A) x = k := by omega
  right
  intro l hl
  rcases P.dnBack hd (by omega) (by omega) (by rw [ht]; exact hu) l hl with h | h
  · exact .inr h
  · left
    have := countP_eq_imp (p := fun l => decide (A l.neg)) (q := fun l => decide (UP cs A l.neg)) (l := x) (fun x h => by simp at h ⊢; exact .ass h)
      (by rw [← ea]; show _ = faL _ x; omega) l hl (by simpa using h)
    simpa using this

private theorem sortU_ok {m : Nat} {x : List Lit} {d : Dir} {s : ER} {α} {f : List Lit × ER → Out α} {r : α}
    (h : (sortU m x d s).bind f = .ok r) (hm : 1 ≤ m) (hx : x ≠ []) :
    ∃ out t, f (out, t) = .ok r ∧ out.length = min m x.length ∧ ∀ S cs, (∀ c ∈ t.clauses, c ∈ cs) → ClN S cs → SortP S d x out := by
  unfold sortU at h
  cases e : ccSort (x.length + 1) m x d s with
  | none => rw [e] at h; simp [Out.ofOption, Out.bind] at h
  | some q =>
    obtain ⟨out, t⟩ := q
    rw [e] at h
    obtain ⟨h1, _, h3⟩ := ccSort_up _ _ _ _ _ _ _ e hm hx
    exact ⟨out, t, h, h1, fun S cs hc hS => h3 S (hS.mono hc)⟩

private theorem getU_ok {out : List Lit} {i : Nat} {α} {f : Lit → Out α} {r : α} (h : (getU out i).bind f = .ok r) : f (out.nth i) = .ok r := by
  unfold getU at h
  by_cases hi : i < out.length
  · rw [if_pos hi] at h; exact h
  · rw [if_neg hi] at h; simp [Out.bind] at h

/-- **C74.** At most k with cardinality networks. -/
theorem C74_amk_cardnet (vars : List Var) (rhs : Nat) (inc : Bool) (s s' : ER) (d : Option IncData)
    (h : ccAmk .cardNet vars rhs inc s = .ok (d, s')) : AmkComplete s'.clauses vars rhs := by
  unfold ccAmk at h
  by_cases h1 : rhs ≥ vars.length
  · exact amk_trivial h1
  rw [if_neg h1] at h
  by_cases h2 : rhs = 0
  · rw [if_pos h2] at h
    simp only [Out.ok.injEq, Prod.mk.injEq] at h
    rw [h2, ← h.2]
    exact units_n fun v hv => mem_addClauses.2 (.inr (List.mem_map.2 ⟨v, hv, rfl⟩))
  rw [if_neg h2] at h
  have hne : ∀ f : Var → Lit, vars.map f ≠ [] := fun f h => by simp at h; subst h; simp at h1
  have hup : ∀ {out : List Lit} {t : ER}, out.length = min (rhs + 1) (vars.map Var.p).length →
      (∀ S cs, (∀ c ∈ t.clauses, c ∈ cs) → ClN S cs → SortP S .i2o (vars.map Var.p) out) →
      t.addClauses [[(out.nth rhs).neg]] = s' → AmkComplete s'.clauses vars rhs := by
    intro out t hl hP ht
    rw [List.length_map] at hl
    subst ht
    exact amk_of_p (sort_amk (by simp) (fun S hS => hP S _ (fun c hc => mem_addClauses.2 (.inl hc)) hS) (by omega) (mem_addClauses.2 (.inr (by simp))))
  simp only [cnAmk] at h
  cases inc
  · simp only [Bool.false_eq_true, if_false] at h
    by_cases h3 : rhs > vars.length / 2
    · rw [if_pos h3] at h
      obtain ⟨out, t, h, hl, hP⟩ := sortU_ok h (by omega) (hne _)
      rw [List.length_map] at hl
      simp only [Out.ok.injEq, Prod.mk.injEq] at h
      rw [← h.2]
      refine amk_of_n (by omega) (sort_alk (by simp) (fun S hS => hP S _ (fun c hc => mem_addClauses.2 (.inl hc)) hS) (by omega) (by omega) (by simp) ?_)
      refine mem_addClauses.2 (.inr (List.mem_map.2 ⟨_, ?_, rfl⟩))
      rw [List.take_of_length_le (by omega), getBang _ _ (by omega)]
      exact List.getElem_mem _
    · rw [if_neg h3] at h
      obtain ⟨out, t, h, hl, hP⟩ := sortU_ok h (by omega) (hne _)
      have h := getU_ok h
      simp only [Out.ok.injEq, Prod.mk.injEq] at h
      exact hup hl hP h.2
  · simp only [if_true] at h
    obtain ⟨out, t, h, hl, hP⟩ := sortU_ok h (by omega) (hne _)
    have h := getU_ok h
    simp only [Out.ok.injEq, Prod.mk.injEq] at h
    exact hup hl hP h.2

/-- **C74.** At least k with cardinality networks. -/
theorem C74_alk_cardnet (vars : List Var) (rhs : Nat) (inc : Bool) (s s' : ER) (d : Option IncData)
    (h : ccAlk .cardNet vars rhs inc s = .ok (d, s')) : AlkComplete s'.clauses vars rhs := by
  unfold ccAlk at h
  by_cases h1 : rhs > vars.length
  · rw [if_pos h1] at h
    simp only [Out.ok.injEq, Prod.mk.injEq] at h
    rw [← h.2]
    exact alk_empty (mem_addClauses.2 (.inr (by simp)))
  rw [if_neg h1] at h
  by_cases h2 : rhs = 0
  · rw [h2]; exact alk_zero
  rw [if_neg h2] at h
  by_cases h3 : rhs = 1
  · rw [if_pos h3] at h
    simp only [Out.ok.injEq, Prod.mk.injEq] at h
    rw [h3, ← h.2]
    exact alk_clause (mem_addClauses.2 (.inr (by simp)))
  rw [if_neg h3] at h
  by_cases h4 : rhs = vars.length
  · rw [if_pos h4] at h
    simp only [Out.ok.injEq, Prod.mk.injEq] at h
    rw [h4, ← h.2]
    exact units_p fun v hv => mem_addClauses.2 (.inr (List.mem_map.2 ⟨v, hv, rfl⟩))
  rw [if_neg h4] at h
  have hne : ∀ f : Var → Lit, vars.map f ≠ [] := fun f h => by simp at h; subst h; simp at h1; omega
  have hup : ∀ {out : List Lit} {t : ER}, out.length = min (vars.length - rhs + 1) (vars.map Var.n).length →
      (∀ S cs, (∀ c ∈ t.clauses, c ∈ cs) → ClN S cs → SortP S .i2o (vars.map Var.n) out) →
      t.addClauses [[(out.nth (vars.length - rhs)).neg]] = s' → AlkComplete s'.clauses vars rhs := by
    intro out t hl hP ht
    rw [List.length_map] at hl
    subst ht
    exact alk_of_n (by omega) (sort_amk (by simp) (fun S hS => hP S _ (fun c hc => mem_addClauses.2 (.inl hc)) hS) (by omega) (mem_addClauses.2 (.inr (by simp))))
  simp only [cnAlk] at h
  cases inc
  · simp only [Bool.false_eq_true, if_false] at h
    by_cases h5 : vars.length - rhs > vars.length / 2
    · rw [if_pos h5] at h
      obtain ⟨out, t, h, hl, hP⟩ := sortU_ok h (by omega) (hne _)
      rw [List.length_map] at hl
      simp only [Out.ok.injEq, Prod.mk.injEq] at h
      rw [← h.2]
      have e : vars.length - (vars.length - rhs) = rhs := by omega
      rw [e] at hl ⊢
      refine alk_of_p (sort_alk (by simp) (fun S hS => hP S _ (fun c hc => mem_addClauses.2 (.inl hc)) hS) (by omega) (by omega) (by simp; omega) ?_)
      refine mem_addClauses.2 (.inr (List.mem_map.2 ⟨_, ?_, rfl⟩))
      rw [List.take_of_length_le (by omega), getBang _ _ (by omega)]
      exact List.getElem_mem _
    · rw [if_neg h5] at h
      obtain ⟨out, t, h, hl, hP⟩ := sortU_ok h (by omega) (hne _)
      have h := getU_ok h
      simp only [Out.ok.injEq, Prod.mk.injEq] at h
      exact hup hl hP h.2
  · simp only [if_true] at h
    obtain ⟨out, t, h, hl, hP⟩ := sortU_ok h (by omega) (hne _)
    have h := getU_ok h
    simp only [Out.ok.injEq, Prod.mk.injEq] at h
    exact hup hl hP h.2

/-- **C74.** Exactly k with cardinality networks: complete for both bounds. -/
theorem C74_exk_cardnet (vars : List Var) (rhs : Nat) (s s' : ER) (h : ccExk .cardNet vars rhs s = .ok s') :
    AmkComplete s'.clauses vars rhs ∧ AlkComplete s'.clauses vars rhs := by
  unfold ccExk at h
  by_cases h1 : rhs > vars.length
  · rw [if_pos h1] at h
    simp only [Out.ok.injEq] at h
    have : [] ∈ s'.clauses := h ▸ mem_addClauses.2 (.inr (by simp))
    exact ⟨amk_empty this, alk_empty this⟩
  rw [if_neg h1] at h
  by_cases h2 : rhs = 0
  · rw [if_pos h2] at h
    simp only [Out.ok.injEq] at h
    rw [h2, ← h]
    exact ⟨units_n fun v hv => mem_addClauses.2 (.inr (List.mem_map.2 ⟨v, hv, rfl⟩)), alk_zero⟩
  rw [if_neg h2] at h
  by_cases h4 : rhs = vars.length
  · rw [if_pos h4] at h
    simp only [Out.ok.injEq] at h
    rw [h4, ← h]
    exact ⟨amk_trivial (Nat.le_refl _), units_p fun v hv => mem_addClauses.2 (.inr (List.mem_map.2 ⟨v, hv, rfl⟩))⟩
  rw [if_neg h4] at h
  simp only [cnExk] at h
  obtain ⟨out, t, h, hl, hP⟩ := sortU_ok h (by omega) (fun h => by simp at h; subst h; simp at h1 h4; omega)
  rw [List.length_map] at hl
  have h := getU_ok (getU_ok h)
  simp only [Out.ok.injEq] at h
  subst h
  have hm : ∀ c ∈ t.clauses, c ∈ ((t.addClauses [[(out.nth rhs).neg]]).addClauses [[out.nth (rhs - 1)]]).clauses :=
    fun c hc => mem_addClauses.2 (.inl (mem_addClauses.2 (.inl hc)))
  refine ⟨amk_of_p (sort_amk (by simp) (fun S hS => hP S _ hm hS) (by omega) ?_), alk_of_p (sort_alk (by simp) (fun S hS => hP S _ hm hS) (by omega) (by omega) (by simp; omega) ?_)⟩
  · exact mem_addClauses.2 (.inl (mem_addClauses.2 (.inr (by simp))))
  · exact mem_addClauses.2 (.inr (by simp))

/-- Case: exactly two of three with cardinality networks, one false: the other two are true. -/
example : ∃ s', ccExk .cardNet [va, vb, vc] 2 ⟨fun _ => 0, []⟩ = .ok s' ∧
    (UP.Conflict s'.clauses (· = va.n) ∨ (UP s'.clauses (· = va.n) vb.p ∧ UP s'.clauses (· = va.n) vc.p)) := by
  refine ⟨_, rfl, ?_⟩
  have := ((C74_exk_cardnet [va, vb, vc] 2 ⟨fun _ => 0, []⟩ _ rfl).2 (· = va.n)).2
    (by rw [assumed_n]; simp [Var.n])
  rcases this with h | h
  · exact .inl h
  · exact .inr ⟨(h vb (by simp)).resolve_left (by simp [Var.n]), (h vc (by simp)).resolve_left (by simp [Var.n])⟩

/-! ### The modular totalizer -/

/-- No clause lets unit propagation leave the list `t`. -/
def UP.closed (cs : List Clause) (t : List Lit) : Bool :=
  cs.all fun c => c.all fun l => t.contains l || c.any fun l' => l' != l && !t.contains l'.neg

theorem UP.of_closed {cs : List Clause} {A : Lit → Prop} {t : List Lit} (hA : ∀ l, A l → l ∈ t) (h : UP.closed cs t = true) {l : Lit}
    (hl : UP cs A l) : l ∈ t := by
  induction hl with
  | ass h => exact hA _ h
  | @prop c l hc hl _ ih =>
    have h := List.all_eq_true.1 (List.all_eq_true.1 h c hc) l hl
    rcases Bool.or_eq_true_iff.1 h with h | h
    · simpa using h
    · obtain ⟨l', hl', h⟩ := List.any_eq_true.1 h
      simp only [Bool.and_eq_true, bne_iff_ne, ne_eq, Bool.not_eq_true', List.contains_eq_mem, decide_eq_false_iff_not] at h
      exact absurd (ih l' hl' h.1) h.2

private abbrev v5 : List Var := [.named 0, .named 1, .named 2, .named 3, .named 4]
/-- Three of five variables true, the other two false. -/
private abbrev a5 : List Lit := [(Var.named 0).p, (Var.named 1).n, (Var.named 2).p, (Var.named 3).p, (Var.named 4).n]

/-- They and the one literal of a unit clause. -/
private abbrev t5 : List Lit := (Var.aux .cc 1).n :: a5

/-- The clauses of "at most two" of these variables. -/
private def mod5 : List Clause := match ccAmk .best v5 2 false ⟨fun _ => 0, []⟩ with | .ok (_, s) => s.clauses | _ => []

/-- **C74 fails for the modular totalizer**, the default encoding of at most k (`best`): with
all five variables set, three of them true, unit propagation on the clauses of "at most two"
finds no contradiction; it derives nothing but the literal of a unit clause. -/
theorem C74_modular_counterexample : ∃ s', ccAmk .best v5 2 false ⟨fun _ => 0, []⟩ = .ok (none, s') ∧
    (∀ l, UP s'.clauses (· ∈ a5) l → l ∈ t5) ∧ ¬ UP.Conflict s'.clauses (· ∈ a5) ∧ ¬ AmkComplete s'.clauses v5 2 := by
  refine ⟨_, rfl, ?_⟩
  show (∀ l, UP mod5 (· ∈ a5) l → l ∈ t5) ∧ ¬ UP.Conflict mod5 (· ∈ a5) ∧ ¬ AmkComplete mod5 v5 2
  have key : ∀ l, UP mod5 (· ∈ a5) l → l ∈ t5 := fun l hl =>
    UP.of_closed (t := t5) (fun _ h => List.mem_cons_of_mem _ h) (by decide) hl
  have hc : ¬ UP.Conflict mod5 (· ∈ a5) := by
    rintro (h | ⟨l, h1, h2⟩)
    · revert h; decide
    · have h1 := key l h1
      have h2 := key _ h2
      revert h1 h2
      simp only [List.mem_cons, List.not_mem_nil, or_false]
      rintro (rfl | rfl | rfl | rfl | rfl | rfl) <;> decide
  refine ⟨key, hc, fun h => hc ((h (· ∈ a5)).1 ?_)⟩
  rw [assumed_p]
  simp [Var.p, Var.n]

end Verif
