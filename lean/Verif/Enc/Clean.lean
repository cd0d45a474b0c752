import Verif.Enc.CcEncoder
/-
Which variables the clauses of at-least-k constraints are about: those of the constraint and new auxiliary variables.
-/
namespace Verif
open ER

/-- `P` holds for all auxiliary variables of cardinality encodings from `n .cc` on (and for the placeholder). -/
structure NewVars (P : Var → Prop) (n : AuxTy → Nat) : Prop where
  aux : ∀ k, n .cc ≤ k → P (.aux .cc k)
  tmp : P (.aux .tmp 0)

/-- All clauses are about variables with `P`. -/
structure Clean (P : Var → Prop) (n : AuxTy → Nat) (s : ER) : Prop where
  cnt : ∀ t, n t ≤ s.cnt t
  cl : ∀ c ∈ s.clauses, ∀ l ∈ c, P l.v

/-- All literals are about variables with `P`. -/
abbrev LitsP (P : Var → Prop) (ls : List Lit) : Prop := ∀ l ∈ ls, P l.v

variable {P : Var → Prop} {n : AuxTy → Nat} {s : ER}

theorem nth_default {α : Type} [Inhabited α] {l : List α} {i : Nat} (h : ¬ i < l.length) : l.nth i = default := by
  simp [List.nth, List.getD, List.getElem?_eq_none (Nat.le_of_not_lt h)]

theorem NewVars.nthV (hP : NewVars P n) {l : List Var} (h : ∀ v ∈ l, P v) (i : Nat) : P (l.nth i) := by
  by_cases hi : i < l.length
  · exact h _ (getBang_mem hi)
  · rw [nth_default hi]
    exact hP.tmp

theorem NewVars.nth (hP : NewVars P n) {l : List Lit} (h : LitsP P l) (i : Nat) : P (l.nth i).v := by
  by_cases hi : i < l.length
  · exact h _ (getBang_mem hi)
  · rw [nth_default hi]
    exact hP.tmp

theorem Clean.add (h : Clean P n s) {cs : List Clause} (hc : ∀ c ∈ cs, LitsP P c) : Clean P n (s.addClauses cs) where
  cnt := h.cnt
  cl c hc' l hl := by
    rcases List.mem_append.1 hc' with h' | h'
    · exact h.cl c h' l hl
    · exact hc c h' l hl

theorem Clean.newAuxs (hP : NewVars P n) (h : Clean P n s) (k : Nat) : Clean P n (s.newAuxs .cc k).2 ∧ ∀ v ∈ (s.newAuxs .cc k).1, P v := by
  refine ⟨⟨fun t => Nat.le_trans (h.cnt t) ((newAuxs_le .cc k s).1 t), h.cl⟩, fun v hv => ?_⟩
  simp only [ER.newAuxs, List.mem_map, List.mem_range] at hv
  obtain ⟨i, _, rfl⟩ := hv
  exact hP.aux _ (Nat.le_trans (h.cnt .cc) (Nat.le_add_right _ _))

theorem Clean.newLits (hP : NewVars P n) (h : Clean P n s) (k : Nat) : Clean P n (newLits k s).2 ∧ LitsP P (newLits k s).1 := by
  obtain ⟨h1, h2⟩ := h.newAuxs hP k
  refine ⟨h1, fun l hl => ?_⟩
  obtain ⟨v, hv, rfl⟩ := List.mem_map.1 hl
  exact h2 v hv

/-! ### Totalizer -/

theorem adderAlk_clean (hP : NewVars P n) {L R O : List Var} (hL : ∀ v ∈ L, P v) (hR : ∀ v ∈ R, P v) (hO : ∀ v ∈ O, P v) : ∀ c ∈ adderAlk L R O, LitsP P c := by
  intro c hc l hl
  unfold adderAlk at hc
  simp only [List.mem_flatMap] at hc
  obtain ⟨i, _, j, _, hc⟩ := hc
  have h1 := hP.nthV hL
  have h2 := hP.nthV hR
  have h3 := hP.nthV hO
  split at hc
  · cases hc
  · split at hc
    · simp only [List.mem_singleton] at hc; subst hc
      simp only [List.mem_cons, List.not_mem_nil, or_false] at hl
      rcases hl with rfl | rfl
      exacts [h2 _, h3 _]
    · split at hc <;> simp only [List.mem_singleton] at hc <;> subst hc <;> simp only [List.mem_cons, List.not_mem_nil, or_false] at hl
      · rcases hl with rfl | rfl
        exacts [h1 _, h3 _]
      · rcases hl with rfl | rfl | rfl
        exacts [h1 _, h2 _, h3 _]

theorem popOrNew_clean (hP : NewVars P n) {k : Nat} {st : List Var} (h : Clean P n s) (hst : ∀ v ∈ st, P v) :
    (∀ v ∈ (popOrNew k st s).1, P v) ∧ (∀ v ∈ (popOrNew k st s).2.1, P v) ∧ Clean P n (popOrNew k st s).2.2 := by
  unfold popOrNew
  split
  · exact ⟨fun v hv => hst v (List.mem_of_mem_take hv), fun v hv => hst v (List.mem_of_mem_drop hv), h⟩
  · exact ⟨(h.newAuxs hP k).2, hst, (h.newAuxs hP k).1⟩

theorem totCnf_clean (hP : NewVars P n) (rhs fuel : Nat) : ∀ {st O : List Var} {s : ER}, Clean P n s → (∀ v ∈ st, P v) → (∀ v ∈ O, P v) →
    (∀ v ∈ (totCnf rhs .lower fuel st O s).1, P v) ∧ Clean P n (totCnf rhs .lower fuel st O s).2 := by
  induction fuel with
  | zero => intro st O s h hst _; exact ⟨hst, h⟩
  | succ fuel ih =>
    intro st O s h hst hO
    unfold totCnf
    obtain ⟨hL, hst1, h1⟩ := popOrNew_clean hP (k := O.length / 2) h hst
    rcases e1 : popOrNew (O.length / 2) st s with ⟨L, st1, s1⟩
    rw [e1] at hL hst1 h1
    simp only at hL hst1 h1
    simp only [e1]
    obtain ⟨hR, hst2, h2⟩ := popOrNew_clean hP (k := O.length - O.length / 2) h1 hst1
    rcases e2 : popOrNew (O.length - O.length / 2) st1 s1 with ⟨R, st2, s2⟩
    rw [e2] at hR hst2 h2
    simp only at hR hst2 h2
    simp only [e2]
    have c1 : ¬ (TBound.lower = .upper ∨ TBound.lower = .both) := by decide
    simp only [if_neg c1, true_or, if_true]
    have h3 := h2.add (adderAlk_clean hP hL hR hO)
    have h4 : (∀ v ∈ (if L.length > 1 then totCnf rhs .lower fuel st2 L (s2.addClauses (adderAlk L R O)) else (st2, s2.addClauses (adderAlk L R O))).1, P v) ∧
        Clean P n (if L.length > 1 then totCnf rhs .lower fuel st2 L (s2.addClauses (adderAlk L R O)) else (st2, s2.addClauses (adderAlk L R O))).2 := by
      split
      · exact ih h3 hst2 hL
      · exact ⟨hst2, h3⟩
    rcases e3 : (if L.length > 1 then totCnf rhs .lower fuel st2 L (s2.addClauses (adderAlk L R O)) else (st2, s2.addClauses (adderAlk L R O))) with ⟨st3, s3⟩
    rw [e3] at h4
    simp only at h4
    simp only [e3]
    split
    · exact ih h4.2 h4.1 hR
    · exact h4

theorem totAlk_clean (hP : NewVars P n) {vars : List Var} {rhs : Nat} (h : Clean P n s) (hv : ∀ v ∈ vars, P v) :
    (∀ v ∈ (totAlk vars rhs s).1, P v) ∧ Clean P n (totAlk vars rhs s).2 := by
  unfold totAlk totBuild
  obtain ⟨h1, hO⟩ := h.newAuxs hP vars.length
  have h2 := totCnf_clean hP rhs (s.newAuxs .cc vars.length).1.length h1 (st := vars.reverse) (fun v hm => hv v (List.mem_reverse.1 hm)) hO
  refine ⟨hO, Clean.add h2.2 fun c hc l hl => ?_⟩
  obtain ⟨o, ho, rfl⟩ := List.mem_map.1 hc
  rw [List.mem_singleton.1 hl]
  exact hO o (List.mem_of_mem_take ho)

/-! ### Modular totalizer -/

theorem orH0_clean (hP : NewVars P n) {u : List Lit} (h : LitsP P u) : LitsP P (orH0 u) := by
  unfold orH0
  split
  · intro l hl
    rw [List.mem_singleton.1 hl]
    exact hP.tmp
  · exact h

theorem modSide_clean (hP : NewVars P n) {md k : Nat} {st : List Lit} (h : Clean P n s) (hst : LitsP P st) {u w st' : List Lit} {s' : ER}
    (e : modSide md k st s = some (u, w, st', s')) : LitsP P u ∧ LitsP P w ∧ LitsP P st' ∧ Clean P n s' := by
  unfold modSide at e
  split at e
  · split at e
    · cases e
    · cases e
      refine ⟨fun l hl => ?_, fun l hl => ?_, fun l hl => hst l (List.mem_cons_of_mem _ hl), h⟩
      · rw [List.mem_singleton.1 hl]; exact hP.tmp
      · rw [List.mem_singleton.1 hl]; exact hst _ (List.mem_cons_self)
  · simp only [Option.some.injEq, Prod.mk.injEq] at e
    obtain ⟨rfl, rfl, rfl, rfl⟩ := e
    obtain ⟨h1, h2⟩ := h.newLits hP (k / md)
    obtain ⟨h3, h4⟩ := h1.newLits hP (if k / md % md = 0 ∧ k < md - 1 then k else md - 1)
    exact ⟨h2, h4, hst, h3⟩

theorem lowAll_clean (hP : NewVars P n) {md crhs : Nat} {W LL RL : List Lit} {carry : Option Lit} (hW : LitsP P W) (hL : LitsP P LL) (hR : LitsP P RL)
    (hc : LitsP P carry.toList) : ∀ c ∈ lowAll md W LL RL carry crhs, LitsP P c := by
  intro c hm l hl
  unfold lowAll lowPair at hm
  simp only [List.mem_flatMap] at hm
  obtain ⟨i, _, j, _, hm⟩ := hm
  have h1 := hP.nth hL
  have h2 := hP.nth hR
  have h3 := hP.nth hW
  repeat' split at hm
  all_goals simp only [List.mem_singleton, List.not_mem_nil] at hm
  all_goals subst hm
  all_goals simp only [List.mem_append, List.mem_cons, List.not_mem_nil, or_false] at hl
  · rcases hl with (rfl | rfl) | hl
    exacts [h2 _, h3 _, hc _ hl]
  · rcases hl with (rfl | rfl) | hl
    exacts [h1 _, h3 _, hc _ hl]
  · rcases hl with (rfl | rfl | rfl) | hl
    exacts [h1 _, h2 _, h3 _, hc _ hl]
  · rcases hl with rfl | rfl | rfl
    exacts [h1 _, h2 _, h3 _]
  · rcases hl with (rfl | rfl) | hl
    exacts [h1 _, h2 _, hc _ hl]

theorem finalAll_clean (hP : NewVars P n) {md crhs : Nat} {U LU RU : List Lit} {carry : Lit} (hU : LitsP P U) (hL : LitsP P LU) (hR : LitsP P RU)
    (hc : P carry.v) : ∀ c ∈ finalAll md U LU RU carry crhs, LitsP P c := by
  intro c hm
  unfold finalAll finalPair at hm
  simp only [List.mem_flatMap] at hm
  obtain ⟨i, _, j, _, hm⟩ := hm
  generalize (crhs / md + if crhs % md = 0 then 0 else 1) = cm at hm
  split at hm
  · cases hm
  · have key : ∀ (b : Prop) [Decidable b] (x : Lit), P x.v → LitsP P (present (if b then none else some x)).toList := by
      intro b _ x hx l hl
      unfold present at hl
      split at hl
      · simp at hl
      · rw [Option.mem_toList] at hl
        obtain ⟨hl, _⟩ := Option.filter_eq_some_iff.1 hl
        cases hl; exact hx
    have key' : ∀ (b : Prop) [Decidable b] (x : Lit), P x.v → LitsP P (present (if b then some x else none)).toList := by
      intro b _ x hx l hl
      unfold present at hl
      split at hl
      · rw [Option.mem_toList] at hl
        obtain ⟨hl, _⟩ := Option.filter_eq_some_iff.1 hl
        cases hl; exact hx
      · simp at hl
    have ha := key (i = 0) (LU.nth (i - 1)) (hP.nth hL _)
    have hb := key (j = 0) (RU.nth (j - 1)) (hP.nth hR _)
    have hc' := key' (i + j ≠ 0 ∧ i + j - 1 < U.length) (U.nth (i + j - 1)) (hP.nth hU _)
    have hd := key' (i + j < U.length) (U.nth (i + j)) (hP.nth hU _)
    generalize present (if i = 0 then none else some (LU.nth (i - 1))) = a at *
    generalize present (if j = 0 then none else some (RU.nth (j - 1))) = b at *
    generalize present (if i + j ≠ 0 ∧ i + j - 1 < U.length then some (U.nth (i + j - 1)) else none) = c1 at *
    generalize present (if i + j < U.length then some (U.nth (i + j)) else none) = d at *
    have hneg : ∀ x : Option Lit, LitsP P x.toList → LitsP P (x.toList.map Lit.neg) := by
      intro x hx l hl
      obtain ⟨y, hy, rfl⟩ := List.mem_map.1 hl
      exact hx y hy
    have ha' := hneg a ha
    have hb' := hneg b hb
    unfold finalClauses at hm
    rcases List.mem_append.1 hm with hm | hm
    · split at hm
      · rw [List.mem_singleton.1 hm]
        intro l hl
        simp only [List.mem_append] at hl
        rcases hl with (hl | hl) | hl
        exacts [ha' l hl, hb' l hl, hc' l hl]
      · cases hm
    · split at hm
      · rw [List.mem_singleton.1 hm]
        intro l hl
        simp only [List.mem_cons, List.mem_append] at hl
        rcases hl with rfl | (hl | hl) | hl
        exacts [hc, ha' l hl, hb' l hl, hd l hl]
      · cases hm

theorem modAdder_clean (hP : NewVars P n) {md crhs : Nat} {U W LU LL RU RL : List Lit} {s' : ER} (h : Clean P n s) (hU : LitsP P U) (hW : LitsP P W) (hLU : LitsP P LU)
    (hLL : LitsP P LL) (hRU : LitsP P RU) (hRL : LitsP P RL) (e : modAdder md U W LU LL RU RL crhs s = some s') : Clean P n s' := by
  unfold modAdder at e
  split at e
  · cases e
  · split at e
    · split at e
      · cases e
      · cases e
        exact h.add (lowAll_clean hP hW hLL hRL (by intro l hl; cases hl))
    · obtain ⟨h1, h2⟩ := h.newLits hP 1
      simp only at e
      split at e
      · cases e
      · cases e
        refine (h1.add (lowAll_clean hP hW hLL hRL ?_)).add (finalAll_clean hP hU hLU hRU (hP.nth h2 0))
        intro l hl
        simp only [Option.toList_some, List.mem_singleton] at hl
        rw [hl]; exact hP.nth h2 0

theorem modCnf_clean (hP : NewVars P n) (md crhs fuel : Nat) : ∀ {U W st st' : List Lit} {k : Nat} {s s' : ER}, Clean P n s → LitsP P U → LitsP P W → LitsP P st →
    modCnf md crhs fuel U W k st s = some (st', s') → LitsP P st' ∧ Clean P n s' := by
  induction fuel with
  | zero => intro U W st st' k s s' _ _ _ _ e; cases e
  | succ fuel ih =>
    intro U W st st' k s s' h hU hW hst e
    unfold modCnf at e
    split at e
    · cases e
    · obtain ⟨⟨lu, ll, st1, s1⟩, e1, e⟩ := Option.bind_eq_some_iff.1 e
      obtain ⟨hlu, hll, hst1, h1⟩ := modSide_clean hP h hst e1
      obtain ⟨⟨ru, rl, st2, s2⟩, e2, e⟩ := Option.bind_eq_some_iff.1 e
      obtain ⟨hru, hrl, hst2, h2⟩ := modSide_clean hP h1 hst1 e2
      obtain ⟨s3, e3, e⟩ := Option.bind_eq_some_iff.1 e
      have h3 := modAdder_clean hP h2 hU hW (orH0_clean hP hru) hrl (orH0_clean hP hlu) hll e3
      obtain ⟨⟨st4, s4⟩, e4, e⟩ := Option.bind_eq_some_iff.1 e
      have h4 : LitsP P st4 ∧ Clean P n s4 := by
        split at e4
        · exact ih h3 (orH0_clean hP hlu) hll hst2 e4
        · cases e4; exact ⟨hst2, h3⟩
      simp only at e
      split at e
      · exact ih h4.2 (orH0_clean hP hru) hrl h4.1 e
      · cases e; exact h4

theorem modBound_clean (hP : NewVars P n) {rhs md : Nat} {U W : List Lit} (hU : LitsP P U) (hW : LitsP P W) : ∀ c ∈ modBound rhs md U W, LitsP P c := by
  intro c hc l hl
  have h1 := hP.nth hU
  unfold modBound at hc
  rcases List.mem_append.1 hc with hc | hc
  · obtain ⟨x, hx, rfl⟩ := List.mem_map.1 hc
    rw [List.mem_singleton.1 hl]
    exact hU x (List.mem_of_mem_drop hx)
  · split at hc
    · obtain ⟨x, hx, rfl⟩ := List.mem_map.1 hc
      simp only [List.mem_cons, List.not_mem_nil, or_false] at hl
      rcases hl with rfl | rfl
      exacts [h1 _, hW x (List.mem_of_mem_drop hx)]
    · split at hc
      · obtain ⟨x, hx, rfl⟩ := List.mem_map.1 hc
        rw [List.mem_singleton.1 hl]
        exact hW x (List.mem_of_mem_drop hx)
      · rw [List.mem_singleton.1 hc] at hl
        rw [List.mem_singleton.1 hl]
        exact h1 _

theorem modBuild_clean (hP : NewVars P n) {ins : List Lit} {rhs : Nat} {U W : List Lit} {md : Nat} {s' : ER} (h : Clean P n s) (hi : LitsP P ins)
    (e : modBuild ins rhs s = some ((U, W, md), s')) : LitsP P U ∧ LitsP P W ∧ Clean P n s' := by
  unfold modBuild at e
  obtain ⟨h1, h2⟩ := h.newLits hP (ins.length / ceilSqrt (rhs + 1))
  obtain ⟨h3, h4⟩ := h1.newLits hP (ceilSqrt (rhs + 1) - 1)
  obtain ⟨⟨st, s2⟩, e1, e⟩ := Option.bind_eq_some_iff.1 e
  obtain ⟨_, h5⟩ := modCnf_clean hP _ _ _ h3 (orH0_clean hP h2) h4 (st := ins.reverse) (fun l hl => hi l (List.mem_reverse.1 hl)) e1
  simp only at e
  split at e
  · cases e
  · cases e
    exact ⟨orH0_clean hP h2, h4, h5.add (modBound_clean hP (orH0_clean hP h2) h4)⟩

/-! ### Cardinality networks -/

theorem comp1_clean {x1 x2 y : Lit} {d : Dir} {cs : List Clause} (h1 : P x1.v) (h2 : P x2.v) (hy : P y.v) (e : comp1 x1 x2 y d = some cs) : ∀ c ∈ cs, LitsP P c := by
  unfold comp1 at e
  split at e
  · cases e
  · cases e
    intro c hc l hl
    rcases List.mem_append.1 hc with hc | hc <;> split at hc <;> simp only [List.mem_cons, List.not_mem_nil, or_false] at hc
    · rcases hc with rfl | rfl <;> simp only [List.mem_cons, List.not_mem_nil, or_false] at hl <;> rcases hl with rfl | rfl <;> assumption
    · subst hc; simp only [List.mem_cons, List.not_mem_nil, or_false] at hl; rcases hl with rfl | rfl | rfl <;> assumption

theorem comp2_clean {x1 x2 y1 y2 : Lit} {d : Dir} {cs : List Clause} (h1 : P x1.v) (h2 : P x2.v) (hy : P y1.v) (hy2 : P y2.v) (e : comp2 x1 x2 y1 y2 d = some cs) :
    ∀ c ∈ cs, LitsP P c := by
  unfold comp2 at e
  split at e
  · cases e
  · cases e
    intro c hc l hl
    rcases List.mem_append.1 hc with hc | hc <;> split at hc <;> simp only [List.mem_cons, List.not_mem_nil, or_false] at hc <;>
      rcases hc with rfl | rfl | rfl <;> simp only [List.mem_cons, List.not_mem_nil, or_false] at hl
    · rcases hl with rfl | rfl <;> assumption
    · rcases hl with rfl | rfl <;> assumption
    · rcases hl with rfl | rfl | rfl <;> assumption
    · rcases hl with rfl | rfl | rfl <;> assumption
    · rcases hl with rfl | rfl <;> assumption
    · rcases hl with rfl | rfl <;> assumption

theorem directMerger_clean (hP : NewVars P n) {m : Nat} {a b : List Lit} (h : Clean P n s) (ha : LitsP P a) (hb : LitsP P b) :
    LitsP P (directMerger m a b s).1 ∧ Clean P n (directMerger m a b s).2 := by
  unfold directMerger
  obtain ⟨h1, h2⟩ := h.newLits hP m
  have n1 := hP.nth ha
  have n2 := hP.nth hb
  have n3 := hP.nth h2
  refine ⟨h2, Clean.add h1 fun c hc l hl => ?_⟩
  simp only [List.mem_append, List.mem_map, List.mem_flatMap] at hc
  rcases hc with (⟨i, _, rfl⟩ | ⟨i, _, rfl⟩) | ⟨i, _, j, _, hc⟩
  · simp only [List.mem_cons, List.not_mem_nil, or_false] at hl
    rcases hl with rfl | rfl
    exacts [n1 _, n3 _]
  · simp only [List.mem_cons, List.not_mem_nil, or_false] at hl
    rcases hl with rfl | rfl
    exacts [n2 _, n3 _]
  · split at hc
    · rw [List.mem_singleton.1 hc] at hl
      simp only [List.mem_cons, List.not_mem_nil, or_false] at hl
      rcases hl with rfl | rfl | rfl
      exacts [n1 _, n2 _, n3 _]
    · cases hc

theorem litsP_append {a b : List Lit} (ha : LitsP P a) (hb : LitsP P b) : LitsP P (a ++ b) := fun l hl => (List.mem_append.1 hl).elim (ha l) (hb l)
theorem litsP_one {a : Lit} (ha : P a.v) : LitsP P [a] := fun l hl => by rw [List.mem_singleton.1 hl]; exact ha
theorem litsP_two {a b : Lit} (ha : P a.v) (hb : P b.v) : LitsP P [a, b] := litsP_append (a := [a]) (litsP_one ha) (litsP_one hb)

theorem mergeLoop_clean (hP : NewVars P n) {c : Nat} {odd even : List Lit} {d : Dir} (ho : LitsP P odd) (he : LitsP P even) (fuel : Nat) : ∀ {i : Nat} {out out' : List Lit} {s s' : ER},
    Clean P n s → LitsP P out → mergeLoop c odd even d fuel i out s = some (out', s') → LitsP P out' ∧ Clean P n s' := by
  induction fuel with
  | zero => intro i out out' s s' _ _ e; cases e
  | succ fuel ih =>
    intro i out out' s s' h hout e
    unfold mergeLoop at e
    have n1 := hP.nth ho
    have n2 := hP.nth he
    split at e
    · split at e
      · obtain ⟨h1, h2⟩ := h.newLits hP 2
        have n3 := hP.nth h2
        obtain ⟨cs, ec, e⟩ := Option.bind_eq_some_iff.1 e
        have h3 := h1.add (comp2_clean (n1 _) (n2 _) (n3 _) (n3 _) ec)
        have h4 := litsP_append hout (litsP_two (n3 0) (n3 1))
        split at e
        · cases e; exact ⟨h4, h3⟩
        · exact ih h3 h4 e
      · split at e
        · obtain ⟨h1, h2⟩ := h.newLits hP 1
          have n3 := hP.nth h2
          obtain ⟨cs, ec, e⟩ := Option.bind_eq_some_iff.1 e
          cases e
          exact ⟨litsP_append hout (litsP_one (n3 0)), h1.add (comp1_clean (n1 _) (n2 _) (n3 _) ec)⟩
        · exact ih h hout e
    · split at e
      · cases e; exact ⟨hout, h⟩
      · split at e
        · exact ih h (litsP_append hout (litsP_one (n2 _))) e
        · exact ih h (litsP_append hout (litsP_one (n1 _))) e

theorem oddsOf_clean (hP : NewVars P n) {k : Nat} {l : List Lit} (h : LitsP P l) : LitsP P (oddsOf k l) := by
  intro x hx
  obtain ⟨i, _, rfl⟩ := List.mem_map.1 hx
  exact hP.nth h _

theorem evensOf_clean (hP : NewVars P n) {k : Nat} {l : List Lit} (h : LitsP P l) : LitsP P (evensOf k l) := by
  intro x hx
  obtain ⟨i, _, rfl⟩ := List.mem_map.1 hx
  exact hP.nth h _

theorem ccMerge_clean (hP : NewVars P n) (fuel : Nat) : ∀ {m : Nat} {a b out : List Lit} {d : Dir} {s s' : ER}, Clean P n s → LitsP P a → LitsP P b →
    ccMerge fuel m a b d s = some (out, s') → LitsP P out ∧ Clean P n s' := by
  induction fuel with
  | zero => intro m a b out d s s' _ _ _ e; cases e
  | succ fuel ih =>
    intro m a b out d s s' h ha hb e
    unfold ccMerge at e
    have n1 := hP.nth ha
    have n2 := hP.nth hb
    split at e
    · cases e; exact ⟨(by intro l hl; cases hl), h⟩
    · split at e
      · cases e; exact ⟨hb, h⟩
      · split at e
        · cases e; exact ⟨ha, h⟩
        · simp only at e
          split at e
          · have := directMerger_clean hP (m := min m (a.length + b.length)) h ha hb
            rw [Option.some.inj e] at this
            exact this
          · obtain ⟨⟨o, s1⟩, e1, e⟩ := Option.bind_eq_some_iff.1 e
            have key : LitsP P o ∧ Clean P n s1 := by
              split at e1
              · obtain ⟨h1, h2⟩ := h.newLits hP 1
                have n3 := hP.nth h2
                obtain ⟨cs, ec, e1⟩ := Option.bind_eq_some_iff.1 e1
                cases e1
                exact ⟨litsP_one (n3 0), h1.add (comp1_clean (n1 _) (n2 _) (n3 _) ec)⟩
              · split at e1
                · split at e1
                  · cases e1
                  · obtain ⟨h1, h2⟩ := h.newLits hP 2
                    have n3 := hP.nth h2
                    obtain ⟨cs, ec, e1⟩ := Option.bind_eq_some_iff.1 e1
                    cases e1
                    exact ⟨litsP_two (n3 0) (n3 1), h1.add (comp2_clean (n1 _) (n2 _) (n3 _) (n3 _) ec)⟩
                · obtain ⟨⟨od, s2⟩, e2, e1⟩ := Option.bind_eq_some_iff.1 e1
                  obtain ⟨g1, g2⟩ := ih h (oddsOf_clean hP ha) (oddsOf_clean hP hb) e2
                  obtain ⟨⟨ev, s3⟩, e3, e1⟩ := Option.bind_eq_some_iff.1 e1
                  obtain ⟨g3, g4⟩ := ih g2 (evensOf_clean hP ha) (evensOf_clean hP hb) e3
                  exact mergeLoop_clean hP g1 g3 _ g4 (litsP_one (hP.nth g1 0)) e1
            simp only at e
            split at e
            · cases e; exact key
            · cases e

theorem allocCols_clean (hP : NewVars P n) : ∀ (sizes : List Nat) {s : ER}, Clean P n s → (∀ c ∈ (allocCols sizes s).1, LitsP P c) ∧ Clean P n (allocCols sizes s).2
  | [], s, h => ⟨(by intro c hc; cases hc), h⟩
  | k :: ks, s, h => by
    obtain ⟨h1, h2⟩ := h.newLits hP k
    obtain ⟨h3, h4⟩ := allocCols_clean hP ks h1
    unfold allocCols
    refine ⟨fun c hc => ?_, h4⟩
    rcases List.mem_cons.1 hc with rfl | hc
    · exact h2
    · exact h3 c hc

theorem counterSorter_clean (hP : NewVars P n) {k : Nat} {x : List Lit} (h : Clean P n s) (hx : LitsP P x) :
    LitsP P (counterSorter k x s).1 ∧ Clean P n (counterSorter k x s).2 := by
  unfold counterSorter
  obtain ⟨h1, h2⟩ := allocCols_clean hP ((List.range k).map fun j => x.length - j) h
  rcases e1 : allocCols ((List.range k).map fun j => x.length - j) s with ⟨cols, s1⟩
  rw [e1] at h1 h2
  simp only at h1 h2
  simp only [e1]
  have n1 := hP.nth hx
  have n2 : ∀ i j, P ((cols.nth j).nth (i - j)).v := by
    intro i j
    refine hP.nth ?_ _
    by_cases hj : j < cols.length
    · exact h1 _ (getBang_mem hj)
    · rw [nth_default hj]
      intro l hl; cases hl
  refine ⟨fun l hl => ?_, h2.add fun c hc l hl => ?_⟩
  · obtain ⟨j, _, rfl⟩ := List.mem_map.1 hl
    exact n2 _ _
  · simp only [List.mem_append, List.mem_flatMap] at hc
    rcases hc with ⟨i, _, hc | hc⟩ | ⟨j, _, i, _, hc | hc⟩
    · rw [List.mem_singleton.1 hc] at hl
      simp only [List.mem_cons, List.not_mem_nil, or_false] at hl
      rcases hl with rfl | rfl
      exacts [n1 _, n2 i 0]
    · split at hc
      · rw [List.mem_singleton.1 hc] at hl
        simp only [List.mem_cons, List.not_mem_nil, or_false] at hl
        rcases hl with rfl | rfl
        exacts [n2 (i - 1) 0, n2 i 0]
      · cases hc
    · rw [List.mem_singleton.1 hc] at hl
      simp only [List.mem_cons, List.not_mem_nil, or_false] at hl
      rcases hl with rfl | rfl | rfl
      exacts [n1 _, n2 _ _, n2 _ _]
    · split at hc
      · rw [List.mem_singleton.1 hc] at hl
        simp only [List.mem_cons, List.not_mem_nil, or_false] at hl
        rcases hl with rfl | rfl
        exacts [n2 _ _, n2 _ _]
      · cases hc

theorem directSorter_clean (hP : NewVars P n) {m : Nat} {x out : List Lit} {s' : ER} (h : Clean P n s) (hx : LitsP P x) (e : directSorter m x s = some (out, s')) :
    LitsP P out ∧ Clean P n s' := by
  unfold directSorter at e
  split at e
  · cases e
  · obtain ⟨h1, h2⟩ := h.newLits hP m
    cases e
    refine ⟨h2, h1.add fun c hc l hl => ?_⟩
    simp only [List.mem_flatMap] at hc
    obtain ⟨mask, _, hc⟩ := hc
    split at hc
    · rw [List.mem_singleton.1 hc] at hl
      rcases List.mem_append.1 hl with hl | hl
      · obtain ⟨y, hy, rfl⟩ := List.mem_map.1 hl
        unfold maskSel at hy
        obtain ⟨i, _, rfl⟩ := List.mem_map.1 hy
        exact hP.nth hx _
      · rw [List.mem_singleton.1 hl]
        exact hP.nth h2 _
    · cases hc

theorem ccSort_clean (hP : NewVars P n) (fuel : Nat) : ∀ {m : Nat} {x out : List Lit} {d : Dir} {s s' : ER}, Clean P n s → LitsP P x →
    ccSort fuel m x d s = some (out, s') → LitsP P out ∧ Clean P n s' := by
  induction fuel with
  | zero => intro m x out d s s' _ _ e; cases e
  | succ fuel ih =>
    intro m x out d s s' h hx e
    unfold ccSort at e
    have n1 := hP.nth hx
    simp only at e
    split at e
    · cases e; exact ⟨(by intro l hl; cases hl), h⟩
    · split at e
      · cases e; exact ⟨hx, h⟩
      · split at e
        · split at e
          · obtain ⟨h1, h2⟩ := h.newLits hP 2
            have n3 := hP.nth h2
            obtain ⟨cs, ec, e⟩ := Option.bind_eq_some_iff.1 e
            cases e
            exact ⟨litsP_two (n3 0) (n3 1), h1.add (comp2_clean (n1 _) (n1 _) (n3 _) (n3 _) ec)⟩
          · obtain ⟨h1, h2⟩ := h.newLits hP 1
            have n3 := hP.nth h2
            obtain ⟨cs, ec, e⟩ := Option.bind_eq_some_iff.1 e
            cases e
            exact ⟨litsP_one (n3 0), h1.add (comp1_clean (n1 _) (n1 _) (n3 _) ec)⟩
        · split at e
          · obtain ⟨⟨o1, s1⟩, e1, e⟩ := Option.bind_eq_some_iff.1 e
            obtain ⟨g1, g2⟩ := ih h (fun l hl => hx l (List.mem_of_mem_take hl)) e1
            obtain ⟨⟨o2, s2⟩, e2, e⟩ := Option.bind_eq_some_iff.1 e
            obtain ⟨g3, g4⟩ := ih g2 (fun l hl => hx l (List.mem_of_mem_drop hl)) e2
            simp only at e
            split at e
            · exact ccMerge_clean hP _ g4 g1 g3 e
            · cases e
          · split at e
            · cases e
            · split at e
              · have := counterSorter_clean hP (k := min m x.length) h hx
                rw [Option.some.inj e] at this
                exact this
              · exact directSorter_clean hP h hx e

/-! ### At-least-k constraints -/

/-- The literals kept for later bounds. -/
def IncData.LitsP (P : Var → Prop) (d : IncData) : Prop := Verif.LitsP P d.v1 ∧ Verif.LitsP P (d.v2.getD [])

theorem bind_ok {α β : Type} {x : Out α} {f : α → Out β} {b : β} (h : x.bind f = .ok b) : ∃ a, x = .ok a ∧ f a = .ok b := by
  cases x with
  | ok a => exact ⟨a, rfl, h⟩
  | panic => cases h
  | diverge => cases h

theorem ofOption_ok {α : Type} {x : Option α} {a : α} (h : Out.ofOption x = .ok a) : x = some a := by
  cases x with
  | none => cases h
  | some b => cases h; rfl

theorem getU_ok {l : List Lit} {i : Nat} {x : Lit} (h : getU l i = .ok x) : x = l.nth i := by
  unfold getU at h
  split at h
  · cases h; rfl
  · cases h

theorem cnAlk_clean (hP : NewVars P n) {vars : List Var} {rhs : Nat} {inc : Bool} {d : Option IncData} {s' : ER} (h : Clean P n s) (hv : ∀ v ∈ vars, P v)
    (e : cnAlk vars rhs inc s = .ok (d, s')) : Clean P n s' ∧ ∀ x ∈ d, x.LitsP P := by
  have hp : LitsP P (vars.map Var.p) := fun l hl => by obtain ⟨v, hv', rfl⟩ := List.mem_map.1 hl; exact hv v hv'
  have hn : LitsP P (vars.map Var.n) := fun l hl => by obtain ⟨v, hv', rfl⟩ := List.mem_map.1 hl; exact hv v hv'
  unfold cnAlk at e
  simp only at e
  split at e
  · obtain ⟨⟨out, s1⟩, e1, e⟩ := bind_ok e
    obtain ⟨g1, g2⟩ := ccSort_clean hP _ h hn (ofOption_ok e1)
    obtain ⟨o, e2, e⟩ := bind_ok e
    cases e
    rw [getU_ok e2]
    refine ⟨g2.add fun c hc => ?_, ?_⟩
    · rw [List.mem_singleton.1 hc]
      exact litsP_one (hP.nth g1 _)
    · rintro x ⟨⟩
      exact ⟨g1, fun l hl => by cases hl⟩
  · split at e
    · obtain ⟨⟨out, s1⟩, e1, e⟩ := bind_ok e
      obtain ⟨g1, g2⟩ := ccSort_clean hP _ h hp (ofOption_ok e1)
      cases e
      refine ⟨g2.add fun c hc => ?_, fun x hx => by cases hx⟩
      obtain ⟨o, ho, rfl⟩ := List.mem_map.1 hc
      exact litsP_one (g1 o (List.mem_of_mem_take ho))
    · obtain ⟨⟨out, s1⟩, e1, e⟩ := bind_ok e
      obtain ⟨g1, g2⟩ := ccSort_clean hP _ h hn (ofOption_ok e1)
      obtain ⟨o, e2, e⟩ := bind_ok e
      cases e
      rw [getU_ok e2]
      refine ⟨g2.add fun c hc => ?_, fun x hx => by cases hx⟩
      rw [List.mem_singleton.1 hc]
      exact litsP_one (hP.nth g1 _)

theorem ccAlk_clean (hP : NewVars P n) {cfg : AmkEnc} {vars : List Var} {rhs : Nat} {inc : Bool} {d : Option IncData} {s' : ER} (h : Clean P n s) (hv : ∀ v ∈ vars, P v)
    (e : ccAlk cfg vars rhs inc s = .ok (d, s')) : Clean P n s' ∧ ∀ x ∈ d, x.LitsP P := by
  have hp : LitsP P (vars.map Var.p) := fun l hl => by obtain ⟨v, hv', rfl⟩ := List.mem_map.1 hl; exact hv v hv'
  have hn : LitsP P (vars.map Var.n) := fun l hl => by obtain ⟨v, hv', rfl⟩ := List.mem_map.1 hl; exact hv v hv'
  have hmod : ∀ {d s'}, ((Out.ofOption (modAlk vars rhs s)).bind fun ((U, W, md), s) =>
      Out.ok (if inc then some (⟨none, some .modular, U, some W, md, vars.length, rhs⟩ : IncData) else none, s)) = .ok (d, s') →
      Clean P n s' ∧ ∀ x ∈ d, x.LitsP P := by
    intro d s' e
    obtain ⟨⟨⟨U, W, md⟩, s1⟩, e1, e⟩ := bind_ok e
    obtain ⟨g1, g2, g3⟩ := modBuild_clean hP h hn (ofOption_ok e1)
    cases e
    refine ⟨g3, fun x hx => ?_⟩
    split at hx
    · cases hx; exact ⟨g1, g2⟩
    · cases hx
  unfold ccAlk at e
  split at e
  · cases e
    exact ⟨h.add (fun c hc => by rw [List.mem_singleton.1 hc]; intro l hl; cases hl), fun x hx => by cases hx⟩
  · split at e
    · cases e
      exact ⟨h, fun x hx => by cases hx⟩
    · split at e
      · cases e
        exact ⟨h.add (fun c hc => by rw [List.mem_singleton.1 hc]; exact hp), fun x hx => by cases hx⟩
      · split at e
        · cases e
          refine ⟨h.add fun c hc => ?_, fun x hx => by cases hx⟩
          obtain ⟨v, hv', rfl⟩ := List.mem_map.1 hc
          exact litsP_one (hv v hv')
        · split at e
          · obtain ⟨g1, g2⟩ := totAlk_clean hP (rhs := rhs) h hv
            generalize totAlk vars rhs s = r at *
            obtain ⟨O, s1⟩ := r
            cases e
            refine ⟨g2, fun x hx => ?_⟩
            split at hx
            · cases hx
              refine ⟨fun l hl => ?_, fun l hl => by cases hl⟩
              obtain ⟨v, hv', rfl⟩ := List.mem_map.1 hl
              exact g1 v hv'
            · cases hx
          · exact hmod e
          · exact hmod e
          · exact cnAlk_clean hP h hv e

theorem lbClauses_clean (hP : NewVars P n) {d : IncData} (h : d.LitsP P) (r : Nat) : ∀ c ∈ lbClauses d r, LitsP P c := by
  intro c hc
  unfold lbClauses at hc
  split at hc
  · obtain ⟨l, hl, rfl⟩ := List.mem_map.1 hc
    exact litsP_one (h.1 l (List.mem_of_mem_take hl))
  · exact modBound_clean hP h.1 h.2 c hc
  · split at hc
    · rw [List.mem_singleton.1 hc]
      exact litsP_one (hP.nth h.1 _)
    · cases hc

end Verif
