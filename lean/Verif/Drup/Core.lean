import Verif.Drup.Parse
import Verif.F.Cons
import Verif.F.Norm
/-
Unsatisfiable cores from the proof of the solver (solver/functions/unsat_core_function.rs).
-/
namespace Verif.Drup

/-- `Proposition`, propositions/proposition.rs:11-16 -/
structure Prp (B : Type) where
  formula : Formula
  backpack : Option B
  deriving DecidableEq

/-- `ProofInformation`, solver/sat/minisat2.rs: a clause as it was added, with its proposition -/
structure Info (B : Type) where
  clause : List Int
  prop : Option (Prp B)

/-- One literal of `get_formula_for_vector`, unsat_core_function.rs:75-78; `name` is `idx2name`, `none` is the panic if the variable has no name. -/
def litOf (name : Nat → Option Var) (x : Int) : Option Lit := (name (x.natAbs - 1)).map fun v => ⟨v, decide (0 < x)⟩

/-- `get_formula_for_vector`, unsat_core_function.rs:73-81 -/
def vecFormula (K : Canon) (name : Nat → Option Var) (c : List Int) : Option Formula := (c.mapM (litOf name)).map (Formula.mkClause K)

variable {B : Type}

/-- The proposition of a clause: unsat_core_function.rs:22, 57-61 and 62-66 -/
def propOf (K : Canon) (name : Nat → Option Var) (e : Info B) : Option (Prp B) :=
  match e.prop with
  | some p => some p
  | none => (vecFormula K name e.clause).map fun f => ⟨f, none⟩

/-- `clause2propositions`, unsat_core_function.rs:18-25, as a list with the newest entry first (a later entry for the same formula counts). -/
def recordAll (K : Canon) (name : Nat → Option Var) : List (Info B) → List (Formula × Prp B) → Option (List (Formula × Prp B))
  | [], m => some m
  | e :: es, m =>
    match vecFormula K name e.clause, propOf K name e with
    | some f, some p => recordAll K name es ((f, p) :: m)
    | _, _ => none

/-- `get` -/
def lookup (m : List (Formula × Prp B)) (f : Formula) : Option (Prp B) := (m.find? fun e => e.1 = f).map Prod.snd

/-- `dedup` of the crate itertools: runs of equal elements become one. -/
def dedup [DecidableEq B] : List (Prp B) → List (Prp B)
  | [] => []
  | [a] => [a]
  | a :: b :: l => if a = b then dedup (b :: l) else a :: dedup (b :: l)

/-- `handle_trivial_case`, unsat_core_function.rs:49-71 -/
def trivialCase [DecidableEq B] (K : Canon) (name : Nat → Option Var) : List (Info B) → Option (List (Prp B) × Bool)
  | [] => none
  | e :: es =>
    match es.find? fun d => decide (e.clause.length = 1 ∧ d.clause.length = 1 ∧ e.clause.headD 0 + d.clause.headD 0 = 0) with
    | none => trivialCase K name es
    | some d =>
      match propOf K name e, propOf K name d with
      | some p, some q => some (if p = q then [p] else [p, q], false)
      | _, _ => none

/-- `compute_unsat_core`, unsat_core_function.rs:12-47; `proofGen`, `result` and `assumed` are `config.proof_generation`, `result` and `last_computation_with_assumptions`.
The core and `is_mus`; `none` is a panic. -/
def unsatCore [DecidableEq B] (K : Canon) (name : Nat → Option Var) (hash : List Int → Int) (fuel : Nat) (proofGen : Bool) (result : Option Bool) (assumed : Bool) (pg : List (Info B))
    (proof : List (List Int)) : Option (List (Prp B) × Bool) :=
  if proofGen = true ∧ result = some false ∧ assumed = false then
    match recordAll K name pg [] with
    | none => none
    | some m =>
      if pg.any fun e => e.clause.isEmpty then (lookup m .fls).map fun p => ([p], true)
      else
        match drup hash fuel (pg.map Info.clause) proof with
        | none => none
        | some none => trivialCase K name pg
        | some (some core) => (core.mapM fun c => (vecFormula K name c).bind (lookup m)).map fun ps => (dedup ps, false)
  else none

/-! ### Clauses as formulas -/

/-- The values of the variables of the solver. -/
def ofNames (name : Nat → Option Var) (σ : Asg) : Nat → Bool := fun v => match name (v - 1) with | some x => σ x | none => false

theorem litOf_eval {name : Nat → Option Var} {x : Int} {l : Lit} (h : litOf name x = some l) (σ : Asg) : l.eval σ = litT (ofNames name σ) x := by
  unfold litOf at h
  obtain ⟨v, h1, rfl⟩ := Option.map_eq_some_iff.1 h
  unfold litT ofNames Lit.eval
  rw [h1]
  by_cases hx : 0 < x <;> simp [hx]

theorem mapM_mem {α β : Type} {f : α → Option β} : ∀ {l : List α} {r : List β}, l.mapM f = some r → (∀ b ∈ r, ∃ a ∈ l, f a = some b) ∧ ∀ a ∈ l, ∃ b ∈ r, f a = some b := by
  intro l
  induction l with
  | nil => intro r h; simp at h; subst h; simp
  | cons a l ih =>
    intro r h
    rw [List.mapM_cons] at h
    cases h1 : f a with
    | none => rw [h1] at h; cases h
    | some b =>
      cases h2 : l.mapM f with
      | none => rw [h1, h2] at h; cases h
      | some r' =>
        rw [h1, h2] at h
        injection h with h
        have h : b :: r' = r := h
        subst h
        obtain ⟨i1, i2⟩ := ih h2
        refine ⟨fun b' hb => ?_, fun a' ha => ?_⟩
        · rcases List.mem_cons.1 hb with rfl | hb
          · exact ⟨a, List.mem_cons_self, h1⟩
          · obtain ⟨x, hx, e⟩ := i1 b' hb; exact ⟨x, List.mem_cons_of_mem _ hx, e⟩
        · rcases List.mem_cons.1 ha with rfl | ha
          · exact ⟨b, List.mem_cons_self, h1⟩
          · obtain ⟨x, hx, e⟩ := i2 a' ha; exact ⟨x, List.mem_cons_of_mem _ hx, e⟩

theorem mapM_some {α β : Type} {f : α → Option β} : ∀ {l : List α}, (∀ a ∈ l, (f a).isSome = true) → (l.mapM f).isSome = true := by
  intro l
  induction l with
  | nil => intro _; rfl
  | cons a l ih =>
    intro h
    obtain ⟨b, h1⟩ := Option.isSome_iff_exists.1 (h a List.mem_cons_self)
    obtain ⟨r, h2⟩ := Option.isSome_iff_exists.1 (ih fun a ha => h a (List.mem_cons_of_mem _ ha))
    rw [List.mapM_cons, h1, h2]
    rfl

theorem vecFormula_eval {K : Canon} {name : Nat → Option Var} {c : List Int} {f : Formula} (h : vecFormula K name c = some f) (σ : Asg) :
    f.eval σ = true ↔ satC (ofNames name σ) c := by
  unfold vecFormula at h
  obtain ⟨ls, h1, rfl⟩ := Option.map_eq_some_iff.1 h
  obtain ⟨h2, h3⟩ := mapM_mem h1
  rw [Formula.eval_mkClause]
  unfold Clause.Sat satC
  constructor
  · rintro ⟨l, hl, hv⟩
    obtain ⟨x, hx, e⟩ := h2 l hl
    exact ⟨x, hx, by rw [← litOf_eval e]; exact hv⟩
  · rintro ⟨x, hx, hv⟩
    obtain ⟨l, hl, e⟩ := h3 x hx
    exact ⟨l, hl, by rw [litOf_eval e]; exact hv⟩

/-- A list of literals as operands. -/
theorem flats_lits : ∀ (c : List Lit) (acc : List Formula), acc.Nodup → (∀ f ∈ acc, ∃ l, f = .lit l) →
    match Formula.flats .disj (c.map .lit) acc with
    | some r => r.Nodup ∧ (∀ l, Formula.lit l ∈ r ↔ Formula.lit l ∈ acc ∨ l ∈ c) ∧ (∀ f ∈ r, ∃ l, f = .lit l) ∧ ((∀ l, Formula.lit l ∈ acc → Formula.lit l.neg ∉ acc) → ∀ l, Formula.lit l ∈ r → Formula.lit l.neg ∉ r)
    | none => ∃ l, (Formula.lit l ∈ acc ∨ l ∈ c) ∧ (Formula.lit l.neg ∈ acc ∨ l.neg ∈ c) := by
  intro c
  induction c with
  | nil => intro acc h1 h2; simp [Formula.flats]; exact ⟨h1, h2⟩
  | cons a c ih =>
    intro acc h1 h2
    rw [List.map_cons, Formula.flats]
    have e1 : Formula.flat1 .disj (.lit a) acc = if Formula.lit a.neg ∈ acc then none else if Formula.lit a ∈ acc then some acc else some (acc ++ [.lit a]) := by
      simp [Formula.flat1, Formula.addOp, Formula.containsComplement]
    rw [e1]
    by_cases h3 : Formula.lit a.neg ∈ acc
    · rw [if_pos h3]
      exact ⟨a, .inr List.mem_cons_self, .inl h3⟩
    · rw [if_neg h3]
      by_cases h4 : Formula.lit a ∈ acc
      · rw [if_pos h4]
        have := ih acc h1 h2
        simp only
        split at this
        · obtain ⟨k1, k2, k3, k4⟩ := this
          refine ⟨k1, fun l => ?_, k3, k4⟩
          rw [k2]
          constructor
          · rintro (h | h)
            · exact .inl h
            · exact .inr (List.mem_cons_of_mem _ h)
          · rintro (h | h)
            · exact .inl h
            · rcases List.mem_cons.1 h with rfl | h
              · exact .inl h4
              · exact .inr h
        · obtain ⟨l, k1, k2⟩ := this
          exact ⟨l, k1.imp_right (List.mem_cons_of_mem _), k2.imp_right (List.mem_cons_of_mem _)⟩
      · rw [if_neg h4]
        have := ih (acc ++ [.lit a]) (by rw [List.nodup_append]; exact ⟨h1, by simp, fun x hx y hy e => h4 (by rw [List.mem_singleton.1 hy] at e; exact e ▸ hx)⟩)
          (fun f hf => by rcases List.mem_append.1 hf with hf | hf; exact h2 f hf; exact ⟨a, List.mem_singleton.1 hf⟩)
        simp only
        have hm : ∀ l, Formula.lit l ∈ acc ++ [.lit a] ↔ Formula.lit l ∈ acc ∨ l = a := by intro l; simp
        split at this
        · obtain ⟨k1, k2, k3, k4⟩ := this
          refine ⟨k1, fun l => ?_, k3, fun h5 => k4 fun l => ?_⟩
          · rw [k2, hm, List.mem_cons, or_assoc]
          · rw [hm, hm]
            have hna : a.neg ≠ a := by cases a; simp [Lit.neg]
            rintro (h6 | rfl) (h7 | h7)
            · exact h5 l h6 h7
            · rw [← h7, show l.neg.neg = l from by cases l; simp [Lit.neg]] at h3; exact h3 h6
            · exact h3 h7
            · exact hna h7
        · obtain ⟨l, k1, k2⟩ := this
          rw [hm, or_assoc, ← List.mem_cons] at k1
          rw [hm, or_assoc, ← List.mem_cons] at k2
          exact ⟨l, k1, k2⟩

/-- The order of the literals does not matter if the factory finds lists of the same operands (C02). -/
theorem mkClause_perm {K : Canon} (hK : ∀ l l' : List Formula, l.Perm l' → K.ord .disj l = K.ord .disj l') {c d : List Lit} (h : c.Perm d) : Formula.mkClause K c = Formula.mkClause K d := by
  have h1 := flats_lits c [] List.nodup_nil (by simp)
  have h2 := flats_lits d [] List.nodup_nil (by simp)
  unfold Formula.mkClause Formula.mkOr Formula.mkNary
  cases e1 : Formula.flats .disj (c.map .lit) [] with
  | none =>
    rw [e1] at h1
    cases e2 : Formula.flats .disj (d.map .lit) [] with
    | none => rfl
    | some r =>
      rw [e2] at h2
      obtain ⟨l, k1, k2⟩ := h1
      simp only [List.not_mem_nil, false_or] at k1 k2 h2
      exact absurd ((h2.2.1 l.neg).2 (h.mem_iff.1 k2)) (h2.2.2.2 (fun l h => False.elim h) l ((h2.2.1 l).2 (h.mem_iff.1 k1)))
  | some r =>
    rw [e1] at h1
    cases e2 : Formula.flats .disj (d.map .lit) [] with
    | none =>
      rw [e2] at h2
      obtain ⟨l, k1, k2⟩ := h2
      simp only [List.not_mem_nil, false_or] at k1 k2 h1
      exact absurd ((h1.2.1 l.neg).2 (h.mem_iff.2 k2)) (h1.2.2.2 (fun l h => False.elim h) l ((h1.2.1 l).2 (h.mem_iff.2 k1)))
    | some r' =>
      rw [e2] at h2
      simp only [List.not_mem_nil, false_or] at h1 h2
      have hp : r.Perm r' := by
        rw [List.perm_ext_iff_of_nodup h1.1 h2.1]
        intro f
        constructor
        · intro hf
          obtain ⟨l, rfl⟩ := h1.2.2.1 f hf
          exact (h2.2.1 l).2 (h.mem_iff.1 ((h1.2.1 l).1 hf))
        · intro hf
          obtain ⟨l, rfl⟩ := h2.2.2.1 f hf
          exact (h1.2.1 l).2 (h.mem_iff.2 ((h2.2.1 l).1 hf))
      match r, r', hp with
      | [], [], _ => rfl
      | [a], [b], hp => rw [List.perm_singleton.1 hp]
      | a :: b :: l, a' :: b' :: l', hp => simp only [Formula.finish]; rw [hK _ _ hp]
      | [], b :: l, hp => have := hp.length_eq; simp at this
      | [a], [], hp => have := hp.length_eq; simp at this
      | [a], b :: b' :: l, hp => have := hp.length_eq; simp at this
      | a :: b :: l, [], hp => have := hp.length_eq; simp at this
      | a :: b :: l, [a'], hp => have := hp.length_eq; simp at this

theorem mapM_perm {α β : Type} {f : α → Option β} {l l' : List α} (h : l.Perm l') : ∀ {r : List β}, l.mapM f = some r → ∃ r', l'.mapM f = some r' ∧ r.Perm r' := by
  induction h with
  | nil => intro r h; exact ⟨r, h, List.Perm.refl _⟩
  | cons a _ ih =>
    intro r h
    rw [List.mapM_cons] at h ⊢
    rename_i l1 l2 _
    cases h1 : f a with
    | none => rw [h1] at h; cases h
    | some b =>
      cases h2 : l1.mapM f with
      | none => rw [h1, h2] at h; cases h
      | some r1 =>
        rw [h1, h2] at h
        injection h with h
        have h : b :: r1 = r := h
        subst h
        obtain ⟨r2, e, hp⟩ := ih h2
        exact ⟨b :: r2, by rw [e]; rfl, hp.cons b⟩
  | swap a b l =>
    intro r h
    simp only [List.mapM_cons] at h ⊢
    cases h1 : f a with
    | none => cases h2 : f b <;> simp [h1, h2] at h
    | some x =>
      cases h2 : f b with
      | none => simp [h1, h2] at h
      | some y =>
        cases h3 : l.mapM f with
        | none => rw [h1, h2, h3] at h; cases h
        | some r1 =>
          rw [h1, h2, h3] at h
          injection h with h
          have h : y :: x :: r1 = r := h
          subst h
          exact ⟨x :: y :: r1, rfl, List.Perm.swap _ _ _⟩
  | trans _ _ ih1 ih2 =>
    intro r h
    obtain ⟨r1, e1, p1⟩ := ih1 h
    obtain ⟨r2, e2, p2⟩ := ih2 e1
    exact ⟨r2, e2, p1.trans p2⟩

theorem vecFormula_perm {K : Canon} (hK : ∀ l l' : List Formula, l.Perm l' → K.ord .disj l = K.ord .disj l') {name : Nat → Option Var} {c d : List Int} (h : c.Perm d) {f : Formula}
    (e : vecFormula K name c = some f) : vecFormula K name d = some f := by
  unfold vecFormula at e ⊢
  obtain ⟨ls, h1, rfl⟩ := Option.map_eq_some_iff.1 e
  obtain ⟨ls', h2, hp⟩ := mapM_perm h h1
  rw [h2, Option.map_some, mkClause_perm hK hp]

/-! ### The map from clauses to propositions -/

theorem record_mem {K : Canon} {name : Nat → Option Var} : ∀ {pg : List (Info B)} {m m' : List (Formula × Prp B)}, recordAll K name pg m = some m' →
    (∀ x ∈ m', x ∈ m ∨ ∃ e ∈ pg, vecFormula K name e.clause = some x.1 ∧ propOf K name e = some x.2) ∧ (∀ x ∈ m, x ∈ m') ∧
    ∀ e ∈ pg, ∃ x ∈ m', vecFormula K name e.clause = some x.1 ∧ propOf K name e = some x.2 := by
  intro pg
  induction pg with
  | nil => intro m m' h; injection h with h; subst h; exact ⟨fun x hx => .inl hx, fun _ h => h, by simp⟩
  | cons e es ih =>
    intro m m' h
    unfold recordAll at h
    split at h
    · rename_i f p e1 e2
      obtain ⟨i1, i2, i3⟩ := ih h
      refine ⟨fun x hx => ?_, fun x hx => i2 x (List.mem_cons_of_mem _ hx), fun d hd => ?_⟩
      · rcases i1 x hx with h | ⟨d, hd, k⟩
        · rcases List.mem_cons.1 h with rfl | h
          · exact .inr ⟨e, List.mem_cons_self, e1, e2⟩
          · exact .inl h
        · exact .inr ⟨d, List.mem_cons_of_mem _ hd, k⟩
      · rcases List.mem_cons.1 hd with rfl | hd
        · exact ⟨(f, p), i2 _ List.mem_cons_self, e1, e2⟩
        · exact i3 d hd
    · cases h

theorem record_some {K : Canon} {name : Nat → Option Var} : ∀ {pg : List (Info B)} {m : List (Formula × Prp B)}, (∀ e ∈ pg, (vecFormula K name e.clause).isSome = true) →
    (recordAll K name pg m).isSome = true := by
  intro pg
  induction pg with
  | nil => intro m _; rfl
  | cons e es ih =>
    intro m h
    obtain ⟨f, hf⟩ := Option.isSome_iff_exists.1 (h e List.mem_cons_self)
    have hp : ∃ p, propOf K name e = some p := by
      unfold propOf
      split
      · exact ⟨_, rfl⟩
      · exact ⟨⟨f, none⟩, by rw [hf]; rfl⟩
    obtain ⟨p, hp⟩ := hp
    unfold recordAll
    rw [hf, hp]
    exact ih fun d hd => h d (List.mem_cons_of_mem _ hd)

theorem lookup_mem {m : List (Formula × Prp B)} {f : Formula} {p : Prp B} (h : lookup m f = some p) : (f, p) ∈ m := by
  unfold lookup at h
  obtain ⟨x, h1, rfl⟩ := Option.map_eq_some_iff.1 h
  have h2 := List.find?_some h1
  have : x.1 = f := by simpa using h2
  rw [← this]
  exact List.mem_of_find?_eq_some h1

theorem lookup_some {m : List (Formula × Prp B)} {x : Formula × Prp B} (h : x ∈ m) : (lookup m x.1).isSome = true := by
  unfold lookup
  rw [Option.isSome_map, List.find?_isSome]
  exact ⟨x, h, by simp⟩

theorem mem_dedup [DecidableEq B] : ∀ {l : List (Prp B)} {p : Prp B}, p ∈ dedup l ↔ p ∈ l := by
  intro l
  induction l with
  | nil => intro p; simp [dedup]
  | cons a l ih =>
    intro p
    cases l with
    | nil => simp [dedup]
    | cons b l =>
      rw [dedup]
      split
      · rename_i e
        subst e
        rw [ih]; simp
      · rw [List.mem_cons, ih, List.mem_cons (a := p) (b := a)]

/-! ### The result -/

theorem trivial_some [DecidableEq B] {K : Canon} {name : Nat → Option Var} : ∀ {pg : List (Info B)} {x : Int}, (∀ e ∈ pg, (vecFormula K name e.clause).isSome = true) → x ≠ 0 →
    (∃ e ∈ pg, e.clause = [x]) → (∃ e ∈ pg, e.clause = [-x]) → (trivialCase K name pg).isSome = true := by
  intro pg
  induction pg with
  | nil => rintro x _ _ ⟨e, he, _⟩; simp at he
  | cons e es ih =>
    intro x hk hx h1 h2
    have hp : ∀ d ∈ e :: es, ∃ p, propOf K name d = some p := by
      intro d hd
      obtain ⟨f, hf⟩ := Option.isSome_iff_exists.1 (hk d hd)
      unfold propOf
      split
      · exact ⟨_, rfl⟩
      · exact ⟨⟨f, none⟩, by rw [hf]; rfl⟩
    unfold trivialCase
    split
    · rename_i hn
      have hn' : ∀ y : Int, y ≠ 0 → e.clause = [y] → ∀ d ∈ es, d.clause ≠ [-y] := by
        intro y _ he d hd hd'
        have := List.find?_eq_none.1 hn d hd
        simp [he, hd'] at this
        omega
      have key : ∀ y : Int, y ≠ 0 → (∃ d ∈ e :: es, d.clause = [y]) → (∃ d ∈ e :: es, d.clause = [-y]) → ∃ d ∈ es, d.clause = [y] := by
        rintro y hy ⟨d, hd, k1⟩ ⟨d', hd', k2⟩
        rcases List.mem_cons.1 hd with rfl | hd
        · rcases List.mem_cons.1 hd' with rfl | hd'
          · rw [k1] at k2
            injection k2 with k2 _
            omega
          · exact absurd k2 (hn' y hy k1 d' hd')
        · exact ⟨d, hd, k1⟩
      refine ih (fun d hd => hk d (List.mem_cons_of_mem _ hd)) hx (key x hx h1 h2) (key (-x) (by omega) h2 ?_)
      rw [Int.neg_neg]; exact h1
    · rename_i d hd
      obtain ⟨p, e1⟩ := hp e List.mem_cons_self
      obtain ⟨q, e2⟩ := hp d (List.mem_cons_of_mem _ (List.mem_of_find?_eq_some hd))
      rw [e1, e2]
      rfl

theorem trivial_ok [DecidableEq B] {K : Canon} {name : Nat → Option Var} : ∀ {pg : List (Info B)} {r : List (Prp B) × Bool}, trivialCase K name pg = some r →
    r.2 = false ∧ ∃ e ∈ pg, ∃ d ∈ pg, ∃ x, e.clause = [x] ∧ d.clause = [-x] ∧ (∃ p ∈ r.1, propOf K name e = some p) ∧ (∃ p ∈ r.1, propOf K name d = some p) ∧
      ∀ p ∈ r.1, propOf K name e = some p ∨ propOf K name d = some p := by
  intro pg
  induction pg with
  | nil => intro r h; cases h
  | cons e es ih =>
    intro r h
    unfold trivialCase at h
    split at h
    · obtain ⟨h0, a, ha, d, hd, k⟩ := ih h
      exact ⟨h0, a, List.mem_cons_of_mem _ ha, d, List.mem_cons_of_mem _ hd, k⟩
    · rename_i d hd
      have h1 := List.find?_some hd
      simp only [decide_eq_true_eq] at h1
      obtain ⟨k1, k2, k3⟩ := h1
      obtain ⟨x, hx⟩ := List.length_eq_one_iff.1 k1
      obtain ⟨y, hy⟩ := List.length_eq_one_iff.1 k2
      rw [hx, hy] at k3
      simp only [List.headD_cons] at k3
      have : y = -x := by omega
      subst this
      split at h
      · rename_i p q e1 e2
        injection h with h
        subst h
        refine ⟨rfl, e, List.mem_cons_self, d, List.mem_cons_of_mem _ (List.mem_of_find?_eq_some hd), x, hx, hy, ⟨p, ?_, e1⟩, ⟨q, ?_, e2⟩, fun p' hp => ?_⟩
        · show p ∈ if p = q then [p] else [p, q]
          split <;> simp
        · show q ∈ if p = q then [p] else [p, q]
          split
          · rename_i e; simp [e]
          · simp
        · have hp : p' ∈ if p = q then [p] else [p, q] := hp
          rw [e1, e2]
          split at hp
          · exact .inl (by rw [List.mem_singleton.1 hp])
          · simp only [List.mem_cons, List.not_mem_nil, or_false] at hp
            rcases hp with rfl | rfl
            · exact .inl rfl
            · exact .inr rfl
      · cases h

variable [DecidableEq B]

/-- The core consists of recorded propositions and is unsatisfiable.  `cov`: the clauses recorded for a proposition follow from it, for auxiliary variables chosen suitably. -/
theorem unsatCore_ok {K : Canon} {name : Nat → Option Var} {hash : List Int → Int} {fuel : Nat} {proofGen assumed : Bool} {result : Option Bool} {pg : List (Info B)} {proof : List (List Int)}
    (hz : ∀ e ∈ pg, ∀ x ∈ e.clause, x ≠ 0) (hp : ∀ c ∈ proof, ∀ x ∈ c.tail, x ≠ 0) (cov : ∀ σ : Asg, ∃ τ : Asg, ∀ e ∈ pg, ∀ p, propOf K name e = some p → p.formula.eval σ = true → satC (ofNames name τ) e.clause)
    {ps : List (Prp B)} {mus : Bool} (h : unsatCore K name hash fuel proofGen result assumed pg proof = some (ps, mus)) :
    (∀ p ∈ ps, ∃ e ∈ pg, propOf K name e = some p) ∧ (∀ σ, ∃ p ∈ ps, p.formula.eval σ = false) ∧ (mus = true → ps.length = 1) := by
  unfold unsatCore at h
  split at h
  · split at h
    · cases h
    · rename_i m hm
      obtain ⟨m1, _, m3⟩ := record_mem hm
      have m1 : ∀ x ∈ m, ∃ e ∈ pg, vecFormula K name e.clause = some x.1 ∧ propOf K name e = some x.2 := by
        intro x hx
        rcases m1 x hx with h | h
        · simp at h
        · exact h
      split at h
      · obtain ⟨p, h1, h2⟩ := Option.map_eq_some_iff.1 h
        injection h2 with h2 h3
        subst h2 h3
        obtain ⟨e, he, k1, k2⟩ := m1 _ (lookup_mem h1)
        refine ⟨fun q hq => ⟨e, he, by rw [List.mem_singleton.1 hq]; exact k2⟩, fun σ => ⟨p, by simp, ?_⟩, fun _ => rfl⟩
        obtain ⟨τ, hτ⟩ := cov σ
        cases hv : p.formula.eval σ with
        | false => rfl
        | true =>
          have := (vecFormula_eval k1 τ).2 (hτ e he p k2 hv)
          cases this
      · split at h
        · cases h
        · obtain ⟨h0, e, he, d, hd, x, k1, k2, ⟨p, hp1, hp2⟩, ⟨q, hq1, hq2⟩, k5⟩ := trivial_ok h
          refine ⟨fun p' hp' => ?_, fun σ => ?_, fun hmus => ?_⟩
          · rcases k5 p' hp' with k | k
            · exact ⟨e, he, k⟩
            · exact ⟨d, hd, k⟩
          · obtain ⟨τ, hτ⟩ := cov σ
            cases hv : p.formula.eval σ with
            | false => exact ⟨p, hp1, hv⟩
            | true =>
              cases hv' : q.formula.eval σ with
              | false => exact ⟨q, hq1, hv'⟩
              | true =>
                have h1 := hτ e he p hp2 hv
                have h2 := hτ d hd q hq2 hv'
                rw [k1] at h1
                rw [k2] at h2
                obtain ⟨y, hy, hy1⟩ := h1
                obtain ⟨z, hz', hz1⟩ := h2
                rw [List.mem_singleton.1 hy] at hy1
                rw [List.mem_singleton.1 hz', litT_neg _ (hz e he x (by rw [k1]; simp)), hy1] at hz1
                cases hz1
          · simp only at h0
            rw [h0] at hmus
            cases hmus
        · rename_i core hc
          obtain ⟨ls, h1, h2⟩ := Option.map_eq_some_iff.1 h
          injection h2 with h2 h3
          subst h2 h3
          obtain ⟨d1, d2⟩ := drup_core (by intro c hc x hx; obtain ⟨e, he, rfl⟩ := List.mem_map.1 hc; exact hz e he x hx) hp hc
          obtain ⟨l1, l2⟩ := mapM_mem h1
          have hl : ∀ {c p}, ((vecFormula K name c).bind (lookup m)) = some p → ∃ e ∈ pg, ∃ f, vecFormula K name c = some f ∧ vecFormula K name e.clause = some f ∧ propOf K name e = some p := by
            intro c p hcp
            obtain ⟨f, k1, k2⟩ := Option.bind_eq_some_iff.1 hcp
            obtain ⟨e, he, k3, k4⟩ := m1 _ (lookup_mem k2)
            exact ⟨e, he, f, k1, k3, k4⟩
          refine ⟨fun p hp => ?_, fun σ => ?_, nofun⟩
          · obtain ⟨c, _, k⟩ := l1 p (mem_dedup.1 hp)
            obtain ⟨e, he, f, _, _, k4⟩ := hl k
            exact ⟨e, he, k4⟩
          · obtain ⟨τ, hτ⟩ := cov σ
            obtain ⟨c, hc, hns⟩ := d2 (ofNames name τ)
            obtain ⟨p, hp, k⟩ := l2 c hc
            obtain ⟨e, he, f, k1, k2, k3⟩ := hl k
            refine ⟨p, mem_dedup.2 hp, ?_⟩
            cases hv : p.formula.eval σ with
            | false => rfl
            | true => exact absurd ((vecFormula_eval k1 τ).1 ((vecFormula_eval k2 τ).2 (hτ e he p k3 hv))) hns
  · cases h

/-- A panic can only come from the assertions or from the trimmer. -/
theorem unsatCore_some {K : Canon} (hK : ∀ l l' : List Formula, l.Perm l' → K.ord .disj l = K.ord .disj l') {name : Nat → Option Var} {hash : List Int → Int} {fuel : Nat} {pg : List (Info B)}
    {proof : List (List Int)} (hz : ∀ e ∈ pg, ∀ x ∈ e.clause, x ≠ 0) (hp : ∀ c ∈ proof, ∀ x ∈ c.tail, x ≠ 0) (hn : ∀ e ∈ pg, ∀ x ∈ e.clause, (name (x.natAbs - 1)).isSome = true)
    (hd : [] ∉ pg.map Info.clause → (drup hash fuel (pg.map Info.clause) proof).isSome = true) : (unsatCore K name hash fuel true (some false) false pg proof).isSome = true := by
  have hv : ∀ e ∈ pg, (vecFormula K name e.clause).isSome = true := by
    intro e he
    unfold vecFormula
    rw [Option.isSome_map]
    refine mapM_some fun x hx => ?_
    unfold litOf
    rw [Option.isSome_map]
    exact hn e he x hx
  obtain ⟨m, hm⟩ := Option.isSome_iff_exists.1 (record_some (m := []) hv)
  obtain ⟨_, _, m3⟩ := record_mem hm
  unfold unsatCore
  simp only [and_self, if_true, hm]
  split
  · rename_i hem
    obtain ⟨e, he, h1⟩ := List.any_eq_true.1 hem
    have h1 : e.clause = [] := by simpa using h1
    obtain ⟨x, hx, k, _⟩ := m3 e he
    rw [h1] at k
    have : x.1 = .fls := by
      have k : some (Formula.mkClause K []) = some x.1 := k
      injection k with k
      rw [← k]
      rfl
    rw [Option.isSome_map, ← this]
    exact lookup_some hx
  · rename_i hem
    have hne : [] ∉ pg.map Info.clause := by
      intro h
      obtain ⟨e, he, h1⟩ := List.mem_map.1 h
      exact hem (List.any_eq_true.2 ⟨e, he, by simp [h1]⟩)
    obtain ⟨r, hr⟩ := Option.isSome_iff_exists.1 (hd hne)
    rw [hr]
    cases r with
    | none =>
      rcases drup_trivial hr with h | ⟨x, h1, h2⟩
      · exact absurd h hne
      · obtain ⟨e, he, h1⟩ := List.mem_map.1 h1
        obtain ⟨d, hd, h2⟩ := List.mem_map.1 h2
        exact trivial_some hv (hz e he x (by rw [h1]; simp)) ⟨e, he, h1⟩ ⟨d, hd, h2⟩
    | some core =>
      simp only [Option.isSome_map]
      refine mapM_some fun c hc => ?_
      obtain ⟨⟨sub, s1, s2⟩, _⟩ := drup_core (by intro c hc x hx; obtain ⟨e, he, rfl⟩ := List.mem_map.1 hc; exact hz e he x hx) hp hr
      obtain ⟨c', hc', hpm⟩ : ∃ c' ∈ sub, c.Perm c' := by
        obtain ⟨hl, hg⟩ := List.forall₂_iff_get.1 s2
        obtain ⟨i, hi, rfl⟩ := List.mem_iff_getElem.1 hc
        exact ⟨sub[i]'(by rw [← hl]; exact hi), List.getElem_mem _, hg i hi (by rw [← hl]; exact hi)⟩
      obtain ⟨e, he, rfl⟩ := List.mem_map.1 (s1.subset hc')
      obtain ⟨x, hx, k1, k2⟩ := m3 e he
      rw [vecFormula_perm hK hpm.symm k1]
      exact lookup_some hx

end Verif.Drup
