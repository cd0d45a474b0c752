import Verif.F.Pg
import Mathlib.Data.List.Perm.Subperm
import Mathlib.Data.List.Nodup

/-
Number of nodes, internal nodes and operands; the counters of 64 bits; the memory asked for by the
Plaisted-Greenbaum transformation.
-/
namespace Verif

/-- The literals of a constraint: sub_node_function.rs:193-196. -/
def nodesIn : Formula → Nat
  | .cc c => c.vars.length
  | .pbc p => p.terms.length
  | _ => 0

/-- The cached part of `number_of_nodes`, src/operations/functions/sub_node_function.rs:190-203 (the cache
stores the number without the formula itself; `u64` as a natural number, see `fnNodes64`). -/
def fnNodes : Fn Nat where
  β := Nat
  noCache f := f.isConst || f.isLit
  init := nodesIn
  stop _ := false
  step a b := a + (1 + b)
  fin _ b := b

/-- `number_of_nodes`, sub_node_function.rs:187-205. -/
def numberOfNodes (on : Bool) (f : Formula) (m : Memo Nat) : Nat := 1 + (fnNodes.run on f m).1

/-- `number_of_internal_nodes`, sub_node_function.rs:154-156. -/
def numberOfInternalNodes (f : Formula) (m : Memo (List Formula)) : Nat := (fnSub.run true f m).1.length

/-- `number_of_operands`, sub_node_function.rs:236-244. -/
def numberOfOperands : Formula → Nat
  | .equiv _ _ => 2
  | .impl _ _ => 2
  | .not _ => 1
  | .nary _ fs => fs.length
  | _ => 0

/-- The places in the tree of a formula, as paths from the root; the literals of a constraint count
as places below it (specification). -/
inductive At : Formula → List Nat → Prop
  | root (f) : At f []
  | op {f o i p} : f.operands[i]? = some o → At o p → At f (i :: p)
  | cc {c i} : i < c.vars.length → At (.cc c) [i]
  | pbc {p i} : i < p.terms.length → At (.pbc p) [i]

theorem nodes_ops {k : Nat} (fs : List Formula) (h : ∀ o ∈ fs, ∃ l : List (List Nat), l.Nodup ∧ (∀ p, p ∈ l ↔ At o p) ∧ l.length = 1 + fnNodes.val o) :
    ∃ l : List (List Nat), l.Nodup ∧ (∀ p, p ∈ l ↔ ∃ i q o, fs[i]? = some o ∧ p = (k + i) :: q ∧ At o q) ∧
      ∀ b, fs.foldl (fun b g => b + (1 + fnNodes.val g)) b = b + l.length := by
  induction fs generalizing k with
  | nil => exact ⟨[], by simp, by simp, by simp⟩
  | cons f fs ih =>
    obtain ⟨l1, n1, m1, e1⟩ := h f (by simp)
    obtain ⟨l2, n2, m2, e2⟩ := ih (k := k + 1) fun o ho => h o (by simp [ho])
    refine ⟨l1.map (k :: ·) ++ l2, ?_, ?_, ?_⟩
    · rw [List.nodup_append]
      refine ⟨n1.map fun a b h => by simpa using h, n2, ?_⟩
      intro x hx y hy hxy
      subst hxy
      simp only [List.mem_map] at hx
      obtain ⟨q, _, rfl⟩ := hx
      obtain ⟨i, q', o, _, e, _⟩ := (m2 _).1 hy
      injection e with e _
      omega
    · intro p
      simp only [List.mem_append, List.mem_map, m1, m2]
      constructor
      · rintro (⟨q, hq, rfl⟩ | ⟨i, q, o, ho, rfl, hq⟩)
        · exact ⟨0, q, f, by simp, by simp, hq⟩
        · exact ⟨i + 1, q, o, by simpa using ho, by simp; omega, hq⟩
      · rintro ⟨i, q, o, ho, rfl, hq⟩
        cases i with
        | zero =>
          simp only [List.getElem?_cons_zero, Option.some.injEq] at ho
          subst ho
          exact .inl ⟨q, hq, by simp⟩
        | succ i => exact .inr ⟨i, q, o, by simpa using ho, by simp; omega, hq⟩
    · intro b
      simp only [List.foldl_cons, List.length_append, List.length_map, e2, e1]
      omega

theorem nodes_val (f : Formula) : ∃ l : List (List Nat), l.Nodup ∧ (∀ p, p ∈ l ↔ At f p) ∧ l.length = 1 + fnNodes.val f := by
  induction f using ind_operands with
  | h f ih =>
    obtain ⟨l, n, m, e⟩ := nodes_ops (k := 0) f.operands ih
    have ev : fnNodes.val f = if f.isConst || f.isLit then nodesIn f else f.operands.foldl (fun b g => b + (1 + fnNodes.val g)) (nodesIn f) := by
      rw [Fn.val_eq]; rfl
    have ops : ∀ p, (∃ i q o, f.operands[i]? = some o ∧ p = (0 + i) :: q ∧ At o q) → At f p := by
      rintro _ ⟨i, q, o, ho, rfl, hq⟩
      rw [Nat.zero_add]
      exact .op ho hq
    have fin : ∀ k : Nat, (∀ i : Nat, i < k → At f [i]) → (∀ p, At f p → p = [] ∨ ∃ i, i < k ∧ p = [i]) → fnNodes.val f = k →
        ∃ l : List (List Nat), l.Nodup ∧ (∀ p, p ∈ l ↔ At f p) ∧ l.length = 1 + fnNodes.val f := by
      intro k h1 h2 h3
      refine ⟨[] :: (List.range k).map fun i => [i], ?_, ?_, by simp [h3]; omega⟩
      · rw [List.nodup_cons]
        exact ⟨by simp, List.nodup_range.map fun a b h => by simpa using h⟩
      · intro p
        simp only [List.mem_cons, List.mem_map, List.mem_range]
        constructor
        · rintro (rfl | ⟨i, hi, rfl⟩)
          · exact .root _
          · exact h1 i hi
        · intro h
          rcases h2 p h with h | ⟨i, hi, h⟩
          · exact .inl h
          · exact .inr ⟨i, hi, h.symm⟩
    have other : (nodesIn f = 0) → (f.isConst || f.isLit) = false → (∀ p, At f p → p = [] ∨ ∃ i q o, f.operands[i]? = some o ∧ p = (0 + i) :: q ∧ At o q) →
        ∃ l : List (List Nat), l.Nodup ∧ (∀ p, p ∈ l ↔ At f p) ∧ l.length = 1 + fnNodes.val f := by
      intro h0 hc hat
      refine ⟨[] :: l, ?_, ?_, ?_⟩
      · rw [List.nodup_cons]
        refine ⟨fun h => ?_, n⟩
        obtain ⟨_, _, _, _, h, _⟩ := (m _).1 h
        exact (nomatch h)
      · intro p
        simp only [List.mem_cons, m]
        constructor
        · rintro (rfl | h)
          · exact .root _
          · exact ops p h
        · exact hat p
      · rw [ev, if_neg (by simp [hc]), e, h0]
        simp; omega
    have opsOnly : (∀ c, f ≠ .cc c) → (∀ p, f ≠ .pbc p) → ∀ p, At f p → p = [] ∨ ∃ i q o, f.operands[i]? = some o ∧ p = (0 + i) :: q ∧ At o q := by
      intro h1 h2 p h
      cases h with
      | root => exact .inl rfl
      | op ho hq => exact .inr ⟨_, _, _, ho, by simp, hq⟩
      | cc _ => exact absurd rfl (h1 _)
      | pbc _ => exact absurd rfl (h2 _)
    cases f with
    | cc c =>
      refine fin c.vars.length (fun i hi => .cc hi) ?_ (by rw [ev]; rfl)
      intro p h
      cases h with
      | root => exact .inl rfl
      | op ho hq => simp [Formula.operands] at ho
      | cc h => exact .inr ⟨_, h, rfl⟩
    | pbc q =>
      refine fin q.terms.length (fun i hi => .pbc hi) ?_ (by rw [ev]; rfl)
      intro p h
      cases h with
      | root => exact .inl rfl
      | op ho hq => simp [Formula.operands] at ho
      | pbc h => exact .inr ⟨_, h, rfl⟩
    | tru => exact fin 0 (by simp) (fun p h => by cases h with | root => exact .inl rfl | op ho _ => simp [Formula.operands] at ho) (by rw [ev]; rfl)
    | fls => exact fin 0 (by simp) (fun p h => by cases h with | root => exact .inl rfl | op ho _ => simp [Formula.operands] at ho) (by rw [ev]; rfl)
    | lit l => exact fin 0 (by simp) (fun p h => by cases h with | root => exact .inl rfl | op ho _ => simp [Formula.operands] at ho) (by rw [ev]; rfl)
    | not g => exact other rfl rfl (opsOnly (by simp) (by simp))
    | impl a b => exact other rfl rfl (opsOnly (by simp) (by simp))
    | equiv a b => exact other rfl rfl (opsOnly (by simp) (by simp))
    | nary o fs => exact other rfl rfl (opsOnly (by simp) (by simp))

/-! ### Counters of 64 bits -/

/-- `number_of_nodes` with wrapping sums, sub_node_function.rs:187-205 (the lengths of lines 194 and 196 fit). -/
def fnNodes64 : Fn Nat where
  β := Nat
  noCache f := f.isConst || f.isLit
  init f := nodesIn f % 2 ^ 64
  stop _ := false
  step a b := (a + (1 + b) % 2 ^ 64) % 2 ^ 64
  fin _ b := b

theorem atoms64_val (f : Formula) : fnAtoms64.val f = fnAtoms.val f % 2 ^ 64 := by
  induction f using ind_operands with
  | h f ih =>
    have e : fnAtoms.val f = if f.isAtomic then (if f.isAtomic then 1 else 0) else f.operands.foldl (fun b g => b + fnAtoms.val g) (if f.isAtomic then 1 else 0) := by
      rw [Fn.val_eq]; rfl
    have e' : fnAtoms64.val f = if f.isAtomic then (if f.isAtomic then 1 else 0) else f.operands.foldl (fun b g => (b + fnAtoms64.val g) % 2 ^ 64) (if f.isAtomic then 1 else 0) := by
      rw [Fn.val_eq]; rfl
    rw [e, e']
    by_cases ha : f.isAtomic = true
    · simp [ha]
    · rw [if_neg ha, if_neg ha, if_neg ha]
      have : ∀ (fs : List Formula) (a b : Nat), (∀ g ∈ fs, fnAtoms64.val g = fnAtoms.val g % 2 ^ 64) → a = b % 2 ^ 64 →
          fs.foldl (fun b g => (b + fnAtoms64.val g) % 2 ^ 64) a = fs.foldl (fun b g => b + fnAtoms.val g) b % 2 ^ 64 := by
        intro fs
        induction fs with
        | nil => intro a b _ h; exact h
        | cons g fs ihl =>
          intro a b h hab
          simp only [List.foldl_cons]
          refine ihl _ _ (fun x hx => h x (by simp [hx])) ?_
          rw [h g (by simp), hab]
          omega
      exact this _ _ _ ih (by simp)

theorem nodes64_val (f : Formula) : fnNodes64.val f = fnNodes.val f % 2 ^ 64 := by
  induction f using ind_operands with
  | h f ih =>
    have e : fnNodes.val f = if f.isConst || f.isLit then nodesIn f else f.operands.foldl (fun b g => b + (1 + fnNodes.val g)) (nodesIn f) := by
      rw [Fn.val_eq]; rfl
    have e' : fnNodes64.val f = if f.isConst || f.isLit then (nodesIn f % 2 ^ 64) else f.operands.foldl (fun b g => (b + (1 + fnNodes64.val g) % 2 ^ 64) % 2 ^ 64) ((nodesIn f % 2 ^ 64)) := by
      rw [Fn.val_eq]; rfl
    rw [e, e']
    by_cases ha : (f.isConst || f.isLit) = true
    · rw [if_pos ha, if_pos ha]
    · rw [if_neg ha, if_neg ha]
      have : ∀ (fs : List Formula) (a b : Nat), (∀ g ∈ fs, fnNodes64.val g = fnNodes.val g % 2 ^ 64) → a = b % 2 ^ 64 →
          fs.foldl (fun b g => (b + (1 + fnNodes64.val g) % 2 ^ 64) % 2 ^ 64) a = fs.foldl (fun b g => b + (1 + fnNodes.val g)) b % 2 ^ 64 := by
        intro fs
        induction fs with
        | nil => intro a b _ h; exact h
        | cons g fs ihl =>
          intro a b h hab
          simp only [List.foldl_cons]
          refine ihl _ _ (fun x hx => h x (by simp [hx])) ?_
          rw [h g (by simp), hab]
          omega
      exact this _ _ _ ih rfl

/-! ### A small formula with many atoms -/

/-- `(g & a) | (g & b)` repeated: the handles of `g` are shared. -/
def shared (a b : Var) : Nat → Formula
  | 0 => .nary .disj [.lit a.p, .lit b.p]
  | k + 1 => .nary .disj [.nary .conj [shared a b k, .lit a.p], .nary .conj [shared a b k, .lit b.p]]

theorem shared_disj (a b : Var) (k : Nat) : ∃ fs, shared a b k = .nary .disj fs := by
  cases k <;> exact ⟨_, rfl⟩

theorem shared_norm {a b : Var} (hab : a ≠ b) (k : Nat) : (shared a b k).Norm := by
  have hl : ∀ {x : Var} (l : Lit), Formula.lit l = .lit x.p → l = x.p := fun l h => by injection h
  induction k with
  | zero =>
    refine .nary (by simp) (by intro f hf; simp at hf; rcases hf with rfl | rfl <;> exact .lit _) ⟨?_, ?_, ?_, ?_, ?_⟩
    · simp [Var.p, hab]
    · intro f hf; simp at hf; rcases hf with rfl | rfl <;> rfl
    · intro f hf gs; simp at hf; rcases hf with rfl | rfl <;> simp
    · intro l h1 h2
      simp [Var.p, Lit.neg] at h1 h2
      rcases h1 with rfl | rfl <;> simp at h2
    · intro f h; simp at h
  | succ k ih =>
    obtain ⟨gs, hg⟩ := shared_disj a b k
    have hc : ∀ x : Var, (Formula.nary .conj [shared a b k, .lit x.p]).Norm := by
      intro x
      refine .nary (by simp) (by intro f hf; simp at hf; rcases hf with rfl | rfl; exacts [ih, .lit _]) ⟨?_, ?_, ?_, ?_, ?_⟩
      · rw [hg]; simp
      · intro f hf; rw [hg] at hf; simp at hf; rcases hf with rfl | rfl <;> rfl
      · intro f hf gs; rw [hg] at hf; simp at hf; rcases hf with rfl | rfl <;> simp
      · intro l h1 h2
        rw [hg] at h1 h2
        simp [Var.p, Lit.neg] at h1 h2
        subst h1; simp at h2
      · intro f h; rw [hg] at h; simp at h
    refine .nary (by simp) (by intro f hf; simp at hf; rcases hf with rfl | rfl <;> exact hc _) ⟨?_, ?_, ?_, ?_, ?_⟩
    · simp [Var.p, hab]
    · intro f hf; simp at hf; rcases hf with rfl | rfl <;> rfl
    · intro f hf gs; simp at hf; rcases hf with rfl | rfl <;> simp
    · intro l h; simp at h
    · intro f h; simp at h

theorem atoms_nary (o : Op) (fs : List Formula) : fnAtoms.val (.nary o fs) = fs.foldl (fun b g => b + fnAtoms.val g) 0 := by
  rw [Fn.val_eq]; rfl

theorem atoms_lit (l : Lit) : fnAtoms.val (.lit l) = 1 := by rw [Fn.val_eq]; rfl

theorem shared_atoms (a b : Var) (k : Nat) : fnAtoms.val (shared a b k) = 2 ^ (k + 2) - 2 := by
  induction k with
  | zero => simp [shared, atoms_nary, atoms_lit]
  | succ k ih =>
    simp only [shared, atoms_nary, atoms_lit, List.foldl_cons, List.foldl_nil, ih]
    have : 2 ^ (k + 1 + 2) = 2 * 2 ^ (k + 2) := by rw [Nat.pow_succ]; omega
    have : 4 ≤ 2 ^ (k + 2) := Nat.pow_le_pow_right (n := 2) (i := 2) (by omega) (by omega)
    omega

/-- The sub-formulas of `shared`. -/
def sharedParts (a b : Var) : Nat → List Formula
  | 0 => [.lit a.p, .lit b.p, shared a b 0]
  | k + 1 => sharedParts a b k ++ [.nary .conj [shared a b k, .lit a.p], .nary .conj [shared a b k, .lit b.p], shared a b (k + 1)]

theorem sharedParts_length (a b : Var) (k : Nat) : (sharedParts a b k).length = 3 * k + 3 := by
  induction k with
  | zero => rfl
  | succ k ih => simp [sharedParts, ih]; omega

theorem sharedParts_lits (a b : Var) (k : Nat) : Formula.lit a.p ∈ sharedParts a b k ∧ Formula.lit b.p ∈ sharedParts a b k := by
  induction k with
  | zero => simp [sharedParts]
  | succ k ih => simp [sharedParts, ih]

theorem sub_lit {g : Formula} {l : Lit} (h : Sub g (.lit l)) : g = .lit l := by
  cases h with
  | refl => rfl
  | op h _ => simp [Formula.operands] at h

theorem shared_sub {a b : Var} {g : Formula} {k : Nat} (h : Sub g (shared a b k)) : g ∈ sharedParts a b k := by
  induction k with
  | zero =>
    rcases sub_operands.1 h with rfl | ⟨o, ho, h⟩
    · simp [sharedParts]
    · simp only [shared, Formula.operands, List.mem_cons, List.not_mem_nil, or_false] at ho
      rcases ho with rfl | rfl <;> rw [sub_lit h] <;> simp [sharedParts]
  | succ k ih =>
    have hl := sharedParts_lits a b k
    simp only [sharedParts, List.mem_append]
    have hc : ∀ x : Var, Formula.lit x.p ∈ sharedParts a b k → Sub g (.nary .conj [shared a b k, .lit x.p]) →
        g = .nary .conj [shared a b k, .lit x.p] ∨ g ∈ sharedParts a b k := by
      intro x hx h
      rcases sub_operands.1 h with rfl | ⟨o, ho, h⟩
      · exact .inl rfl
      · simp only [Formula.operands, List.mem_cons, List.not_mem_nil, or_false] at ho
        rcases ho with rfl | rfl
        · exact .inr (ih h)
        · rw [sub_lit h]; exact .inr hx
    rcases sub_operands.1 h with rfl | ⟨o, ho, h⟩
    · exact .inr (by simp)
    · simp only [shared, Formula.operands, List.mem_cons, List.not_mem_nil, or_false] at ho
      rcases ho with rfl | rfl
      · rcases hc a hl.1 h with rfl | h
        · exact .inr (by simp)
        · exact .inl h
      · rcases hc b hl.2 h with rfl | h
        · exact .inr (by simp)
        · exact .inl h

/-! ### Memory of the Plaisted-Greenbaum transformation -/

mutual
/-- `compute_transformation`, plaisted_greenbaum_on_formula.rs:26-39, with the memory it asks for: `with_capacity` in
line 31 panics if the vector of handles (8 bytes each) does not fit in `isize::MAX` bytes.  `none` is a panic. -/
def pgGc (C : Canon) : Formula → TState → World → Option (Formula × TState × World)
  | .lit _, st, w => some (.tru, st, w)
  | .nary o fs, st, w =>
    if 2 ^ 63 ≤ 8 * ((fnAtoms64.val (.nary o fs) + 1) % 2 ^ 64) then none
    else
      let r := pgPos C o fs st w
      match pgGcs C fs r.2.1 r.2.2 with
      | none => none
      | some (gs, st, w) => some (Formula.mkAnd C (r.1 :: gs), st, w)
  | .tru, _, _ => none
  | .fls, _, _ => none
  | .not _, _, _ => none
  | .impl _ _, _, _ => none
  | .equiv _ _, _, _ => none
  | .cc _, _, _ => none
  | .pbc _, _, _ => none
def pgGcs (C : Canon) : List Formula → TState → World → Option (List Formula × TState × World)
  | [], st, w => some ([], st, w)
  | f :: fs, st, w =>
    match pgGc C f st w with
    | none => none
    | some (g, st, w) =>
      match pgGcs C fs st w with
      | none => none
      | some (gs, st, w) => some (g :: gs, st, w)
end

theorem atoms_op {o : Op} {fs : List Formula} {f : Formula} (h : f ∈ fs) : fnAtoms.val f ≤ fnAtoms.val (.nary o fs) := by
  rw [atoms_nary]
  have key : ∀ (fs : List Formula) (b : Nat), b ≤ fs.foldl (fun b g => b + fnAtoms.val g) b ∧ ∀ f ∈ fs, fnAtoms.val f ≤ fs.foldl (fun b g => b + fnAtoms.val g) b := by
    intro fs
    induction fs with
    | nil => intro b; simp
    | cons g fs ih =>
      intro b
      obtain ⟨h1, h2⟩ := ih (b + fnAtoms.val g)
      simp only [List.foldl_cons]
      refine ⟨by omega, fun f hf => ?_⟩
      rcases List.mem_cons.1 hf with rfl | hf
      · omega
      · exact h2 f hf
  exact (key fs 0).2 f h

theorem pgGc_eq (C : Canon) (f : Formula) : fnAtoms.val f + 1 < 2 ^ 60 → ∀ st w, pgGc C f st w = pgG C f st w := by
  induction f using Formula.ind with
  | nary o fs ih =>
    intro h st w
    have hs : ∀ (gs : List Formula), (∀ g ∈ gs, g ∈ fs) → ∀ st w, pgGcs C gs st w = pgGs C gs st w := by
      intro gs
      induction gs with
      | nil => intro _ st w; simp [pgGcs, pgGs]
      | cons g gs ihl =>
        intro hg st w
        have := atoms_op (o := o) (hg g (by simp))
        simp only [pgGcs, pgGs, ih g (hg g (by simp)) (by omega)]
        cases pgG C g st w with
        | none => rfl
        | some r =>
          simp only [ihl (fun x hx => hg x (by simp [hx]))]
          cases pgGs C gs r.2.1 r.2.2 <;> rfl
    simp only [pgGc, pgG, atoms64_val]
    rw [if_neg (by omega)]
    simp only [hs fs fun _ h => h]
    cases pgGs C fs (pgPos C o fs st w).2.1 (pgPos C o fs st w).2.2 <;> rfl
  | _ => intro _ st w; simp [pgGc, pgG]

end Verif
