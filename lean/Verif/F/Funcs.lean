import Verif.F.Vars

/-
Predicates and functions on formulas, with their caches.
-/
namespace Verif

namespace Formula

/-- `operands`, src/operations/functions/operands.rs:32-40. -/
def operands : Formula → List Formula
  | .pbc _ => []
  | .cc _ => []
  | .lit _ => []
  | .tru => []
  | .fls => []
  | .equiv a b => [a, b]
  | .impl a b => [a, b]
  | .nary _ fs => fs
  | .not f => [f]

end Formula

/-- `OperationCache`, src/formulas/operation_cache.rs:9-30, as a partial map (keyed by handle;
handles and formulas correspond one-to-one, C03). -/
abbrev Memo (α : Type) := Formula → Option α

/-- `OperationCache::insert`, operation_cache.rs:18-20: an existing entry is kept. -/
def Memo.insert {α} (m : Memo α) (f : Formula) (a : α) : Memo α := fun g => if g = f then some ((m f).getD a) else m g

/-- The entries of the cache are the values of `v`. -/
def Memo.Valid {α} (v : Formula → α) (m : Memo α) : Prop := ∀ f a, m f = some a → a = v f

theorem Memo.Valid.insert {α} {v : Formula → α} {m : Memo α} (h : m.Valid v) {f a} (ha : a = v f) : (m.insert f a).Valid v := by
  intro g b hb
  unfold Memo.insert at hb
  split at hb
  · rename_i e; subst e
    cases hm : m g with
    | none => simp [hm] at hb; rw [← hb, ha]
    | some c => simp [hm] at hb; rw [← hb]; exact h g c hm
  · exact h g b hb

/-- The common form of the cached recursive functions of src/operations: a loop over the
operands with accumulator `β`, possibly left early, and a final step.  `noCache` formulas are
answered without looking at the cache. -/
structure Fn (α : Type) where
  β : Type
  noCache : Formula → Bool
  init : Formula → β
  stop : β → Bool
  step : β → α → β
  fin : Formula → β → α

namespace Fn
variable {α : Type} (F : Fn α)

/-- One turn of the loop over the operands. -/
def next (r : Memo α → α × Memo α) (s : F.β × Memo α) : F.β × Memo α :=
  if F.stop s.1 then s else (F.step s.1 (r s.2).1, (r s.2).2)

/-- Looking up and filling the cache (`on`: the factory is configured to fill it). -/
def memo (on : Bool) (f : Formula) (m : Memo α) (c : F.β × Memo α → F.β × Memo α) : α × Memo α :=
  if F.noCache f then (F.fin f (F.init f), m)
  else match m f with
    | some a => (a, m)
    | none =>
      let (b, m') := c (F.init f, m)
      (F.fin f b, if on then m'.insert f (F.fin f b) else m')

mutual
/-- The cached function. -/
def run (on : Bool) : Formula → Memo α → α × Memo α
  | .not g, m => F.memo on (.not g) m fun s => F.next (run on g) s
  | .impl a b, m => F.memo on (.impl a b) m fun s => F.next (run on b) (F.next (run on a) s)
  | .equiv a b, m => F.memo on (.equiv a b) m fun s => F.next (run on b) (F.next (run on a) s)
  | .nary o fs, m => F.memo on (.nary o fs) m fun s => runs on fs s
  | .tru, m => F.memo on .tru m fun s => s
  | .fls, m => F.memo on .fls m fun s => s
  | .lit l, m => F.memo on (.lit l) m fun s => s
  | .cc c, m => F.memo on (.cc c) m fun s => s
  | .pbc p, m => F.memo on (.pbc p) m fun s => s
def runs (on : Bool) : List Formula → F.β × Memo α → F.β × Memo α
  | [], s => s
  | f :: fs, s => runs on fs (F.next (run on f) s)
end

/-- One turn of the loop, without the cache. -/
def nextV (a : α) (b : F.β) : F.β := if F.stop b then b else F.step b a

mutual
/-- The function without the cache. -/
def val : Formula → α
  | .not g => F.fin (.not g) (if F.noCache (.not g) then F.init (.not g) else F.nextV (val g) (F.init (.not g)))
  | .impl a b => F.fin (.impl a b) (if F.noCache (.impl a b) then F.init (.impl a b) else F.nextV (val b) (F.nextV (val a) (F.init (.impl a b))))
  | .equiv a b => F.fin (.equiv a b) (if F.noCache (.equiv a b) then F.init (.equiv a b) else F.nextV (val b) (F.nextV (val a) (F.init (.equiv a b))))
  | .nary o fs => F.fin (.nary o fs) (if F.noCache (.nary o fs) then F.init (.nary o fs) else vals fs (F.init (.nary o fs)))
  | .tru => F.fin .tru (F.init .tru)
  | .fls => F.fin .fls (F.init .fls)
  | .lit l => F.fin (.lit l) (F.init (.lit l))
  | .cc c => F.fin (.cc c) (F.init (.cc c))
  | .pbc p => F.fin (.pbc p) (F.init (.pbc p))
def vals : List Formula → F.β → F.β
  | [], b => b
  | f :: fs, b => vals fs (F.nextV (val f) b)
end

theorem vals_eq (fs : List Formula) : ∀ b, F.vals fs b = fs.foldl (fun b f => F.nextV (F.val f) b) b := by
  induction fs with
  | nil => intro b; simp [vals]
  | cons f fs ih => intro b; simp [vals, ih]

/-- The recursion equation over the list of operands. -/
theorem val_eq (f : Formula) :
    F.val f = F.fin f (if F.noCache f then F.init f else f.operands.foldl (fun b g => F.nextV (F.val g) b) (F.init f)) := by
  cases f <;> simp [val, vals_eq, Formula.operands]

theorem memo_ok {on f m c} (hm : m.Valid F.val)
    (hc : F.noCache f = false → (c (F.init f, m)).1 = f.operands.foldl (fun b g => F.nextV (F.val g) b) (F.init f) ∧
      (c (F.init f, m)).2.Valid F.val) :
    (F.memo on f m c).1 = F.val f ∧ (F.memo on f m c).2.Valid F.val := by
  unfold memo
  split
  · rename_i h
    exact ⟨by rw [F.val_eq f, if_pos h], hm⟩
  · rename_i h
    split
    · rename_i a ha
      exact ⟨hm f a ha, hm⟩
    · obtain ⟨h1, h2⟩ := hc (by simpa using h)
      have hv : F.fin f (c (F.init f, m)).1 = F.val f := by rw [F.val_eq f, if_neg h, h1]
      refine ⟨hv, ?_⟩
      simp only
      split
      · exact h2.insert hv
      · exact h2

theorem next_ok {r : Memo α → α × Memo α} {g} (hr : ∀ m, m.Valid F.val → (r m).1 = F.val g ∧ (r m).2.Valid F.val)
    {s : F.β × Memo α} (hs : s.2.Valid F.val) : (F.next r s).1 = F.nextV (F.val g) s.1 ∧ (F.next r s).2.Valid F.val := by
  unfold next nextV
  split
  · exact ⟨rfl, hs⟩
  · exact ⟨by simp only [(hr _ hs).1], (hr _ hs).2⟩

/-- The cached function computes the uncached one, whatever valid cache it starts from, and
keeps the cache valid. -/
theorem run_ok (on : Bool) (f : Formula) : ∀ m : Memo α, m.Valid F.val →
    (F.run on f m).1 = F.val f ∧ (F.run on f m).2.Valid F.val := by
  induction f using Formula.ind with
  | not g ih =>
    intro m hm
    unfold run
    exact F.memo_ok hm fun _ => by simpa [Formula.operands] using F.next_ok ih hm
  | impl a b iha ihb =>
    intro m hm
    unfold run
    refine F.memo_ok hm fun _ => ?_
    have h1 := F.next_ok iha (s := (F.init (.impl a b), m)) hm
    have h2 := F.next_ok ihb h1.2
    exact ⟨by rw [h2.1, h1.1]; rfl, h2.2⟩
  | equiv a b iha ihb =>
    intro m hm
    unfold run
    refine F.memo_ok hm fun _ => ?_
    have h1 := F.next_ok iha (s := (F.init (.equiv a b), m)) hm
    have h2 := F.next_ok ihb h1.2
    exact ⟨by rw [h2.1, h1.1]; rfl, h2.2⟩
  | nary o fs ih =>
    intro m hm
    unfold run
    have key : ∀ (s : F.β × Memo α), Memo.Valid F.val s.2 → (F.runs on fs s).1 = F.vals fs s.1 ∧ (F.runs on fs s).2.Valid F.val := by
      clear hm
      induction fs with
      | nil => intro s hs; simp [runs, vals, hs]
      | cons f fs ihl =>
        intro s hs
        have h1 := F.next_ok (ih f (by simp)) hs
        have h2 := ihl (fun g hg => ih g (by simp [hg])) (F.next (F.run on f) s) h1.2
        simp only [runs, vals]
        exact ⟨by rw [h2.1, h1.1], h2.2⟩
    refine F.memo_ok hm fun _ => ?_
    have := key (F.init (.nary o fs), m) hm
    rw [vals_eq] at this
    exact this
  | tru => intro m hm; unfold run; exact F.memo_ok hm fun _ => ⟨rfl, hm⟩
  | fls => intro m hm; unfold run; exact F.memo_ok hm fun _ => ⟨rfl, hm⟩
  | lit l => intro m hm; unfold run; exact F.memo_ok hm fun _ => ⟨rfl, hm⟩
  | cc c => intro m hm; unfold run; exact F.memo_ok hm fun _ => ⟨rfl, hm⟩
  | pbc p => intro m hm; unfold run; exact F.memo_ok hm fun _ => ⟨rfl, hm⟩

/-- The cache after any sequence of calls on a new factory. -/
inductive Reach (on : Bool) : Memo α → Prop
  | empty : Reach on fun _ => none
  | call {m} (f : Formula) : Reach on m → Reach on (F.run on f m).2

theorem Reach.valid {F : Fn α} {on} {m : Memo α} (h : F.Reach on m) : m.Valid F.val := by
  induction h with
  | empty => intro f a h; simp at h
  | call f _ ih => exact (F.run_ok on f _ ih).2

end Fn

/-! ### The functions -/

namespace Formula

/-- `is_maxterm`, src/operations/predicates/term.rs:49-55 (also `is_clause`). -/
def isMaxterm : Formula → Bool
  | .tru => true
  | .fls => true
  | .lit _ => true
  | .nary .disj fs => fs.all isLit
  | _ => false

/-- `is_minterm`, term.rs:78-84. -/
def isMinterm : Formula → Bool
  | .tru => true
  | .fls => true
  | .lit _ => true
  | .nary .conj fs => fs.all isLit
  | _ => false

end Formula

/-- `is_dnf`, src/operations/predicates/dnf.rs:29-44 (looks one level down, no recursion). -/
def fnDnf : Fn Bool where
  β := Unit
  noCache _ := false
  init _ := ()
  stop _ := true
  step b _ := b
  fin f _ := match f with
    | .lit _ => true
    | .tru => true
    | .fls => true
    | .nary .conj fs => fs.all Formula.isLit
    | .nary .disj fs => fs.all Formula.isMinterm
    | _ => false

/-- `is_nnf`, src/operations/predicates/nnf.rs:27-41; `all` stops at the first `false`. For
`Not`, `Impl`, `Equiv` the code does not look at the operands: `stop` is set from the start. -/
def fnNnf : Fn Bool where
  β := Bool
  noCache _ := false
  init f := match f with
    | .nary _ _ => true
    | .lit _ => true
    | .tru => true
    | .fls => true
    | _ => false
  stop b := !b
  step _ a := a
  fin _ b := b

/-- Insertion into a set. -/
def setIns {α : Type} [DecidableEq α] (s : List α) (a : α) : List α := if a ∈ s then s else s ++ [a]
/-- `extend` on a set. -/
def setExt {α : Type} [DecidableEq α] (s t : List α) : List α := t.foldl setIns s

theorem mem_setIns {α : Type} [DecidableEq α] {s : List α} {a b : α} : b ∈ setIns s a ↔ b ∈ s ∨ b = a := by
  unfold setIns
  split
  · constructor
    · exact .inl
    · rintro (h | rfl) <;> assumption
  · simp
theorem mem_setExt {α : Type} [DecidableEq α] {t : List α} {b : α} : ∀ {s : List α}, b ∈ setExt s t ↔ b ∈ s ∨ b ∈ t := by
  induction t with
  | nil => intro s; simp [setExt]
  | cons a t ih =>
    intro s
    have : setExt s (a :: t) = setExt (setIns s a) t := rfl
    rw [this, ih, mem_setIns]
    simp [or_assoc]
theorem nodup_setIns {α : Type} [DecidableEq α] {s : List α} {a : α} (h : s.Nodup) : (setIns s a).Nodup := by
  unfold setIns
  split
  · exact h
  · rw [List.nodup_append]
    refine ⟨h, by simp, ?_⟩
    rintro x hx y hy rfl
    simp at hy; subst hy; contradiction
theorem nodup_setExt {α : Type} [DecidableEq α] {t : List α} : ∀ {s : List α}, s.Nodup → (setExt s t).Nodup := by
  induction t with
  | nil => intro s h; exact h
  | cons a t ih => intro s h; exact ih (nodup_setIns h)

/-- `variables`, src/operations/functions/literals.rs:116-139.  The `BTreeSet` is a list
without duplicates; its order is not modelled. -/
def fnVars : Fn (List Var) where
  β := List Var
  noCache _ := false
  init f := match f with
    | .lit l => setIns [] l.v
    | .cc c => setExt [] c.vars
    | .pbc p => setExt [] (p.terms.map fun t => t.1.v)
    | _ => []
  stop _ := false
  step := setExt
  fin _ b := b

/-- `literals`, literals.rs:188-213. -/
def fnLits : Fn (List Lit) where
  β := List Lit
  noCache _ := false
  init f := match f with
    | .lit l => setIns [] l
    | .cc c => setExt [] (c.vars.map fun v => v.p)
    | .pbc p => setExt [] (p.terms.map fun t => t.1)
    | _ => []
  stop _ := false
  step := setExt
  fin _ b := b

/-- `sub_nodes`, src/operations/functions/sub_node_function.rs:43-86.  Without the global
cache the code uses a local one; here `on := true` with an empty cache.  The test
`!result_set.contains(&formula)` (line 69) is left out: a formula is no sub-node of its
operands (`not_sub_operand`). -/
def fnSub : Fn (List Formula) where
  β := List Formula
  noCache _ := false
  init _ := []
  stop _ := false
  step := setExt
  fin f b := b ++ [f]

/-- `is_atomic`, src/formulas/formula.rs:444-446. -/
def Formula.isAtomic : Formula → Bool
  | .lit _ => true
  | .tru => true
  | .fls => true
  | .cc _ => true
  | .pbc _ => true
  | _ => false

/-- `number_of_atoms`, sub_node_function.rs:110-122 (`u64` as a natural number, see `fnAtoms64`). -/
def fnAtoms : Fn Nat where
  β := Nat
  noCache := Formula.isAtomic
  init f := if f.isAtomic then 1 else 0
  stop _ := false
  step a b := a + b
  fin _ b := b

/-- `number_of_atoms`, sub_node_function.rs:110-122, with the `u64` sum of line 116 wrapping around as in a
release build (a build with overflow checks panics instead). -/
def fnAtoms64 : Fn Nat where
  β := Nat
  noCache := Formula.isAtomic
  init f := if f.isAtomic then 1 else 0
  stop _ := false
  step a b := (a + b) % 2 ^ 64
  fin _ b := b

/-- `formula_depth`, src/operations/functions/formula_depth_function.rs:34-52.  The panic on a
non-atomic formula without operands is not modelled (the factory builds no such formula). -/
def fnDepth : Fn Nat where
  β := Option Nat
  noCache _ := false
  init _ := none
  stop _ := false
  step b a := some (max (b.getD 0) a)
  fin f b := if f.isAtomic then 0 else 1 + b.getD 0

/-! ### What they compute -/

/-- Sub-formulas (specification). -/
inductive Sub : Formula → Formula → Prop
  | refl (f) : Sub f f
  | op {g o f} : o ∈ f.operands → Sub g o → Sub g f

theorem sub_operands {g f : Formula} : Sub g f ↔ g = f ∨ ∃ o ∈ f.operands, Sub g o :=
  ⟨fun h => by cases h with | refl => exact .inl rfl | op h1 h2 => exact .inr ⟨_, h1, h2⟩,
   fun h => by rcases h with rfl | ⟨o, h1, h2⟩; exacts [.refl _, .op h1 h2]⟩

theorem Sub.trans {a b c : Formula} (h1 : Sub a b) (h2 : Sub b c) : Sub a c := by
  induction h2 with
  | refl => exact h1
  | op h _ ih => exact .op h ih

theorem sizeOf_operand {o f : Formula} (h : o ∈ f.operands) : sizeOf o < sizeOf f := by
  cases f <;> simp only [Formula.operands, List.not_mem_nil, List.mem_cons, or_false] at h
  · subst h; simp
  · rcases h with rfl | rfl <;> simp <;> omega
  · rcases h with rfl | rfl <;> simp <;> omega
  · have := List.sizeOf_lt_of_mem h; simp; omega

theorem sizeOf_sub {g f : Formula} (h : Sub g f) : sizeOf g ≤ sizeOf f := by
  induction h with
  | refl => exact Nat.le_refl _
  | op h _ ih => have := sizeOf_operand h; omega

theorem not_sub_operand {o f : Formula} (h : o ∈ f.operands) : ¬ Sub f o := by
  intro hs
  have := sizeOf_sub hs
  have := sizeOf_operand h
  omega

/-- Induction over operands. -/
theorem ind_operands {P : Formula → Prop} (h : ∀ f, (∀ o ∈ f.operands, P o) → P f) (f : Formula) : P f := by
  induction f using Formula.ind with
  | not f ih => exact h _ (by simpa [Formula.operands] using ih)
  | impl a b iha ihb => exact h _ (by simpa [Formula.operands] using ⟨iha, ihb⟩)
  | equiv a b iha ihb => exact h _ (by simpa [Formula.operands] using ⟨iha, ihb⟩)
  | nary o fs ih => exact h _ (by simpa [Formula.operands] using ih)
  | _ => exact h _ (by simp [Formula.operands])

theorem foldl_ext_mem {α : Type} [DecidableEq α] {v : Formula → List α} (fs : List Formula) : ∀ (b : List α) x,
    x ∈ fs.foldl (fun b g => setExt b (v g)) b ↔ x ∈ b ∨ ∃ f ∈ fs, x ∈ v f := by
  induction fs with
  | nil => intro b x; simp
  | cons f fs ih => intro b x; simp only [List.foldl_cons, ih, mem_setExt, List.mem_cons, exists_eq_or_imp, or_assoc]

theorem foldl_ext_nodup {α : Type} [DecidableEq α] {v : Formula → List α} (fs : List Formula) : ∀ (b : List α),
    b.Nodup → (fs.foldl (fun b g => setExt b (v g)) b).Nodup := by
  induction fs with
  | nil => intro b h; exact h
  | cons f fs ih => intro b h; exact ih _ (nodup_setExt h)

theorem vars_val (f : Formula) : (∀ v, v ∈ fnVars.val f ↔ Occ v f) ∧ (fnVars.val f).Nodup := by
  induction f using ind_operands with
  | h f ih =>
    have e : fnVars.val f = f.operands.foldl (fun b g => setExt b (fnVars.val g)) (fnVars.init f) := by
      rw [Fn.val_eq]; rfl
    rw [e]
    refine ⟨fun v => ?_, foldl_ext_nodup _ _ ?_⟩
    · have h1 := foldl_ext_mem (v := fnVars.val) f.operands (fnVars.init f) v
      rw [h1]
      have h2 : (∃ g ∈ f.operands, v ∈ fnVars.val g) ↔ ∃ g ∈ f.operands, Occ v g :=
        ⟨fun ⟨g, h, h'⟩ => ⟨g, h, ((ih g h).1 v).1 h'⟩, fun ⟨g, h, h'⟩ => ⟨g, h, ((ih g h).1 v).2 h'⟩⟩
      rw [h2]
      cases f <;> simp [fnVars, Formula.operands, mem_setIns, mem_setExt, eq_comm]
    · cases f <;> simp only [fnVars] <;> first | exact List.nodup_nil | exact nodup_setIns List.nodup_nil | exact nodup_setExt List.nodup_nil

/-- Literal `l` occurs in the formula; variables of cardinality constraints occur
positively (specification). -/
inductive OccL (l : Lit) : Formula → Prop
  | lit : OccL l (.lit l)
  | op {f o} : o ∈ f.operands → OccL l o → OccL l f
  | cc {c : CC} {v} : v ∈ c.vars → l = v.p → OccL l (.cc c)
  | pbc {p : PBC} {t} : t ∈ p.terms → t.1 = l → OccL l (.pbc p)

theorem lits_val (f : Formula) : (∀ l, l ∈ fnLits.val f ↔ OccL l f) ∧ (fnLits.val f).Nodup := by
  induction f using ind_operands with
  | h f ih =>
    have e : fnLits.val f = f.operands.foldl (fun b g => setExt b (fnLits.val g)) (fnLits.init f) := by
      rw [Fn.val_eq]; rfl
    rw [e]
    refine ⟨fun l => ?_, foldl_ext_nodup _ _ ?_⟩
    · have h1 := foldl_ext_mem (v := fnLits.val) f.operands (fnLits.init f) l
      rw [h1]
      constructor
      · rintro (h | ⟨g, hg, h⟩)
        · cases f <;> simp only [fnLits, List.not_mem_nil, mem_setIns, mem_setExt, false_or, List.mem_map] at h
          · subst h; exact .lit
          · obtain ⟨v, hv, rfl⟩ := h; exact .cc hv rfl
          · obtain ⟨t, ht, rfl⟩ := h; exact .pbc ht rfl
        · exact .op hg (((ih g hg).1 l).1 h)
      · intro h
        cases h with
        | lit => left; simp [fnLits, mem_setIns]
        | op hg ho => right; exact ⟨_, hg, ((ih _ hg).1 l).2 ho⟩
        | cc hv e' => left; subst e'; simp only [fnLits, mem_setExt, List.mem_map]; right; exact ⟨_, hv, rfl⟩
        | pbc ht e' => left; subst e'; simp only [fnLits, mem_setExt, List.mem_map]; right; exact ⟨_, ht, rfl⟩
    · cases f <;> simp only [fnLits] <;> first | exact List.nodup_nil | exact nodup_setIns List.nodup_nil | exact nodup_setExt List.nodup_nil

/-- Every formula in the list comes after its operands. -/
def Topo (l : List Formula) : Prop := ∀ l1 g l2, l = l1 ++ g :: l2 → ∀ o ∈ g.operands, o ∈ l1

theorem Topo.snoc {l : List Formula} {f : Formula} (h : Topo l) (hf : ∀ o ∈ f.operands, o ∈ l) : Topo (l ++ [f]) := by
  intro l1 g l2 e o ho
  rcases List.eq_nil_or_concat l2 with rfl | ⟨l3, x, rfl⟩
  · have e' : l ++ [f] = l1 ++ [g] := by simpa using e
    obtain ⟨rfl, h2⟩ := List.append_inj' e' rfl
    simp at h2; subst h2
    exact hf o ho
  · have e' : l ++ [f] = (l1 ++ g :: l3) ++ [x] := by simpa using e
    obtain ⟨e1, _⟩ := List.append_inj' e' rfl
    exact h l1 g l3 e1 o ho

theorem Topo.ext {l l' : List Formula} (h : Topo l) (h' : Topo l') : Topo (setExt l l') := by
  suffices H : ∀ (d r : List Formula), l' = d ++ r → ∀ acc, Topo acc → (∀ x ∈ d, x ∈ acc) → Topo (r.foldl setIns acc) from
    H [] l' rfl l h (by simp)
  intro d r
  induction r generalizing d with
  | nil => intro _ acc ha _; exact ha
  | cons x r ih =>
    intro e acc ha hd
    have hx := h' d x r e
    simp only [List.foldl_cons]
    refine ih (d ++ [x]) (by simp [e]) _ ?_ ?_
    · unfold setIns
      split
      · exact ha
      · exact ha.snoc fun o ho => hd o (hx o ho)
    · intro y hy
      rw [mem_setIns]
      simp only [List.mem_append, List.mem_singleton] at hy
      rcases hy with hy | rfl
      · exact .inl (hd y hy)
      · exact .inr rfl

theorem sub_val (f : Formula) : (∀ g, g ∈ fnSub.val f ↔ Sub g f) ∧ (fnSub.val f).Nodup ∧ Topo (fnSub.val f) ∧
    ∃ l, fnSub.val f = l ++ [f] := by
  induction f using ind_operands with
  | h f ih =>
    have e : fnSub.val f = f.operands.foldl (fun b g => setExt b (fnSub.val g)) [] ++ [f] := by
      rw [Fn.val_eq]; rfl
    have hmem := fun x => foldl_ext_mem (v := fnSub.val) f.operands [] x
    have htopo : Topo (f.operands.foldl (fun b g => setExt b (fnSub.val g)) []) := by
      have : ∀ (fs : List Formula) (b : List Formula), (∀ g ∈ fs, Topo (fnSub.val g)) → Topo b →
          Topo (fs.foldl (fun b g => setExt b (fnSub.val g)) b) := by
        intro fs
        induction fs with
        | nil => intro b _ h; exact h
        | cons g fs ihl =>
          intro b hf h
          exact ihl _ (fun x hx => hf x (by simp [hx])) (h.ext (hf g (by simp)))
      exact this _ _ (fun g hg => (ih g hg).2.2.1) (by intro l1 g l2 e; simp at e)
    have hnd := foldl_ext_nodup (v := fnSub.val) f.operands [] List.nodup_nil
    rw [e]
    refine ⟨fun g => ?_, ?_, ?_, _, rfl⟩
    · rw [List.mem_append, hmem, sub_operands]
      simp only [List.not_mem_nil, false_or, List.mem_singleton]
      constructor
      · rintro (⟨o, ho, h⟩ | h)
        · exact .inr ⟨o, ho, ((ih o ho).1 g).1 h⟩
        · exact .inl h
      · rintro (h | ⟨o, ho, h⟩)
        · exact .inr h
        · exact .inl ⟨o, ho, ((ih o ho).1 g).2 h⟩
    · rw [List.nodup_append]
      refine ⟨hnd, by simp, ?_⟩
      rintro x hx y hy rfl
      simp at hy; subst hy
      rw [hmem] at hx
      simp only [List.not_mem_nil, false_or] at hx
      obtain ⟨o, ho, h⟩ := hx
      exact not_sub_operand ho (((ih o ho).1 x).1 h)
    · refine htopo.snoc fun o ho => ?_
      rw [hmem]
      exact .inr ⟨o, ho, ((ih o ho).1 o).2 (.refl o)⟩

theorem norm_operands {f : Formula} (hn : f.Norm) : ∀ g ∈ f.operands, g.Norm := by
  intro g hg
  cases hn with
  | not h _ _ _ => simp only [Formula.operands, List.mem_singleton] at hg; subst hg; exact h
  | impl h1 h2 _ _ _ => simp only [Formula.operands, List.mem_cons, List.not_mem_nil, or_false] at hg; rcases hg with rfl | rfl; exacts [h1, h2]
  | equiv h1 h2 _ _ _ => simp only [Formula.operands, List.mem_cons, List.not_mem_nil, or_false] at hg; rcases hg with rfl | rfl; exacts [h1, h2]
  | nary _ h _ => exact h g hg
  | _ => simp [Formula.operands] at hg

theorem atomic_iff {f : Formula} (hn : f.Norm) : f.isAtomic = true ↔ f.operands = [] := by
  cases hn with
  | nary hl _ _ =>
    simp only [Formula.isAtomic, Formula.operands, Bool.false_eq_true, false_iff]
    rintro rfl; simp at hl
  | _ => simp [Formula.isAtomic, Formula.operands]

/-- A chain of `n` operand steps starts at the formula (specification). -/
inductive Chain : Nat → Formula → Prop
  | nil (f) : Chain 0 f
  | cons {n o f} : o ∈ f.operands → Chain n o → Chain (n + 1) f

theorem depth_val {f : Formula} (hn : f.Norm) : Chain (fnDepth.val f) f ∧ ∀ n, Chain n f → n ≤ fnDepth.val f := by
  induction f using ind_operands with
  | h f ih =>
    have e : fnDepth.val f = if f.isAtomic then 0 else
        1 + (f.operands.foldl (fun (b : Option Nat) g => some (max (b.getD 0) (fnDepth.val g))) none).getD 0 := by
      rw [Fn.val_eq]; rfl
    have key : ∀ (fs : List Formula) (b : Option Nat),
        b.getD 0 ≤ (fs.foldl (fun (b : Option Nat) g => some (max (b.getD 0) (fnDepth.val g))) b).getD 0 ∧
        (∀ g ∈ fs, fnDepth.val g ≤ (fs.foldl (fun (b : Option Nat) g => some (max (b.getD 0) (fnDepth.val g))) b).getD 0) ∧
        ((fs.foldl (fun (b : Option Nat) g => some (max (b.getD 0) (fnDepth.val g))) b).getD 0 = b.getD 0 ∨
          ∃ g ∈ fs, fnDepth.val g = (fs.foldl (fun (b : Option Nat) g => some (max (b.getD 0) (fnDepth.val g))) b).getD 0) := by
      intro fs
      induction fs with
      | nil => intro b; simp
      | cons g fs ihl =>
        intro b
        obtain ⟨h1, h2, h3⟩ := ihl (some (max (b.getD 0) (fnDepth.val g)))
        simp only [Option.getD_some] at h1 h3
        simp only [List.foldl_cons]
        refine ⟨by omega, ?_, ?_⟩
        · intro x hx
          rcases List.mem_cons.1 hx with rfl | hx
          · omega
          · exact h2 x hx
        · rcases h3 with h3 | ⟨x, hx, h3⟩
          · rcases Nat.le_total (b.getD 0) (fnDepth.val g) with h | h
            · right; exact ⟨g, by simp, by rw [h3]; omega⟩
            · left; rw [h3]; omega
          · right; exact ⟨x, by simp [hx], h3⟩
    obtain ⟨_, h2, h3⟩ := key f.operands none
    have hops : f.isAtomic = false → ∃ g, g ∈ f.operands := by
      intro ha
      cases ho : f.operands with
      | nil => rw [(atomic_iff hn).2 ho] at ha; simp at ha
      | cons g gs => exact ⟨g, by simp⟩
    have hnorm := norm_operands hn
    rw [e]
    generalize (f.operands.foldl (fun (b : Option Nat) g => some (max (b.getD 0) (fnDepth.val g))) none).getD 0 = d at h2 h3
    split
    · rename_i ha
      refine ⟨.nil f, ?_⟩
      intro n h
      cases h with
      | nil => exact Nat.le_refl _
      | cons ho _ => cases f <;> simp [Formula.isAtomic] at ha <;> simp [Formula.operands] at ho
    · rename_i ha
      constructor
      · have : ∃ g ∈ f.operands, fnDepth.val g = d := by
          rcases h3 with h3 | h3
          · obtain ⟨g, hg⟩ := hops (by simpa using ha)
            have := h2 g hg
            simp only [Option.getD_none] at h3
            exact ⟨g, hg, by omega⟩
          · exact h3
        obtain ⟨g, hg, rfl⟩ := this
        rw [Nat.add_comm]
        exact .cons hg (ih g hg (hnorm g hg)).1
      · intro n h
        cases h with
        | nil => omega
        | cons ho hc =>
          have := (ih _ ho (hnorm _ ho)).2 _ hc
          have := h2 _ ho
          omega

/-- The leaves of the formula from left to right, with repetitions (specification). -/
def leaves : Nat → Formula → List Formula
  | 0, _ => []
  | n + 1, f => if f.operands = [] then [f] else f.operands.flatMap (leaves n)

theorem leaves_stable {f : Formula} : ∀ {m n}, sizeOf f ≤ m → sizeOf f ≤ n → leaves m f = leaves n f := by
  induction f using ind_operands with
  | h f ih =>
    intro m n hm hn
    have hpos : 0 < sizeOf f := by cases f <;> simp <;> omega
    obtain ⟨m, rfl⟩ : ∃ k, m = k + 1 := ⟨m - 1, by omega⟩
    obtain ⟨n, rfl⟩ : ∃ k, n = k + 1 := ⟨n - 1, by omega⟩
    simp only [leaves]
    split
    · rfl
    · refine congrArg List.flatten (List.map_congr_left fun o ho => ?_)
      have := sizeOf_operand ho
      exact ih o ho (by omega) (by omega)

theorem atoms_val {f : Formula} (hn : f.Norm) : ∀ n, sizeOf f ≤ n → fnAtoms.val f = (leaves n f).length := by
  induction f using ind_operands with
  | h f ih =>
    intro n hle
    have hpos : 0 < sizeOf f := by cases f <;> simp <;> omega
    obtain ⟨n, rfl⟩ : ∃ k, n = k + 1 := ⟨n - 1, by omega⟩
    have e : fnAtoms.val f = if f.isAtomic then (if f.isAtomic then 1 else 0) else f.operands.foldl (fun b g => b + fnAtoms.val g) (if f.isAtomic then 1 else 0) := by
      rw [Fn.val_eq]; rfl
    have hnorm := norm_operands hn
    have hat := atomic_iff hn
    rw [e]
    simp only [leaves]
    by_cases ha : f.isAtomic = true
    · simp [ha, hat.1 ha]
    · rw [if_neg ha, if_neg ha, if_neg (fun h => ha (hat.2 h))]
      have : ∀ (fs : List Formula) (b : Nat), (∀ g ∈ fs, fnAtoms.val g = (leaves n g).length) →
          fs.foldl (fun b g => b + fnAtoms.val g) b = b + (fs.flatMap (leaves n)).length := by
        intro fs
        induction fs with
        | nil => intro b _; simp
        | cons g fs ihl =>
          intro b h
          simp only [List.foldl_cons, List.flatMap_cons, List.length_append]
          rw [ihl _ fun x hx => h x (by simp [hx]), h g (by simp)]
          omega
      rw [this _ _ fun g hg => ih g hg (hnorm g hg) n (by have := sizeOf_operand hg; omega)]
      simp

/-! ### Depth-first search -/

/-- The inner loop of the searches: operands not seen before go on the stack. -/
def pushOps : List Formula → List Formula × List Formula → List Formula × List Formula
  | [], s => s
  | o :: os, (stack, seen) => if o ∈ seen then pushOps os (stack, seen) else pushOps os (o :: stack, o :: seen)

/-- The search loop of src/operations/predicates/contains.rs:31-51, 83-104 and
contains_pbc.rs:33-61: `test` is the match for the current formula; operands are pushed
unless the answer came from a cache (`expand`).  `none`: not finished with this fuel. -/
def dfs (test expand : Formula → Bool) : Nat → List Formula → List Formula → Option Bool
  | _, [], _ => some false
  | 0, _ :: _, _ => none
  | n + 1, c :: stack, seen =>
    if test c then some true
    else if expand c then
      let s := pushOps c.operands (stack, seen)
      dfs test expand n s.1 s.2
    else dfs test expand n stack seen

/-- `contains_node`, contains.rs:75-106.  The loop runs at most once per sub-formula
(`dfs_spec`), which bounds the fuel. -/
def Formula.containsNode (f node : Formula) : Option Bool :=
  dfs (fun c => decide (c = node) || match c with
    | .cc k => k.vars.any fun v => decide (Formula.lit v.p = node)
    | .pbc p => p.terms.any fun t => decide (Formula.lit t.1 = node) || decide (Formula.lit t.1.v.p = node)
    | _ => false) (fun _ => true) (fnSub.val f).length [f] [f]

/-- `contains_var_name`, contains.rs:25-52, with the variable in place of its name. -/
def Formula.containsVar (f : Formula) (x : Var) : Option Bool :=
  dfs (fun c => match c with
    | .lit l => decide (l.v = x)
    | .cc k => k.vars.any fun v => decide (v = x)
    | .pbc p => p.terms.any fun t => decide (t.1.v = x)
    | _ => false) (fun _ => true) (fnSub.val f).length [f] [f]

/-- `contains_pbc`, contains_pbc.rs:27-62, with the cache. -/
def Formula.containsPbc (on : Bool) (f : Formula) (m : Memo Bool) : Option Bool × Memo Bool :=
  let r := dfs (fun c => match m c with
    | some b => b
    | none => match c with
      | .pbc _ => true
      | .cc _ => true
      | _ => false) (fun c => (m c).isNone) (fnSub.val f).length [f] [f]
  (r, if r = some true && on then m.insert f true else m)

theorem pushOps_spec (os : List Formula) : ∀ stack seen, ∃ new,
    (pushOps os (stack, seen)).1 = new ++ stack ∧ (pushOps os (stack, seen)).2 = new ++ seen ∧
    (seen.Nodup → (new ++ seen).Nodup) ∧ (∀ x ∈ new, x ∈ os) ∧ (∀ o ∈ os, o ∈ new ++ seen) := by
  induction os with
  | nil => intro stack seen; exact ⟨[], by simp [pushOps], by simp [pushOps], by simp, by simp, by simp⟩
  | cons o os ih =>
    intro stack seen
    simp only [pushOps]
    split
    · rename_i h
      obtain ⟨new, h1, h2, h3, h4, h5⟩ := ih stack seen
      refine ⟨new, h1, h2, h3, fun x hx => by simp [h4 x hx], fun x hx => ?_⟩
      rcases List.mem_cons.1 hx with rfl | hx
      · simp [h]
      · exact h5 x hx
    · rename_i h
      obtain ⟨new, h1, h2, h3, h4, h5⟩ := ih (o :: stack) (o :: seen)
      refine ⟨new ++ [o], by simp [h1], by simp [h2], fun hs => ?_, fun x hx => ?_, fun x hx => ?_⟩
      · have := h3 (List.nodup_cons.2 ⟨h, hs⟩)
        simpa using this
      · simp only [List.mem_append, List.mem_singleton] at hx
        rcases hx with hx | rfl
        · simp [h4 x hx]
        · simp
      · rcases List.mem_cons.1 hx with rfl | hx
        · simp
        · have := h5 x hx
          simpa using this

theorem nodup_length_le {α : Type} [DecidableEq α] {a b : List α} (h : a.Nodup) (hs : ∀ x ∈ a, x ∈ b) : a.length ≤ b.length := by
  induction a generalizing b with
  | nil => simp
  | cons x a ih =>
    have hx := hs x (by simp)
    rw [List.nodup_cons] at h
    have := ih (b := b.erase x) h.2 fun y hy => by
      have hne : y ≠ x := fun e => h.1 (e ▸ hy)
      exact (List.mem_erase_of_ne hne).2 (hs y (by simp [hy]))
    have hl : (b.erase x).length = b.length - 1 := List.length_erase_of_mem hx
    have : 0 < b.length := List.length_pos_of_mem hx
    simp only [List.length_cons]; omega

theorem dfs_spec (test expand : Formula → Bool) (root : Formula)
    (hexp : ∀ g, expand g = false → test g = false → ∀ h, Sub h g → test h = false) :
    ∀ n stack seen, seen.Nodup → (∀ x ∈ stack, x ∈ seen) → (∀ x ∈ seen, Sub x root) →
    (∀ x ∈ seen, x ∉ stack → test x = false ∧ (expand x = false ∨ ∀ o ∈ x.operands, o ∈ seen)) →
    stack.length + (fnSub.val root).length ≤ n + seen.length → root ∈ seen → stack.Nodup →
    ∃ b, dfs test expand n stack seen = some b ∧ (b = true ↔ ∃ g, Sub g root ∧ test g = true) := by
  have hsub := sub_val root
  intro n
  induction n with
  | zero =>
    intro stack seen h1 h2 h3 h4 h5 h6 h7
    cases stack with
    | nil =>
      refine ⟨false, by simp [dfs], ?_⟩
      simp only [Bool.false_eq_true, false_iff]
      rintro ⟨g, hg, ht⟩
      have key : ∀ x g, Sub g x → x ∈ seen → test g = false := by
        intro x g h
        induction h with
        | refl => intro hx; exact (h4 _ hx (by simp)).1
        | op ho hg' ih =>
          intro hx
          obtain ⟨t1, t2⟩ := h4 _ hx (by simp)
          rcases t2 with t2 | t2
          · exact hexp _ t2 t1 _ (.op ho hg')
          · exact ih (t2 _ ho)
      rw [key root g hg h6] at ht; simp at ht
    | cons c st =>
      exfalso
      have := nodup_length_le h1 fun x hx => (hsub.1 x).2 (h3 x hx)
      simp only [List.length_cons] at h5
      omega
  | succ n ih =>
    intro stack seen h1 h2 h3 h4 h5 h6 h7
    cases stack with
    | nil =>
      refine ⟨false, by simp [dfs], ?_⟩
      simp only [Bool.false_eq_true, false_iff]
      rintro ⟨g, hg, ht⟩
      have key : ∀ x g, Sub g x → x ∈ seen → test g = false := by
        intro x g h
        induction h with
        | refl => intro hx; exact (h4 _ hx (by simp)).1
        | op ho hg' ih =>
          intro hx
          obtain ⟨t1, t2⟩ := h4 _ hx (by simp)
          rcases t2 with t2 | t2
          · exact hexp _ t2 t1 _ (.op ho hg')
          · exact ih (t2 _ ho)
      rw [key root g hg h6] at ht; simp at ht
    | cons c st =>
      simp only [dfs]
      have hc := h3 c (h2 c (by simp))
      rw [List.nodup_cons] at h7
      split
      · rename_i ht
        exact ⟨true, rfl, by simp; exact ⟨c, hc, ht⟩⟩
      · rename_i ht
        have ht : test c = false := by simpa using ht
        split
        · obtain ⟨new, e1, e2, e3, e4, e5⟩ := pushOps_spec c.operands st seen
          rw [e1, e2]
          have hnd := e3 h1
          refine ih _ _ hnd ?_ ?_ ?_ ?_ (by simp [h6]) ?_
          · intro x hx
            simp only [List.mem_append] at hx ⊢
            exact hx.imp id fun h => h2 x (by simp [h])
          · intro x hx
            simp only [List.mem_append] at hx
            rcases hx with hx | hx
            · exact Sub.trans (.op (e4 x hx) (.refl x)) hc
            · exact h3 x hx
          · intro x hx hn
            simp only [List.mem_append, not_or] at hx hn
            rcases hx with hx | hx
            · exact absurd hx hn.1
            · by_cases hxc : x = c
              · subst hxc; exact ⟨ht, .inr e5⟩
              · obtain ⟨t1, t2⟩ := h4 x hx (by simp [hxc, hn.2])
                exact ⟨t1, t2.imp id fun t2 o ho => List.mem_append.2 (.inr (t2 o ho))⟩
          · simp only [List.length_append, List.length_cons] at h5 ⊢; omega
          · rw [List.nodup_append]
            rw [List.nodup_append] at hnd
            exact ⟨hnd.1, h7.2, fun x hx y hy => hnd.2.2 x hx y (h2 y (by simp [hy]))⟩
        · rename_i he
          refine ih _ _ h1 (fun x hx => h2 x (by simp [hx])) h3 ?_ ?_ h6 h7.2
          · intro x hx hn
            by_cases hxc : x = c
            · subst hxc; exact ⟨ht, .inl (by simpa using he)⟩
            · exact h4 x hx (by simp [hxc, hn])
          · simp only [List.length_cons] at h5; omega

theorem dfs_root (test expand : Formula → Bool) (root : Formula)
    (hexp : ∀ g, expand g = false → test g = false → ∀ h, Sub h g → test h = false) :
    ∃ b, dfs test expand (fnSub.val root).length [root] [root] = some b ∧ (b = true ↔ ∃ g, Sub g root ∧ test g = true) :=
  dfs_spec test expand root hexp _ _ _ (by simp) (by simp) (by simpa using Sub.refl root)
    (by intro x hx hn; exact absurd hx hn) (by simp; omega) (by simp) (by simp)

/-! ### Variable profile -/

/-- Counting one occurrence: `entry(v).and_modify(+1).or_insert(1)`,
src/operations/functions/variable_profile_function.rs:35. -/
def bump (m : Var → Option Nat) (v : Var) : Var → Option Nat := fun x => if x = v then some ((m v).getD 0 + 1) else m x

mutual
/-- `variable_profile_rec`, variable_profile_function.rs:32-45. -/
def profile : Formula → (Var → Option Nat) → Var → Option Nat
  | .lit l, m => bump m l.v
  | .cc c, m => c.vars.foldl bump m
  | .pbc p, m => (p.terms.map fun t => t.1.v).foldl bump m
  | .not f, m => profile f m
  | .impl a b, m => profile b (profile a m)
  | .equiv a b, m => profile b (profile a m)
  | .nary _ fs, m => profiles fs m
  | .tru, m => m
  | .fls, m => m
def profiles : List Formula → (Var → Option Nat) → Var → Option Nat
  | [], m => m
  | f :: fs, m => profiles fs (profile f m)
end

mutual
/-- All variable occurrences from left to right (specification). -/
def occList : Formula → List Var
  | .lit l => [l.v]
  | .cc c => c.vars
  | .pbc p => p.terms.map fun t => t.1.v
  | .not f => occList f
  | .impl a b => occList a ++ occList b
  | .equiv a b => occList a ++ occList b
  | .nary _ fs => occLists fs
  | .tru => []
  | .fls => []
def occLists : List Formula → List Var
  | [] => []
  | f :: fs => occList f ++ occLists fs
end

theorem profile_eq (f : Formula) : ∀ m, profile f m = (occList f).foldl bump m := by
  induction f using Formula.ind with
  | nary o fs ih =>
    have : ∀ m, profiles fs m = (occLists fs).foldl bump m := by
      induction fs with
      | nil => intro m; simp [profiles, occLists]
      | cons f fs ihl =>
        intro m
        simp only [profiles, occLists, List.foldl_append]
        rw [ih f (by simp), ihl fun g hg => ih g (by simp [hg])]
    intro m; simp only [profile, occList]; exact this m
  | not f ih => intro m; simp [profile, occList, ih]
  | impl a b iha ihb => intro m; simp [profile, occList, iha, ihb]
  | equiv a b iha ihb => intro m; simp [profile, occList, iha, ihb]
  | _ => intro m; simp [profile, occList]

theorem foldl_bump (vs : List Var) : ∀ (m : Var → Option Nat) x,
    vs.foldl bump m x = if x ∈ vs then some ((m x).getD 0 + vs.count x) else m x := by
  induction vs with
  | nil => intro m x; simp
  | cons v vs ih =>
    intro m x
    simp only [List.foldl_cons, ih, List.mem_cons, List.count_cons]
    by_cases h1 : x = v
    · subst h1
      by_cases h2 : x ∈ vs
      · simp [h2, bump]; omega
      · simp [h2, bump, List.count_eq_zero.2 h2]
    · have : (v == x) = false := by simp; exact fun e => h1 e.symm
      by_cases h2 : x ∈ vs <;> simp [h1, h2, bump, this]

theorem mem_occList (v : Var) (f : Formula) : v ∈ occList f ↔ Occ v f := by
  induction f using Formula.ind with
  | nary o fs ih =>
    have : v ∈ occLists fs ↔ ∃ f ∈ fs, Occ v f := by
      induction fs with
      | nil => simp [occLists]
      | cons f fs ihl =>
        simp only [occLists, List.mem_append, List.mem_cons, exists_eq_or_imp]
        rw [ih f (by simp), ihl fun g hg => ih g (by simp [hg])]
    simp only [occList, this, Formula.occ_nary]
  | not f ih => simp [occList, ih]
  | impl a b iha ihb => simp [occList, iha, ihb]
  | equiv a b iha ihb => simp [occList, iha, ihb]
  | lit l => simp [occList, eq_comm]
  | _ => simp [occList]

end Verif
