import Verif.DS.Heap
import Verif.DS.Luby
import Verif.DS.UbTree
import Verif.DS.AppendVec
import Verif.F.Subsume
import Verif.F.Nnf
import Mathlib.Data.Nat.Basic
import Mathlib.Tactic.ByContra
/-
C41 (variable order heap), C42 (UBTree), C43 (subsumption), C44 (append-only vector), C49 (Luby sequence).
-/
namespace Verif

/-! ### C41: the heap -/

section
variable {α : Type} [LinearOrder α]

/-- Operations of the solver on its heap. -/
inductive HOp (α : Type)
  /-- `insert_var_order`, minisat2.rs:219-223, for a decision variable -/
  | insert (n : Nat)
  /-- `var_bump_activity`, minisat2.rs:632-645: the activity rises to `a`, then `decrease` -/
  | bump (n : Nat) (a : α)
  /-- the rescaling of all activities in `var_bump_activity` -/
  | rescale (g : α → α)
  /-- `pick_branch_lit`, minisat2.rs:702-705: test for emptiness, then `remove_min` -/
  | take
  /-- `rebuild_order_heap`, minisat2.rs:817-826 -/
  | build (ns : List Nat)
  /-- `load_state`, minisat2.rs:1119 -/
  | remove (n : Nat)

/-- One operation; `none` is a panic. -/
def hStep : HOp α → Heap × (Nat → α) → Option (Option Nat × Heap × (Nat → α))
  | .insert n, (h, act) => if h.inHeap n then some (none, h, act) else (h.insert act n).map fun h => (none, h, act)
  | .bump n a, (h, act) =>
    let act' : Nat → α := fun m => if m = n then a else act m
    if h.inHeap n then (h.decrease act' n).map fun h => (none, h, act') else some (none, h, act')
  | .rescale g, (h, act) => some (none, h, fun m => g (act m))
  | .take, (h, act) => if h.heap = [] then some (none, h, act) else (h.removeMin act).map fun r => (some r.1, r.2, act)
  | .build ns, (h, act) => (h.build act ns).map fun h => (none, h, act)
  | .remove n, (h, act) => (h.remove act n).map fun h => (none, h, act)

/-- A sequence of operations with the elements taken. -/
def hRun : List (HOp α) → Heap × (Nat → α) → Option (List (Option Nat) × Heap × (Nat → α))
  | [], (h, act) => some ([], h, act)
  | op :: ops, s =>
    match hStep op s with
    | none => none
    | some (out, s) => (hRun ops s).map fun r => (out :: r.1, r.2)

/-- Abstract priority queue: content, every variable ever inserted, activities, and whether no `remove` happened since
the last `build`. -/
structure HAbs (α : Type) where
  S : Nat → Prop
  ever : Nat → Prop
  act : Nat → α
  clean : Prop

/-- What callers guarantee. -/
def HOp.Ok (a : HAbs α) : HOp α → Prop
  | .insert _ => True
  | .bump n x => a.act n ≤ x
  | .rescale g => ∀ x y, x ≤ y → g x ≤ g y
  | .take => True
  | .build ns => ns.Nodup ∧ ∀ n ∈ ns, a.ever n
  | .remove n => a.S n

/-- Specification of one operation. -/
def HSpec (a : HAbs α) (op : HOp α) (out : Option Nat) (a' : HAbs α) : Prop :=
  match op with
  | .insert n => out = none ∧ a' = { a with S := fun m => m = n ∨ a.S m, ever := fun m => m = n ∨ a.ever m }
  | .bump n x => out = none ∧ a' = { a with act := fun m => if m = n then x else a.act m }
  | .rescale g => out = none ∧ a' = { a with act := fun m => g (a.act m) }
  | .take =>
    match out with
    | none => (∀ m, ¬ a.S m) ∧ a' = a
    | some x => a.S x ∧ (a.clean → ∀ m, a.S m → a.act m ≤ a.act x) ∧ a' = { a with S := fun m => a.S m ∧ m ≠ x }
  | .build ns => out = none ∧ a' = { a with S := fun m => m ∈ ns, clean := True }
  | .remove n => out = none ∧ a' = { a with S := fun m => a.S m ∧ m ≠ n, clean := False }

def HValid (a : HAbs α) : List (HOp α) → Prop
  | [] => True
  | op :: ops => op.Ok a ∧ ∀ out a', HSpec a op out a' → HValid a' ops

/-- The specification of a sequence. -/
def HSpecs (a : HAbs α) : List (HOp α) → List (Option Nat) → HAbs α → Prop
  | [], outs, a' => outs = [] ∧ a' = a
  | op :: ops, outs, a' => ∃ out outs' a1, outs = out :: outs' ∧ HSpec a op out a1 ∧ HSpecs a1 ops outs' a'

/-- The concrete heap represents the abstract queue: positions consistent, content exact, no duplicates. -/
structure HRep (a : HAbs α) (h : Heap) (act : Nat → α) : Prop where
  cons : h.Cons
  mem : ∀ m, m ∈ h.heap ↔ a.S m
  ever : ∀ m, a.ever m → m < h.idx.length
  actEq : act = a.act
  order : a.clean → h.Order act

theorem hStep_ok {a : HAbs α} {h : Heap} {act : Nat → α} (r : HRep a h act) {op : HOp α} (ho : op.Ok a) :
    ∃ out h' act' a', hStep op (h, act) = some (out, h', act') ∧ HSpec a op out a' ∧ HRep a' h' act' := by
  obtain ⟨rc, rm, re, rfl, ro⟩ := r
  cases op with
  | insert n =>
    by_cases hin : h.inHeap n = true
    · refine ⟨none, h, a.act, _, by simp [hStep, hin], ⟨rfl, rfl⟩, ⟨rc, ?_, ?_, rfl, ro⟩⟩
      · intro m
        have := (Heap.inHeap_iff rc n).1 hin
        simp only [← rm]
        exact ⟨.inr, fun h => h.elim (fun e => e ▸ this) id⟩
      · rintro m (rfl | h1)
        · obtain ⟨i, hi⟩ := List.mem_iff_getElem?.1 ((Heap.inHeap_iff rc m).1 hin)
          exact Heap.idx_lt ((rc m i).2 hi)
        · exact re m h1
    · have hn : n ∉ h.heap := fun hc => hin ((Heap.inHeap_iff rc n).2 hc)
      obtain ⟨h', e, c, _, hl, hm, hord⟩ := Heap.insert_ok (act := a.act) rc hn
      refine ⟨none, h', a.act, _, by simp [hStep, hin, e], ⟨rfl, rfl⟩, ⟨c, fun m => by rw [hm, rm], ?_, rfl, fun hc => hord (ro hc)⟩⟩
      rintro m (rfl | h1)
      · rw [hl]; omega
      · have := re m h1; rw [hl]; omega
  | bump n x =>
    by_cases hin : h.inHeap n = true
    · obtain ⟨h', e, c, _, hl, hm, hord⟩ := Heap.decrease_ok (act := a.act) (act' := fun m => if m = n then x else a.act m) rc ((Heap.inHeap_iff rc n).1 hin)
        (fun m hm => by simp [hm]) (by simpa [HOp.Ok] using ho)
      exact ⟨none, h', _, _, by simp [hStep, hin, e], ⟨rfl, rfl⟩, ⟨c, fun m => by rw [hm, rm], fun m h1 => by rw [hl]; exact re m h1, rfl, fun hc => hord (ro hc)⟩⟩
    · refine ⟨none, h, _, _, by simp [hStep, hin], ⟨rfl, rfl⟩, ⟨rc, rm, re, rfl, fun hc i p q h0 hk hp hq => ?_⟩⟩
      have hn : n ∉ h.heap := fun hc => hin ((Heap.inHeap_iff rc n).2 hc)
      have := ro hc i p q h0 hk hp hq
      have e1 : p ≠ n := by rintro rfl; exact hn (List.mem_iff_getElem?.2 ⟨_, hp⟩)
      have e2 : q ≠ n := by rintro rfl; exact hn (List.mem_iff_getElem?.2 ⟨_, hq⟩)
      simpa [e1, e2] using this
  | rescale g =>
    exact ⟨none, h, _, _, rfl, ⟨rfl, rfl⟩, ⟨rc, rm, re, rfl, fun hc i p q h0 hk hp hq => ho _ _ (ro hc i p q h0 hk hp hq)⟩⟩
  | take =>
    by_cases he : h.heap = []
    · refine ⟨none, h, a.act, a, by simp [hStep, he], ⟨fun m hm => ?_, rfl⟩, ⟨rc, rm, re, rfl, ro⟩⟩
      rw [← rm, he] at hm; cases hm
    · obtain ⟨x, h', e, hx, c, _, hl, hm, hord⟩ := Heap.removeMin_ok (act := a.act) rc he
      refine ⟨some x, h', a.act, _, by simp [hStep, he, e], ⟨(rm x).1 hx, fun hc m hm => (hord (ro hc)).1 m ((rm m).2 hm), rfl⟩,
        ⟨c, fun m => by rw [hm, rm], fun m h1 => by rw [hl]; exact re m h1, rfl, fun hc => (hord (ro hc)).2⟩⟩
  | build ns =>
    obtain ⟨h', e, c, hl, hm, hord⟩ := Heap.build_ok (act := a.act) rc ho.1 (fun n hn => re n (ho.2 n hn))
    exact ⟨none, h', a.act, _, by simp [hStep, e], ⟨rfl, rfl⟩, ⟨c, hm, fun m h1 => by rw [hl]; exact re m h1, rfl, fun _ => hord⟩⟩
  | remove n =>
    obtain ⟨h', e, c, _, hl, hm, _⟩ := Heap.remove_ok (act := a.act) rc ((rm n).2 ho)
    exact ⟨none, h', a.act, _, by simp [hStep, e], ⟨rfl, rfl⟩, ⟨c, fun m => by rw [hm, rm], fun m h1 => by rw [hl]; exact re m h1, rfl, fun hc => hc.elim⟩⟩

/-- The new solver: empty heap. -/
def HAbs.init (act : Nat → α) : HAbs α := ⟨fun _ => False, fun _ => False, act, True⟩

theorem HRep.init (act : Nat → α) : HRep (HAbs.init act) Heap.new act :=
  ⟨fun n i => by simp [Heap.new], fun m => by simp [Heap.new, HAbs.init], fun m h => h.elim, rfl, fun _ i p q _ _ h => by simp [Heap.new] at h⟩

theorem hRun_ok (ops : List (HOp α)) : ∀ {a : HAbs α} {h : Heap} {act : Nat → α}, HRep a h act → HValid a ops →
    ∃ outs h' act' a', hRun ops (h, act) = some (outs, h', act') ∧ HSpecs a ops outs a' ∧ HRep a' h' act' := by
  induction ops with
  | nil => intro a h act r _; exact ⟨[], h, act, a, rfl, ⟨rfl, rfl⟩, r⟩
  | cons op ops ih =>
    intro a h act r hv
    obtain ⟨out, h1, act1, a1, e1, s1, r1⟩ := hStep_ok r hv.1
    obtain ⟨outs, h2, act2, a2, e2, s2, r2⟩ := ih r1 (hv.2 out a1 s1)
    exact ⟨out :: outs, h2, act2, a2, by simp [hRun, e1, e2], ⟨out, outs, a1, rfl, s1, s2⟩, r2⟩

/-- C41: every sequence of heap operations of the solver runs without panic and behaves like a set with priorities:
elements are neither lost nor duplicated, positions stay consistent, and each `remove_min` yields an element that no
other element precedes, as long as no `remove` happened since the last `build`.  Missing for the full claim: with
`remove` the claim is false, see `C41_remove_counterexample`. -/
theorem C41_heap_partial (ops : List (HOp α)) (act : Nat → α) (hv : HValid (HAbs.init act) ops) :
    ∃ outs h' act' a', hRun ops (Heap.new, act) = some (outs, h', act') ∧ HSpecs (HAbs.init act) ops outs a' ∧ act' = a'.act ∧
      h'.heap.Nodup ∧ (∀ m, m ∈ h'.heap ↔ a'.S m) ∧ (∀ m i : Nat, h'.idx[m]? = some (some i) ↔ h'.heap[i]? = some m) := by
  obtain ⟨outs, h', act', a', e, s, r⟩ := hRun_ok ops (HRep.init act) hv
  exact ⟨outs, h', act', a', e, s, r.actEq, r.cons.nodup, r.mem, r.cons⟩

end

/-- `remove` can also be followed by a correct `remove_min` when the last element does not precede the parent of the hole. -/
theorem C41_remove_keeps_order {α : Type} [LinearOrder α] {act : Nat → α} {n : Nat} {s : Heap} (h : s.Cons) (hn : n ∈ s.heap) (ho : s.Order act)
    (hp : ∀ k l b : Nat, s.heap[k]? = some n → s.heap.getLast? = some l → 0 < k → s.heap[(k - 1) / 2]? = some b → act l ≤ act b) :
    ∃ s', s.remove act n = some s' ∧ s'.Order act ∧ ∀ m, m ∈ s'.heap ↔ m ∈ s.heap ∧ m ≠ n := by
  obtain ⟨s', e, _, _, _, hm, hord⟩ := Heap.remove_ok (act := act) h hn
  exact ⟨s', e, hord ho hp, hm⟩

/-- Activities for the counterexample: heap 0(10) / 1(2) 2(4) / 3(1) 4(1) 5(1) 6(3). -/
def exAct : Nat → Nat := fun n => [10, 2, 4, 1, 1, 1, 3].getD n 0

/-- The claim fails with `remove`: after inserting 0..6, removing 3 (a leaf below 1) moves 6 (activity 3) below 1
(activity 2).  After taking 0 and 2 the solver takes 1 before 6 although 6 precedes it. -/
theorem C41_remove_counterexample :
    ∃ h, (hRun ((List.range 7).map HOp.insert ++ [HOp.remove 3, HOp.take, HOp.take]) (Heap.new, exAct)).map (fun r => (r.1.drop 7, r.2.1)) =
      some ([none, some 0, some 2], h) ∧ 6 ∈ h.heap ∧ (∃ r, h.removeMin exAct = some (1, r)) ∧ exAct 1 < exAct 6 := by
  refine ⟨⟨[1, 6, 5, 4], [none, some 0, none, none, some 3, some 2, some 1]⟩, by decide, by decide, ⟨⟨[6, 4, 5], [none, none, none, none, some 1, some 2, some 0]⟩, by decide⟩, by decide⟩

/-- Non-trivial sequence meeting the hypotheses of `C41_heap_partial`. -/
example : HValid (HAbs.init (fun _ => 0)) [.insert 0, .insert 1, .insert 2, .bump 1 5, .take, .build [0, 1, 2], .take, .remove 0] := by
  refine ⟨trivial, ?_⟩; rintro _ _ ⟨rfl, rfl⟩
  refine ⟨trivial, ?_⟩; rintro _ _ ⟨rfl, rfl⟩
  refine ⟨trivial, ?_⟩; rintro _ _ ⟨rfl, rfl⟩
  refine ⟨by simp [HOp.Ok, HAbs.init], ?_⟩; rintro _ _ ⟨rfl, rfl⟩
  refine ⟨trivial, ?_⟩
  rintro (_ | x) _ hx
  · exact absurd (hx.1 0) (by simp)
  obtain ⟨_, _, rfl⟩ := hx
  refine ⟨⟨by decide, by simp⟩, ?_⟩; rintro _ _ ⟨rfl, rfl⟩
  refine ⟨trivial, ?_⟩
  rintro (_ | y) _ hx
  · exact absurd (hx.1 0) (by simp)
  obtain ⟨hy, hmax, rfl⟩ := hx
  have : y = 1 := by
    have h1 := hmax trivial 1 (by simp)
    simp only [HAbs.init] at h1
    by_contra hne
    simp [hne] at h1
  subst this
  refine ⟨by simp [HOp.Ok], ?_⟩; rintro _ _ ⟨rfl, rfl⟩
  trivial

/-! ### C49: the Luby sequence -/

/-- C49: the exponent of the `x`-th restart is defined for every `x` and is the one of the (unique) Luby sequence. -/
theorem C49_luby (x e : Nat) : lubyExp x = some e ↔ Luby (x + 1) e := by
  obtain ⟨e', h1, h2⟩ := lubyExp_ok x
  rw [h1]
  constructor
  · intro h; injection h with h; exact h ▸ h2
  · intro h; rw [Luby.unique h2 h]

theorem C49_total (x : Nat) : ∃ e, lubyExp x = some e := by
  obtain ⟨e, h, _⟩ := lubyExp_ok x; exact ⟨e, h⟩

example : (List.range 15).map lubyExp = [0, 0, 1, 0, 0, 1, 2, 0, 0, 1, 0, 0, 1, 2, 3].map some := by decide

/-! ### C42: UBTree -/

section
variable {α : Type} [LinearOrder α]

/-- Adding sets one after the other; a set is the ascending list of its elements. -/
def ubAddAll : List (List α) → UbTree α → Option (UbTree α)
  | [], t => some t
  | s :: ss, t =>
    match t.addSet s with
    | none => none
    | some t => ubAddAll ss t

theorem ubAddAll_ok (ss : List (List α)) : ∀ {t : UbTree α} {W K}, UbTree.Inv t W K → (∀ s ∈ ss, s.Pairwise (· < ·)) →
    ∃ t' W', ubAddAll ss t = some t' ∧ UbTree.Inv t' W' (fun x => K x ∨ (x ∈ ss ∧ x ≠ [])) := by
  induction ss with
  | nil => intro t W K h _; exact ⟨t, W, rfl, by simpa using h⟩
  | cons s ss ih =>
    intro t W K h hs
    obtain ⟨t1, W1, e1, h1⟩ := UbTree.addSet_ok h (hs s (by simp))
    obtain ⟨t2, W2, e2, h2⟩ := ih h1 (fun s hs' => hs s (by simp [hs']))
    refine ⟨t2, W2, by simp [ubAddAll, e1, e2], ?_⟩
    have e : (fun x => (K x ∨ (x = s ∧ s ≠ [])) ∨ (x ∈ ss ∧ x ≠ [])) = (fun x => K x ∨ (x ∈ s :: ss ∧ x ≠ [])) := by
      funext x
      simp only [List.mem_cons, eq_iff_iff]
      constructor
      · rintro ((h | ⟨rfl, h⟩) | ⟨h, h'⟩)
        · exact .inl h
        · exact .inr ⟨.inl rfl, h⟩
        · exact .inr ⟨.inr h, h'⟩
      · rintro (h | ⟨rfl | h, h'⟩)
        · exact .inl (.inl h)
        · exact .inl (.inr ⟨rfl, h'⟩)
        · exact .inr ⟨h, h'⟩
    rw [← e]; exact h2

/-- C42: after any sequence of insertions of non-empty sets, `first_subset` finds a stored subset of the query iff one exists
and `all_sets` returns exactly the stored sets, each once; nothing panics.  The empty set is the exception
(`C42_empty_set`), hence partial. -/
theorem C42_ubtree_partial (ord : List Nat → List Nat) (hord : ∀ l n, n ∈ ord l ↔ n ∈ l) (ss : List (List α))
    (hs : ∀ s ∈ ss, s.Pairwise (· < ·)) (hne : ∀ s ∈ ss, s ≠ []) :
    ∃ t, ubAddAll ss UbTree.new = some t ∧
      (∃ r, t.allSets = some r ∧ r.Nodup ∧ ∀ x, x ∈ r ↔ x ∈ ss) ∧
      ∀ q : List α, q.Pairwise (· < ·) → ∃ r, t.firstSubset ord q = some r ∧
        (∀ x, r = some x → x ∈ ss ∧ ∀ a ∈ x, a ∈ q) ∧ (r = none → ∀ x ∈ ss, ∃ a ∈ x, a ∉ q) := by
  obtain ⟨t, W, e, h⟩ := ubAddAll_ok ss UbTree.Inv.new hs
  have hk : ∀ x, (False ∨ (x ∈ ss ∧ x ≠ [])) ↔ x ∈ ss := fun x => ⟨fun h => h.elim False.elim (·.1), fun h => .inr ⟨h, hne x h⟩⟩
  refine ⟨t, e, ?_, fun q hq => ?_⟩
  · obtain ⟨r, h1, h2, h3⟩ := UbTree.allSets_ok h
    exact ⟨r, h1, h2, fun x => (h3 x).trans (hk x)⟩
  · obtain ⟨r, h1, h2⟩ := UbTree.firstSubset_ok ord hord h hq
    refine ⟨r, h1, ?_, ?_⟩
    · rintro x rfl; exact ⟨(hk x).1 h2.1, h2.2⟩
    · rintro rfl x hx
      have := h2 x ((hk x).2 hx)
      by_contra hc
      apply this
      intro a ha
      by_contra hq
      exact hc ⟨a, ha, hq⟩

/-- The empty set is accepted but never stored: no query finds it, and `all_sets` omits it. -/
theorem C42_empty_set (ord : List Nat → List Nat) (q : List α) :
    ∃ t, ubAddAll [[]] UbTree.new = some t ∧ t.allSets = some [] ∧ t.firstSubset ord q = some none :=
  ⟨UbTree.new, rfl, by rfl, by simp [UbTree.firstSubset, UbTree.new]⟩

end

example : (ubAddAll [[1, 2, 3], [2, 5], [1, 4], [2]] (UbTree.new (α := Nat))).bind (fun t => t.firstSubset id [1, 3, 4, 6]) = some (some [1, 4]) := by decide +kernel
example : (ubAddAll [[1, 2, 3], [2, 5], [1, 4], [2]] (UbTree.new (α := Nat))).bind (fun t => t.firstSubset id [1, 3, 5]) = some none := by decide +kernel
example : ∀ s ∈ [[1, 2, 3], [2, 5], [1, 4], [2]], List.Pairwise (· < ·) (s : List Nat) ∧ s ≠ [] := by decide

/-! ### C43: subsumption -/

/-- `cnf_subsumption`, subsumption.rs:14-27. -/
def cnfSubsumption [LinearOrder Lit] (C : Canon) (ord : List Nat → List Nat) (f : Formula) : Option Formula := subsume C ord .conj f.isCnfF f

/-- `dnf_subsumption`, subsumption.rs:35-48. -/
def dnfSubsumption [LinearOrder Lit] (C : Canon) (ord : List Nat → List Nat) (f : Formula) : Option Formula := subsume C ord .disj (fnDnf.val f) f

/-- C43 for CNF: the result is an equivalent CNF; each of its clauses has the literals of an input clause, each input
clause is subsumed by a clause of the result, and no clause of the result subsumes another. -/
theorem C43_cnf [LinearOrder Lit] (C : Canon) (ord : List Nat → List Nat) (hord : ∀ l n, n ∈ ord l ↔ n ∈ l) {f : Formula} (hn : f.Norm) (hf : IsCnf f) :
    ∃ g, cnfSubsumption C ord f = some g ∧ (∀ σ, g.eval σ = f.eval σ) ∧ IsCnf g ∧ g.Norm ∧
      (∀ c ∈ g.parts .conj, ∃ d ∈ f.parts .conj, ∀ l, OccL l c ↔ OccL l d) ∧
      (∀ d ∈ f.parts .conj, ∃ c ∈ g.parts .conj, ∀ l, OccL l c → OccL l d) ∧
      (∀ c ∈ g.parts .conj, ∀ d ∈ g.parts .conj, (∀ l, OccL l c → OccL l d) → c = d) := by
  obtain ⟨g, e, h⟩ := subsume_ok C ord hord .conj hn (isNf_conj.2 hf)
  exact ⟨g, by unfold cnfSubsumption; rw [(isCnfF_iff hn).2 hf]; exact e, h.eval, isNf_conj.1 h.shape, h.norm, h.kept, h.dropped, h.minimal⟩

/-- C43 for DNF. -/
theorem C43_dnf [LinearOrder Lit] (C : Canon) (ord : List Nat → List Nat) (hord : ∀ l n, n ∈ ord l ↔ n ∈ l) {f : Formula} (hn : f.Norm) (hf : IsDnf f) :
    ∃ g, dnfSubsumption C ord f = some g ∧ (∀ σ, g.eval σ = f.eval σ) ∧ IsDnf g ∧ g.Norm ∧
      (∀ c ∈ g.parts .disj, ∃ d ∈ f.parts .disj, ∀ l, OccL l c ↔ OccL l d) ∧
      (∀ d ∈ f.parts .disj, ∃ c ∈ g.parts .disj, ∀ l, OccL l c → OccL l d) ∧
      (∀ c ∈ g.parts .disj, ∀ d ∈ g.parts .disj, (∀ l, OccL l c → OccL l d) → c = d) := by
  obtain ⟨g, e, h⟩ := subsume_ok C ord hord .disj hn (isNf_disj.2 hf)
  exact ⟨g, by unfold dnfSubsumption; rw [(dnf_val_iff f).2 hf]; exact e, h.eval, isNf_disj.1 h.shape, h.norm, h.kept, h.dropped, h.minimal⟩

/-- Any other formula is rejected by the assertion. -/
theorem C43_reject [LinearOrder Lit] (C : Canon) (ord : List Nat → List Nat) {f : Formula} (hn : f.Norm) :
    (¬ IsCnf f → cnfSubsumption C ord f = none) ∧ (¬ IsDnf f → dnfSubsumption C ord f = none) := by
  constructor
  · intro h
    have : f.isCnfF = false := by rw [← Bool.not_eq_true, isCnfF_iff hn]; exact h
    simp [cnfSubsumption, subsume, this]
  · intro h
    have : fnDnf.val f = false := by rw [← Bool.not_eq_true, dnf_val_iff]; exact h
    simp [dnfSubsumption, subsume, this]

/-- A linear order of literals for the example. -/
def litKey (l : Lit) : Nat :=
  2 * (match l.v with
    | .named n => 5 * n
    | .aux .cnf n => 5 * n + 1
    | .aux .cc n => 5 * n + 2
    | .aux .pb n => 5 * n + 3
    | .aux .tmp n => 5 * n + 4) + if l.pos then 1 else 0

theorem litKey_inj : Function.Injective litKey := by
  rintro ⟨v, p⟩ ⟨v', p'⟩ h
  unfold litKey at h
  cases p <;> cases p' <;> rcases v with n | ⟨_ | _ | _ | _, n⟩ <;> rcases v' with n' | ⟨_ | _ | _ | _, n'⟩ <;> simp at h ⊢ <;> omega

/-- `(a | b | c) & (a | c) & d`. -/
def exSub : Formula :=
  let x (n : Nat) : Formula := .lit ⟨.named n, true⟩
  Formula.mkNary canon0 .conj [Formula.mkNary canon0 .disj [x 0, x 1, x 2], Formula.mkNary canon0 .disj [x 0, x 2], x 3]

/-- The hypotheses of `C43_cnf` hold for it. -/
example : exSub.Norm ∧ IsCnf exSub := by
  have h : exSub.Norm := by
    have lit : ∀ l, (Formula.lit l).Norm := .lit
    have cl : ∀ ls : List Lit, (Formula.mkNary canon0 .disj (ls.map .lit)).Norm := fun ls =>
      Formula.norm_mkNary canon0 _ fun f hf => by obtain ⟨l, _, rfl⟩ := List.mem_map.1 hf; exact lit l
    refine Formula.norm_mkNary canon0 _ fun f hf => ?_
    simp only [List.mem_cons, List.not_mem_nil, or_false] at hf
    rcases hf with rfl | rfl | rfl
    · exact cl [⟨.named 0, true⟩, ⟨.named 1, true⟩, ⟨.named 2, true⟩]
    · exact cl [⟨.named 0, true⟩, ⟨.named 2, true⟩]
    · exact lit _
  exact ⟨h, (isCnfF_iff h).1 (by decide +kernel)⟩

/-- It becomes `(a | c) & d`. -/
example : @cnfSubsumption (LinearOrder.lift' litKey litKey_inj) canon0 id exSub =
    some (.nary .conj [.lit ⟨.named 3, true⟩, .nary .disj [.lit ⟨.named 0, true⟩, .lit ⟨.named 2, true⟩]]) := by
  decide +kernel

/-! ### C44: the append-only vector -/

section
open AppendVec
variable {T : Type}

/-- C44, safety: no interleaving reaches a data race, a null or stale bin pointer, an uninitialised slot, a second
allocation of a bin or a second write of a slot. -/
theorem C44_no_fault {s : AV T} (h : Reach s) (t : Nat) : s.pc t ≠ .fault := by
  intro e
  have := h.inv.pcok t
  rw [e] at this; exact this

/-- C44: the completed pushes have returned exactly the indices `0..len`, each once, in an order compatible with real time:
a push that starts now gets a larger index. -/
theorem C44_indices {s : AV T} (h : Reach s) : (s.returned.map (·.2)).Nodup ∧ (∀ i, i ∈ s.returned.map (·.2) ↔ i < s.count) ∧
    ∀ t i, (t, i) ∈ s.returned → i < s.reserved := by
  have hi := h.inv
  refine ⟨hi.retOnce, fun i => ?_, fun t i h1 => ?_⟩
  · rw [← hi.ret i]; simp
  · have := (hi.ret i).1 ⟨t, h1⟩; have := hi.cr; omega

/-- C44: two running pushes never share an index. -/
theorem C44_distinct {s : AV T} (h : Reach s) {t t' i : Nat} (h1 : (s.pc t).idx = some i) (h2 : (s.pc t').idx = some i) : t = t' :=
  h.inv.uniq t t' i h1 h2

/-- C44: every read of index `i`, by any thread at any time, returned the value of the push that got index `i`. -/
theorem C44_reads {s : AV T} (h : Reach s) {i : Nat} {v : T} (hr : (i, v) ∈ s.reads) : s.pushed i = some v := h.inv.reads i v hr

/-- C44, stability: the cell of a published element holds the pushed value, and neither the cell nor the value ever
changes in any continuation. -/
theorem C44_stable {s s' : AV T} (h : Reach s) (st : Steps s s') {i : Nat} (hi : i < s.count) :
    ∃ p v, s.pushed i = some v ∧ s.ptr (binOf i) = some p ∧ s.mem p (offOf i) = some v ∧
      i < s'.count ∧ s'.pushed i = some v ∧ s'.ptr (binOf i) = some p ∧ s'.mem p (offOf i) = some v := by
  obtain ⟨p, v, h1, h2, h3⟩ := h.inv.memPub i hi
  have hs := (st.inv h.inv).2
  exact ⟨p, v, h3, h1, h2, Nat.lt_of_lt_of_le hi hs.count, hs.pushed i v h3, hs.ptr _ _ h1, hs.mem _ _ _ h2⟩

/-- C44: a thread that has pushed index `i`, or has synchronised with the thread that did, sees every later `len` above
`i`, so `vec[i]` does not panic for it. -/
theorem C44_visible {s : AV T} (h : Reach s) {t i : Nat} (hr : (t, i) ∈ s.returned) :
    (∀ c, s.Load t c → i < c) ∧ ∀ t' s', AppendVec.Step s s' → s'.view t' = ⟨max (s.view t').seen (s.view t).seen, fun b => (s.view t').ptr b ∨ (s.view t).ptr b, fun i => (s.view t').slot i ∨ (s.view t).slot i⟩ →
      ∀ c, s'.Load t' c → i < c := by
  have := h.inv.retSeen t i hr
  refine ⟨fun c hc => Nat.lt_of_lt_of_le this hc.1, fun t' s' _ e c hc => ?_⟩
  have h1 := hc.1
  rw [e] at h1
  exact Nat.lt_of_lt_of_le this (Nat.le_trans (Nat.le_max_right _ _) h1)

/-- C44: `indices` is a bijection between indices and cells (bin, offset below the bin size). -/
theorem C44_cells : (∀ i, offOf i < binSize (binOf i)) ∧ (∀ b o, o < binSize b → ∃ i, binOf i = b ∧ offOf i = o) ∧
    ∀ i j, binOf i = binOf j → offOf i = offOf j → i = j :=
  ⟨off_lt, fun b _ h => ⟨start b + _, binOf_unique h⟩, fun _ _ => bin_off_inj⟩

/-- C44, progress: whenever a push is running, some continuation completes one (the spinning and the compare-exchange
loop cannot be stuck). -/
theorem C44_progress {s : AV T} (h : Reach s) (hc : s.count < s.reserved) : ∃ s', Steps s s' ∧ s'.count = s.count + 1 := h.inv.progress hc

/-- Two threads: thread 0 and 1 reserve indices 0 and 1; thread 1 spins until thread 0 has published; thread 2 reads both. -/
example : ∃ s : AV Nat, Reach s ∧ s.count = 2 ∧ s.reads = [(1, 20), (0, 10)] ∧ s.returned = [(1, 1), (0, 0)] := by
  refine ⟨_, .step (.step (.step (.step (.step (.step (.step (.step (.step (.step (.step (.step (.step (.step (.step .init
    (.reserve 0 10 rfl)) (.reserve 1 20 rfl)) (.mustSpin 1 1 0 20 rfl ⟨by decide, by decide⟩ (by decide) (by decide)))
    (.mustAlloc 0 0 0 10 rfl ⟨by decide, by decide⟩ (by decide) (by decide))) (.allocate 0 0 10 rfl rfl)) (.writeOk 0 0 0 10 rfl rfl))
    (.casOk 0 0 10 rfl rfl)) (.spinDone 1 1 1 20 rfl ⟨by decide, by decide⟩ (by decide))) (.readOk 1 1 0 20 rfl ?_ rfl)) (.writeOk 1 1 0 20 rfl rfl))
    (.casOk 1 1 20 rfl rfl)) (.index 2 0 2 rfl ⟨by decide, by decide⟩ (by decide))) (.lookupOk 2 0 0 10 rfl ?_ ?_ rfl rfl))
    (.index 2 1 2 rfl ⟨by decide, by decide⟩ (by decide))) (.lookupOk 2 1 0 20 rfl ?_ ?_ rfl rfl), rfl, rfl, rfl⟩
  all_goals simp [AV.acq, upd, View.acquire, AV.init, binOf]
  all_goals decide

end
end Verif
