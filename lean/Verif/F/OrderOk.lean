import Verif.F.Order
import Mathlib.Data.List.Induction
import Mathlib.Tactic.ByContra
/-
Correctness of the variable orderings.
-/
namespace Verif
namespace VarOrd

/-! ### First occurrences -/

theorem mem_foldl_add (l : List Var) : ∀ (vs : List Var) v, v ∈ l.foldl add vs ↔ v ∈ vs ∨ v ∈ l := by
  induction l with
  | nil => simp
  | cons x l ih =>
    intro vs v
    rw [List.foldl_cons, ih]
    unfold add
    split
    · rename_i h
      constructor
      · rintro (h1 | h1)
        · exact .inl h1
        · exact .inr (by simp [h1])
      · rintro (h1 | h1)
        · exact .inl h1
        · rcases List.mem_cons.1 h1 with rfl | h1
          · exact .inl h
          · exact .inr h1
    · simp [or_assoc]

theorem nodup_foldl_add (l : List Var) : ∀ {vs : List Var}, vs.Nodup → (l.foldl add vs).Nodup := by
  induction l with
  | nil => intro vs h; exact h
  | cons x l ih =>
    intro vs h
    rw [List.foldl_cons]
    refine ih ?_
    unfold add
    split
    · exact h
    · rename_i hx
      refine List.nodup_append.2 ⟨h, by simp, ?_⟩
      intro a ha b hb e
      obtain rfl := List.mem_singleton.1 hb
      exact hx (e ▸ ha)

theorem firsts_sorted (l : List Var) : (l.foldl add []).Pairwise fun u v => l.idxOf u < l.idxOf v := by
  induction l using List.reverseRecOn with
  | nil => exact .nil
  | append_singleton l x ih =>
    rw [List.foldl_append, List.foldl_cons, List.foldl_nil]
    have hmem : ∀ u, u ∈ l.foldl add [] ↔ u ∈ l := fun u => by rw [mem_foldl_add]; simp
    have ih' : (l.foldl add []).Pairwise fun u v => (l ++ [x]).idxOf u < (l ++ [x]).idxOf v := by
      refine List.Pairwise.imp_of_mem ?_ ih
      intro u v hu hv h
      rw [List.idxOf_append_of_mem ((hmem u).1 hu), List.idxOf_append_of_mem ((hmem v).1 hv)]
      exact h
    unfold add
    split
    · exact ih'
    · rename_i hx
      refine List.pairwise_append.2 ⟨ih', by simp, ?_⟩
      intro u hu v hv
      obtain rfl := List.mem_singleton.1 hv
      rw [List.idxOf_append_of_mem ((hmem u).1 hu), List.idxOf_append_of_notMem fun h => hx ((hmem _).2 h)]
      have := List.idxOf_lt_length_iff.2 ((hmem u).1 hu)
      omega

/-! ### Depth first -/

theorem dfsRec_eq (f : Formula) : ∀ vs, dfsRec f vs = (occList f).foldl add vs := by
  induction f using Formula.ind with
  | nary o fs ih =>
    have : ∀ vs, dfsRecs fs vs = (occLists fs).foldl add vs := by
      induction fs with
      | nil => intro m; simp [dfsRecs, occLists]
      | cons f fs ihl =>
        intro m
        simp only [dfsRecs, occLists, List.foldl_append]
        rw [ih f (by simp), ihl fun g hg => ih g (by simp [hg])]
    intro m; simp only [dfsRec, occList]; exact this m
  | not f ih => intro m; simp [dfsRec, occList, ih]
  | impl a b iha ihb => intro m; simp [dfsRec, occList, iha, ihb]
  | equiv a b iha ihb => intro m; simp [dfsRec, occList, iha, ihb]
  | _ => intro m; simp [dfsRec, occList]

theorem dfs_eq (f : Formula) : dfs f = (occList f).foldl add [] := dfsRec_eq f []

theorem mem_dfs {f : Formula} {v : Var} : v ∈ dfs f ↔ Occ v f := by
  rw [dfs_eq, mem_foldl_add, mem_occList]; simp

theorem nodup_dfs (f : Formula) : (dfs f).Nodup := by rw [dfs_eq]; exact nodup_foldl_add _ .nil

/-! ### Breadth first -/

/-- `v` is named at depth `n` of the formula: below `n` operators; a negative literal is the negation of its variable
(specification). -/
inductive At (v : Var) : Nat → Formula → Prop
  | pos : At v 0 (.lit ⟨v, true⟩)
  | neg : At v 1 (.lit ⟨v, false⟩)
  | not {n f} : At v n f → At v (n + 1) (.not f)
  | implL {n a b} : At v n a → At v (n + 1) (.impl a b)
  | implR {n a b} : At v n b → At v (n + 1) (.impl a b)
  | equivL {n a b} : At v n a → At v (n + 1) (.equiv a b)
  | equivR {n a b} : At v n b → At v (n + 1) (.equiv a b)
  | nary {n o fs f} : f ∈ fs → At v n f → At v (n + 1) (.nary o fs)
  | cc {c : CC} : v ∈ c.vars → At v 0 (.cc c)
  | pbc {p : PBC} {t} : t ∈ p.terms → t.1.v = v → At v 0 (.pbc p)

theorem at_zero {v : Var} {f : Formula} : At v 0 f ↔ v ∈ own f := by
  constructor
  · intro h
    cases h with
    | pos => simp [own]
    | cc h => exact h
    | pbc h e => exact List.mem_map.2 ⟨_, h, e⟩
  · intro h
    cases f with
    | lit l =>
      rcases l with ⟨u, p⟩
      cases p with
      | true => simp [own] at h; subst h; exact .pos
      | false => simp [own] at h
    | cc c => exact .cc h
    | pbc p => obtain ⟨t, ht, e⟩ := List.mem_map.1 h; exact .pbc ht e
    | _ => simp [own] at h

theorem at_succ {v : Var} {n : Nat} {f : Formula} : At v (n + 1) f ↔ ∃ g ∈ kids f, At v n g := by
  constructor
  · intro h
    cases h with
    | neg => exact ⟨.lit ⟨v, true⟩, by simp [kids], .pos⟩
    | not h => exact ⟨_, by simp [kids], h⟩
    | implL h => exact ⟨_, by simp [kids], h⟩
    | implR h => exact ⟨_, by simp [kids], h⟩
    | equivL h => exact ⟨_, by simp [kids], h⟩
    | equivR h => exact ⟨_, by simp [kids], h⟩
    | nary h1 h => exact ⟨_, h1, h⟩
  · rintro ⟨g, hg, h⟩
    cases f with
    | lit l =>
      rcases l with ⟨u, p⟩
      cases p with
      | true => simp [kids] at hg
      | false =>
        simp [kids] at hg
        subst hg
        cases h with
        | pos => exact .neg
    | not f => simp [kids] at hg; subst hg; exact .not h
    | impl a b =>
      simp [kids] at hg
      rcases hg with rfl | rfl
      · exact .implL h
      · exact .implR h
    | equiv a b =>
      simp [kids] at hg
      rcases hg with rfl | rfl
      · exact .equivL h
      · exact .equivR h
    | nary o fs => exact .nary hg h
    | _ => simp [kids] at hg

theorem at_occ {v : Var} {n : Nat} {f : Formula} (h : At v n f) : Occ v f := by
  induction h with
  | pos => exact .lit _
  | neg => exact .lit _
  | not _ ih => exact .not ih
  | implL _ ih => exact .implL ih
  | implR _ ih => exact .implR ih
  | equivL _ ih => exact .equivL ih
  | equivR _ ih => exact .equivR ih
  | nary h _ ih => exact .nary h ih
  | cc h => exact .cc h
  | pbc h e => exact .pbc h e

theorem occ_at {v : Var} {f : Formula} (h : Occ v f) : ∃ n, At v n f := by
  induction h with
  | lit p => cases p; exacts [⟨1, .neg⟩, ⟨0, .pos⟩]
  | not _ ih => obtain ⟨n, h⟩ := ih; exact ⟨_, .not h⟩
  | implL _ ih => obtain ⟨n, h⟩ := ih; exact ⟨_, .implL h⟩
  | implR _ ih => obtain ⟨n, h⟩ := ih; exact ⟨_, .implR h⟩
  | equivL _ ih => obtain ⟨n, h⟩ := ih; exact ⟨_, .equivL h⟩
  | equivR _ ih => obtain ⟨n, h⟩ := ih; exact ⟨_, .equivR h⟩
  | nary h _ ih => obtain ⟨n, h'⟩ := ih; exact ⟨_, .nary h h'⟩
  | cc h => exact ⟨0, .cc h⟩
  | pbc h e => exact ⟨0, .pbc h e⟩

theorem weights_append (a b : List Formula) : weights (a ++ b) = weights a + weights b := by
  induction a with
  | nil => simp [weights]
  | cons f a ih => simp only [List.cons_append, weights, ih]; omega

theorem weight_kids (f : Formula) : 1 + weights (kids f) ≤ weight f := by
  cases f with
  | lit l => rcases l with ⟨v, p⟩; cases p <;> simp [kids, weights, weight]
  | _ => simp [kids, weights, weight] <;> omega

theorem weights_kids (l : List Formula) : l.length + weights (l.flatMap kids) ≤ weights l := by
  induction l with
  | nil => simp [weights]
  | cons f l ih =>
    simp only [List.flatMap_cons, weights_append, List.length_cons, weights]
    have := weight_kids f
    omega

theorem bfs_level (n : Nat) (l : List Formula) : ∀ (r : List Formula) vs,
    bfsLoop (n + l.length) (l ++ r) vs = bfsLoop n (r ++ l.flatMap kids) ((l.flatMap own).foldl add vs) := by
  induction l with
  | nil => intro r vs; simp
  | cons f l ih =>
    intro r vs
    rw [List.length_cons, List.cons_append, ← Nat.add_assoc, bfsLoop, List.append_assoc, ih]
    simp [List.foldl_append]

/-- The variables added while the first `d` levels are visited. -/
def levelVars : Nat → List Formula → List Var
  | 0, _ => []
  | d + 1, l => l.flatMap own ++ levelVars d (l.flatMap kids)

theorem bfs_run (l : List Formula) : ∀ n vs, weights l ≤ n →
    ∃ d, bfsLoop n l vs = some ((levelVars d l).foldl add vs) ∧ ∀ v, v ∈ levelVars d l ↔ ∃ n, ∃ f ∈ l, At v n f := by
  generalize hw : weights l = w
  induction w using Nat.strongRecOn generalizing l with
  | ind w ih =>
    intro n vs hn
    cases l with
    | nil => exact ⟨0, by cases n <;> simp [bfsLoop, levelVars], by simp [levelVars]⟩
    | cons f l =>
      have hk := weights_kids (f :: l)
      have hl : 0 < (f :: l).length := by simp
      obtain ⟨k, rfl⟩ : ∃ k, n = k + (f :: l).length := ⟨n - (f :: l).length, by omega⟩
      obtain ⟨d, e, hd⟩ := ih (weights ((f :: l).flatMap kids)) (by omega) ((f :: l).flatMap kids) rfl k (((f :: l).flatMap own).foldl add vs) (by omega)
      have := bfs_level k (f :: l) [] vs
      rw [List.append_nil, List.nil_append] at this
      refine ⟨d + 1, ?_, fun v => ?_⟩
      · rw [this, e, levelVars, List.foldl_append]
      · rw [levelVars, List.mem_append, hd]
        constructor
        · rintro (h | ⟨n, g, hg, h⟩)
          · obtain ⟨g, hg, h⟩ := List.mem_flatMap.1 h
            exact ⟨0, g, hg, at_zero.2 h⟩
          · obtain ⟨g', hg', h'⟩ := List.mem_flatMap.1 hg
            exact ⟨n + 1, g', hg', at_succ.2 ⟨g, h', h⟩⟩
        · rintro ⟨n, g, hg, h⟩
          cases n with
          | zero => exact .inl (List.mem_flatMap.2 ⟨g, hg, at_zero.1 h⟩)
          | succ n =>
            obtain ⟨g', hg', h'⟩ := at_succ.1 h
            exact .inr ⟨n, g', List.mem_flatMap.2 ⟨g, hg, hg'⟩, h'⟩

theorem levels_le (d : Nat) : ∀ (l : List Formula) {u v : Var} {n : Nat}, u ∈ levelVars d l → (levelVars d l).idxOf u < (levelVars d l).idxOf v →
    (∃ f ∈ l, At v n f) → ∃ m ≤ n, ∃ f ∈ l, At u m f := by
  induction d with
  | zero => intro l u v n hu; simp [levelVars] at hu
  | succ d ih =>
    intro l u v n hu hlt hv
    simp only [levelVars] at hu hlt
    by_cases hA : u ∈ l.flatMap own
    · obtain ⟨g, hg, h⟩ := List.mem_flatMap.1 hA
      exact ⟨0, by omega, g, hg, at_zero.2 h⟩
    · have hu' : u ∈ levelVars d (l.flatMap kids) := (List.mem_append.1 hu).resolve_left hA
      rw [List.idxOf_append_of_notMem hA] at hlt
      have hvA : v ∉ l.flatMap own := fun h => by
        rw [List.idxOf_append_of_mem h] at hlt
        have := List.idxOf_lt_length_iff.2 h
        omega
      rw [List.idxOf_append_of_notMem hvA] at hlt
      obtain ⟨f, hf, h⟩ := hv
      cases n with
      | zero => exact (hvA (List.mem_flatMap.2 ⟨f, hf, at_zero.1 h⟩)).elim
      | succ n =>
        obtain ⟨g, hg, h⟩ := at_succ.1 h
        obtain ⟨m, hm, g', hg', h'⟩ := ih (l.flatMap kids) hu' (by omega) ⟨g, List.mem_flatMap.2 ⟨f, hf, hg⟩, h⟩
        obtain ⟨f', hf', hk⟩ := List.mem_flatMap.1 hg'
        exact ⟨m + 1, by omega, f', hf', at_succ.2 ⟨g', hk, h'⟩⟩

/-! ### Sorted by occurrence -/

theorem mapM_map {α β : Type} {g : α → Option β} {h : α → β} (l : List α) (e : ∀ a ∈ l, g a = some (h a)) : l.mapM g = some (l.map h) := by
  induction l with
  | nil => rfl
  | cons a l ih =>
    rw [List.mapM_cons, e a (by simp), ih fun a ha => e a (by simp [ha])]
    rfl

theorem occLe_total (rev : Bool) (a b : Var × Nat × Nat) : occLe rev a b = true ∨ occLe rev b a = true := by
  unfold occLe
  by_cases h : a.2.1 = b.2.1
  · simp [h]; omega
  · have h' : b.2.1 ≠ a.2.1 := fun e => h e.symm
    cases rev <;> simp [h, h'] <;> omega

theorem occLe_trans (rev : Bool) (a b c : Var × Nat × Nat) (h1 : occLe rev a b = true) (h2 : occLe rev b c = true) : occLe rev a c = true := by
  unfold occLe at *
  by_cases e1 : a.2.1 = b.2.1 <;> by_cases e2 : b.2.1 = c.2.1 <;> by_cases e3 : a.2.1 = c.2.1 <;> cases rev <;>
    simp_all <;> omega

theorem idxOf?_mem {l : List Var} {v : Var} (h : v ∈ l) : l.idxOf? v = some (l.idxOf v) := by
  rw [List.idxOf?_eq_some_iff]
  exact ⟨List.idxOf_lt_length_iff.2 h, by simp, fun j hj => by
    have := List.not_of_lt_findIdx hj
    simpa using this⟩

/-- What `sort_ordering` promises: `u` comes before `v`. -/
def Before (rev : Bool) (f : Formula) (u v : Var) : Prop :=
  (if rev then (occList f).count v < (occList f).count u else (occList f).count u < (occList f).count v) ∨
    (occList f).count u = (occList f).count v ∧ (occList f).idxOf u < (occList f).idxOf v

theorem occSort_ok (rev : Bool) {it : List Var → List Var} (hit : ∀ l, (it l).Perm l) (f : Formula) :
    ∃ r, occSort rev it f = some r ∧ r.Nodup ∧ (∀ v, v ∈ r ↔ Occ v f) ∧ r.Pairwise (Before rev f) := by
  let h : Var → Var × Nat × Nat := fun v => (v, (occList f).count v, (dfs f).idxOf v)
  have hocc : ∀ v, v ∈ it (fnVars.val f) ↔ Occ v f := fun v => ((hit _).mem_iff).trans ((vars_val f).1 v)
  have hnd : (it (fnVars.val f)).Nodup := (hit _).nodup_iff.2 (vars_val f).2
  have e : occSort rev it f = some ((((it (fnVars.val f)).map h).insertionSort fun a b => occLe rev a b = true).map (·.1)) := by
    unfold occSort
    simp only
    rw [mapM_map (h := h) _ fun v hv => ?_, Option.map_some]
    have ho := (hocc v).1 hv
    rw [profile_eq, foldl_bump, if_pos ((mem_occList v f).2 ho), idxOf?_mem (mem_dfs.2 ho)]
    simp [h]
  have hp := List.perm_insertionSort (fun a b => occLe rev a b = true) ((it (fnVars.val f)).map h)
  have hp1 : ((((it (fnVars.val f)).map h).insertionSort fun a b => occLe rev a b = true).map (·.1)).Perm (it (fnVars.val f)) := by
    have := hp.map (·.1)
    rwa [List.map_map, show ((fun x : Var × Nat × Nat => x.1) ∘ h) = id from rfl, List.map_id] at this
  have hn := hp1.nodup_iff.2 hnd
  refine ⟨_, e, hn, fun v => hp1.mem_iff.trans (hocc v), ?_⟩
  rw [List.pairwise_map]
  have : Std.Total fun a b => occLe rev a b = true := ⟨occLe_total rev⟩
  have : IsTrans _ fun a b => occLe rev a b = true := ⟨occLe_trans rev⟩
  have hs := List.pairwise_insertionSort (fun a b => occLe rev a b = true) ((it (fnVars.val f)).map h)
  have hboth := List.Pairwise.and hs (List.pairwise_map.1 hn)
  refine List.Pairwise.imp_of_mem ?_ hboth
  intro a b ha hb hab
  obtain ⟨u, hu, rfl⟩ := List.mem_map.1 (hp.mem_iff.1 ha)
  obtain ⟨v, hv, rfl⟩ := List.mem_map.1 (hp.mem_iff.1 hb)
  obtain ⟨h1, h2⟩ := hab
  have hud : u ∈ dfs f := mem_dfs.2 ((hocc u).1 hu)
  have hvd : v ∈ dfs f := mem_dfs.2 ((hocc v).1 hv)
  have hidx : (dfs f).idxOf u ≤ (dfs f).idxOf v → (occList f).idxOf u < (occList f).idxOf v := fun hle => by
    have hlt : (dfs f).idxOf u < (dfs f).idxOf v := by
      rcases Nat.lt_or_eq_of_le hle with h | h
      · exact h
      · exact (h2 (List.idxOf_inj hud |>.1 h)).elim
    have hsrt := firsts_sorted (occList f)
    rw [← dfs_eq] at hsrt
    have := List.pairwise_iff_getElem.1 hsrt _ _ (List.idxOf_lt_length_iff.2 hud) (List.idxOf_lt_length_iff.2 hvd) hlt
    simpa using this
  unfold occLe at h1
  unfold Before
  simp only [h] at h1 ⊢
  by_cases e1 : (occList f).count u = (occList f).count v
  · refine .inr ⟨e1, hidx ?_⟩
    simpa [e1] using h1
  · refine .inl ?_
    cases rev <;> simpa [e1] using h1

/-- Only one list of the variables is sorted that way. -/
theorem before_unique {rev : Bool} {f : Formula} {r s : List Var} (hr : r.Pairwise (Before rev f)) (hs : s.Pairwise (Before rev f))
    (hp : r.Perm s) : r = s := by
  refine hp.eq_of_pairwise (le := Before rev f) ?_ hr hs
  intro a b _ _ h1 h2
  unfold Before at h1 h2
  cases rev <;> simp at h1 h2 <;> omega

/-! ### Hypergraphs -/

/-- Every edge has a node, every node an edge, both point to existing objects, and contents are distinct. -/
structure Hyper.Good (g : Hyper) : Prop where
  inj : (g.nodes.map (·.1)).Nodup
  edges : ∀ e ∈ g.edges, e ≠ [] ∧ ∀ i ∈ e, i < g.nodes.length
  nodes : ∀ n ∈ g.nodes, n.2 ≠ [] ∧ ∀ e ∈ n.2, e < g.edges.length

/-- While an edge is being put together: `ns` are its nodes so far. -/
structure Hyper.Part (g0 g : Hyper) (ns : List Nat) : Prop where
  inj : (g.nodes.map (·.1)).Nodup
  edges : g.edges = g0.edges
  ext : g0.nodes <+: g.nodes
  bound : ∀ i ∈ ns, i < g.nodes.length
  fresh : ∀ i (h : i < g.nodes.length), g0.nodes.length ≤ i → i ∈ ns ∧ (g.nodes[i]).2 = []

theorem find_some {g : Hyper} {v : Var} {i : Nat} (h : g.find v = some i) : i < g.nodes.length := by
  unfold Hyper.find at h
  exact (List.findIdx?_eq_some_iff_getElem.1 h).1

theorem find_none {g : Hyper} {v : Var} (h : g.find v = none) : v ∉ g.nodes.map (·.1) := by
  unfold Hyper.find at h
  rw [List.findIdx?_eq_none_iff] at h
  intro hv
  obtain ⟨n, hn, e⟩ := List.mem_map.1 hv
  have := h n hn
  simp [e] at this

theorem find_isSome {g : Hyper} {v : Var} (h : v ∈ g.nodes.map (·.1)) : (g.find v).isSome = true := by
  cases e : g.find v with
  | some i => rfl
  | none => exact (find_none e h).elim

theorem touch_ok {g0 g : Hyper} {ns : List Nat} (h : Hyper.Part g0 g ns) (v : Var) :
    Hyper.Part g0 (Hyper.touch (g, ns) v).1 (Hyper.touch (g, ns) v).2 ∧ (Hyper.touch (g, ns) v).1.nodes.map (·.1) = add (g.nodes.map (·.1)) v ∧
      (Hyper.touch (g, ns) v).2 ≠ [] := by
  unfold Hyper.touch
  simp only
  cases e : g.find v with
  | some i =>
    have hi := find_some e
    have hv : v ∈ g.nodes.map (·.1) := by
      by_contra hv
      unfold Hyper.find at e
      obtain ⟨h1, h2, _⟩ := List.findIdx?_eq_some_iff_getElem.1 e
      exact hv (List.mem_map.2 ⟨_, List.getElem_mem h1, by simpa using h2⟩)
    refine ⟨⟨h.inj, h.edges, h.ext, ?_, fun j hj hg => ⟨by simp [(h.fresh j hj hg).1], (h.fresh j hj hg).2⟩⟩, by simp [add, hv], by simp⟩
    intro j hj
    rcases List.mem_append.1 hj with hj | hj
    · exact h.bound j hj
    · simp at hj; subst hj; exact hi
  | none =>
    have hv := find_none e
    refine ⟨⟨?_, h.edges, h.ext.trans (List.prefix_append _ _), ?_, ?_⟩, by simp only [Hyper.addNode, List.map_append, add, if_neg hv]; rfl, by simp⟩
    · simp only [Hyper.addNode, List.map_append, List.map_cons, List.map_nil]
      refine List.nodup_append.2 ⟨h.inj, by simp, ?_⟩
      intro a ha b hb e'
      obtain rfl := List.mem_singleton.1 hb
      exact hv (e' ▸ ha)
    · intro j hj
      simp only [Hyper.addNode, List.length_append, List.length_cons, List.length_nil]
      rcases List.mem_append.1 hj with hj | hj
      · have := h.bound j hj; omega
      · simp at hj; omega
    · intro j hj hg
      simp only [Hyper.addNode, List.length_append, List.length_cons, List.length_nil] at hj ⊢
      by_cases hlt : j < g.nodes.length
      · obtain ⟨h1, h2⟩ := h.fresh j hlt hg
        exact ⟨by simp [h1], by rw [List.getElem_append_left hlt]; exact h2⟩
      · have : j = g.nodes.length := by omega
        subst this
        exact ⟨by simp, by simp⟩

theorem touches_ok {g0 : Hyper} (vs : List Var) : ∀ {g : Hyper} {ns : List Nat}, Hyper.Part g0 g ns →
    Hyper.Part g0 (vs.foldl Hyper.touch (g, ns)).1 (vs.foldl Hyper.touch (g, ns)).2 ∧
      (vs.foldl Hyper.touch (g, ns)).1.nodes.map (·.1) = vs.foldl add (g.nodes.map (·.1)) ∧ (vs ≠ [] ∨ ns ≠ [] → (vs.foldl Hyper.touch (g, ns)).2 ≠ []) := by
  induction vs with
  | nil => intro g ns h; exact ⟨h, rfl, fun h => by simpa using h⟩
  | cons v vs ih =>
    intro g ns h
    obtain ⟨h1, h2, h3⟩ := touch_ok h v
    obtain ⟨i1, i2, i3⟩ := ih h1
    rw [List.foldl_cons]
    exact ⟨i1, by rw [i2, h2]; rfl, fun _ => i3 (.inr h3)⟩

/-- The effect of the loop in `add_edge` on the nodes. -/
theorem push_nodes (k : Nat) (ns : List Nat) : ∀ (l : List (Var × List Nat)),
    (ns.foldl (fun l i => l.modify i fun n => (n.1, n.2 ++ [k])) l).map (·.1) = l.map (·.1) ∧
    (∀ n ∈ ns.foldl (fun l i => l.modify i fun n => (n.1, n.2 ++ [k])) l, ∃ i, ∃ h : i < l.length,
      (∀ e ∈ n.2, e ∈ (l[i]).2 ∨ e = k) ∧ ((l[i]).2 ≠ [] ∨ i ∈ ns → n.2 ≠ [])) := by
  induction ns with
  | nil =>
    intro l
    refine ⟨rfl, fun n hn => ?_⟩
    obtain ⟨i, h, rfl⟩ := List.mem_iff_getElem.1 hn
    exact ⟨i, h, fun e he => .inl he, fun hh => hh.elim id fun h => by simp at h⟩
  | cons j ns ih =>
    intro l
    rw [List.foldl_cons]
    obtain ⟨h1, h2⟩ := ih (l.modify j fun n => (n.1, n.2 ++ [k]))
    refine ⟨?_, fun n hn => ?_⟩
    · rw [h1]
      refine List.ext_getElem (by simp) fun i h h' => ?_
      simp only [List.getElem_map, List.getElem_modify]
      split <;> rfl
    · obtain ⟨i, h, ha, hb⟩ := h2 n hn
      have hi : i < l.length := by simpa using h
      rw [List.getElem_modify] at ha hb
      refine ⟨i, hi, fun e he => ?_, fun hh => hb ?_⟩
      · rcases ha e he with h | h
        · split at h
          · simp at h; rcases h with h | h
            · exact .inl h
            · exact .inr h
          · exact .inl h
        · exact .inr h
      · by_cases hij : j = i
        · simp [hij]
        · rw [if_neg hij]
          rcases hh with hh | hh
          · exact .inl hh
          · rcases List.mem_cons.1 hh with hh | hh
            · exact (hij hh.symm).elim
            · exact .inr hh

theorem addClause_ok {srt : List Var → List Var} (hs : ∀ l, (srt l).Perm l) {g : Hyper} (h : g.Good) {cl : Formula} (hne : ∃ v, Occ v cl) :
    ∃ g', g.addClause srt cl = some g' ∧ g'.Good ∧ ∀ v, v ∈ g'.nodes.map (·.1) ↔ v ∈ g.nodes.map (·.1) ∨ Occ v cl := by
  have h0 : Hyper.Part g g [] := ⟨h.inj, rfl, List.prefix_refl _, by simp, fun i hi hg => by omega⟩
  obtain ⟨h1, h2, h3⟩ := touches_ok (srt (fnVars.val cl)) h0
  have hmem : ∀ v, v ∈ srt (fnVars.val cl) ↔ Occ v cl := fun v => ((hs _).mem_iff).trans ((vars_val cl).1 v)
  unfold Hyper.addClause
  simp only
  generalize (srt (fnVars.val cl)).foldl Hyper.touch (g, []) = p at h1 h2 h3
  obtain ⟨g1, ns⟩ := p
  simp only at h1 h2 h3 ⊢
  have hns : ns ≠ [] := h3 (.inl fun e => by obtain ⟨v, hv⟩ := hne; have := (hmem v).2 hv; rw [e] at this; simp at this)
  have hall : (ns.all fun i => decide (i < g1.nodes.length)) = true := by
    rw [List.all_eq_true]; intro i hi; exact decide_eq_true (h1.bound i hi)
  unfold Hyper.addEdge
  rw [if_pos hall]
  obtain ⟨p1, p2⟩ := push_nodes g1.edges.length ns g1.nodes
  have plen := congrArg List.length p1
  simp only [List.length_map] at plen
  refine ⟨_, rfl, ⟨by simp only [p1]; exact h1.inj, ?_, ?_⟩, fun v => ?_⟩
  · intro e he
    simp only [plen]
    rcases List.mem_append.1 he with he | he
    · rw [h1.edges] at he
      exact ⟨(h.edges e he).1, fun i hi => Nat.lt_of_lt_of_le ((h.edges e he).2 i hi) h1.ext.length_le⟩
    · obtain rfl := List.mem_singleton.1 he
      exact ⟨hns, h1.bound⟩
  · intro n hn
    simp only [List.length_append, List.length_cons, List.length_nil]
    obtain ⟨i, hi, ha, hb⟩ := p2 n hn
    by_cases hg : i < g.nodes.length
    · have e : g1.nodes[i] = g.nodes[i] := (h1.ext.getElem hg).symm
      rw [e] at ha hb
      obtain ⟨q1, q2⟩ := h.nodes _ (List.getElem_mem hg)
      refine ⟨hb (.inl q1), fun e he => ?_⟩
      rcases ha e he with he | he
      · have := q2 e he; rw [h1.edges]; omega
      · omega
    · obtain ⟨q1, q2⟩ := h1.fresh i hi (by omega)
      refine ⟨hb (.inr q1), fun e he => ?_⟩
      rcases ha e he with he | he
      · rw [q2] at he; simp at he
      · omega
  · simp only [p1]
    rw [h2, mem_foldl_add, hmem]

theorem good_new : Hyper.new.Good := ⟨.nil, by simp [Hyper.new], by simp [Hyper.new]⟩

theorem clauses_ok {srt : List Var → List Var} (hs : ∀ l, (srt l).Perm l) (fs : List Formula) (hne : ∀ f ∈ fs, ∃ v, Occ v f) : ∀ {g : Hyper}, g.Good →
    ∃ g', fs.foldlM (Hyper.addClause srt) g = some g' ∧ g'.Good ∧ ∀ v, v ∈ g'.nodes.map (·.1) ↔ v ∈ g.nodes.map (·.1) ∨ ∃ f ∈ fs, Occ v f := by
  induction fs with
  | nil => intro g h; exact ⟨g, rfl, h, by simp⟩
  | cons f fs ih =>
    intro g h
    obtain ⟨g1, e1, h1, m1⟩ := addClause_ok hs h (hne f (by simp))
    obtain ⟨g2, e2, h2, m2⟩ := ih (fun f hf => hne f (by simp [hf])) h1
    refine ⟨g2, by rw [List.foldlM_cons, e1]; exact e2, h2, fun v => ?_⟩
    rw [m2, m1]
    simp [or_assoc]

theorem clause_var {f : Formula} (hc : IsClause f) (hn : f.Norm) (hk : f.isConst = false) : ∃ v, Occ v f := by
  cases hc with
  | tru => cases hk
  | fls => cases hk
  | lit l => exact ⟨l.v, by simp⟩
  | @or fs h =>
    cases hn with
    | nary h2 _ _ =>
      cases fs with
      | nil => simp at h2
      | cons f fs =>
        obtain ⟨l, rfl⟩ := h f (by simp)
        exact ⟨l.v, (Formula.occ_nary _ _ _).2 ⟨.lit l, by simp, by simp⟩⟩

theorem ofCnf_ok {srt : List Var → List Var} (hs : ∀ l, (srt l).Perm l) {f : Formula} (hc : IsCnf f) (hn : f.Norm) :
    ∃ g, Hyper.ofCnf srt f = some g ∧ g.Good ∧ ∀ v, v ∈ g.nodes.map (·.1) ↔ Occ v f := by
  have one : ∀ f : Formula, (∃ v, Occ v f) → ∃ g, Hyper.new.addClause srt f = some g ∧ g.Good ∧ ∀ v, v ∈ g.nodes.map (·.1) ↔ Occ v f := fun f hf => by
    obtain ⟨g, e, h1, h2⟩ := addClause_ok hs good_new hf
    exact ⟨g, e, h1, fun v => by rw [h2]; simp [Hyper.new]⟩
  cases hc with
  | clause h =>
    cases h with
    | tru => exact ⟨_, rfl, good_new, by simp [Hyper.new]⟩
    | fls => exact ⟨_, rfl, good_new, by simp [Hyper.new]⟩
    | lit l => exact one _ ⟨l.v, by simp⟩
    | or h => exact one _ (clause_var (.or h) hn rfl)
  | @and fs h =>
    cases hn with
    | nary _ hn hg =>
      obtain ⟨g, e, h1, h2⟩ := clauses_ok hs fs (fun f hf => clause_var (h f hf) (hn f hf) (hg.notConst f hf)) good_new
      exact ⟨g, e, h1, fun v => by rw [h2, Formula.occ_nary]; simp [Hyper.new]⟩

/-! ### The iteration -/

theorem center_some {fl : Rat → Rat} {ord ns : List Nat} (h : ∀ i ∈ ns, i < ord.length) : ∃ x, center fl ord ns = some x := by
  unfold center
  rw [mapM_map (h := fun i => ord.getD i 0) _ fun i hi => by rw [List.getElem?_eq_getElem (h i hi)]; simp [List.getD_eq_getElem?_getD, List.getElem?_eq_getElem (h i hi)]]
  exact ⟨_, rfl⟩

theorem location_some {g : Hyper} (hg : g.Good) {fl : Rat → Rat} {ord es : List Nat} (ho : ord.length = g.nodes.length) (h : ∀ e ∈ es, e < g.edges.length) :
    ∃ x, g.location fl ord es = some x := by
  unfold Hyper.location
  suffices ∀ a, ∃ x, es.foldlM (fun acc e => (g.edges[e]?).bind fun ns => (center fl ord ns).map fun x => fl (acc + x)) a = some x by
    obtain ⟨x, e⟩ := this 0
    exact ⟨_, by rw [e]; rfl⟩
  induction es with
  | nil => intro a; exact ⟨a, rfl⟩
  | cons e es ih =>
    intro a
    have he := h e (by simp)
    obtain ⟨x, ex⟩ := center_some (fl := fl) (ord := ord) (ns := g.edges[e]) fun i hi => by
      rw [ho]; exact (hg.edges _ (List.getElem_mem he)).2 i hi
    obtain ⟨y, ey⟩ := ih (fun e he => h e (by simp [he])) (fl (a + x))
    exact ⟨y, by rw [List.foldlM_cons, List.getElem?_eq_getElem he, Option.bind_some, ex]; exact ey⟩

theorem positions_length (l : List Rat) : (positions l).length = l.length := by simp [positions]

theorem step_some {g : Hyper} (hg : g.Good) {fl : Rat → Rat} {ord : List Nat} (ho : ord.length = g.nodes.length) :
    ∃ o, g.step fl ord = some o ∧ o.length = g.nodes.length := by
  have h : ∀ n ∈ g.nodes, g.location fl ord n.2 = some ((g.location fl ord n.2).getD 0) := fun n hn => by
    obtain ⟨x, e⟩ := location_some hg (fl := fl) ho (hg.nodes n hn).2
    rw [e]; rfl
  unfold Hyper.step
  rw [mapM_map _ h]
  exact ⟨_, rfl, by rw [positions_length]; simp⟩

theorem loop_ok {g : Hyper} (hg : g.Good) (fl : Rat → Rat) (n : Nat) : ∀ {ord : List Nat}, ord.length = g.nodes.length →
    g.loop fl n ord = .fuel ∨ ∃ o, g.loop fl n ord = .ok o ∧ o.length = g.nodes.length ∧ g.step fl o = some o := by
  induction n with
  | zero => intro ord _; exact .inl rfl
  | succ n ih =>
    intro ord ho
    obtain ⟨o, e, h⟩ := step_some hg (fl := fl) ho
    unfold Hyper.loop
    rw [e]
    simp only
    split
    · exact ih h
    · rename_i hne
      have : o = ord := by simpa using hne
      subst this
      exact .inr ⟨o, rfl, h, e⟩

theorem initial_some {g : Hyper} {cnf : Formula} (hm : ∀ v, v ∈ g.nodes.map (·.1) ↔ Occ v cnf) :
    ∃ o, g.initial cnf = some o ∧ o.length = g.nodes.length := by
  unfold Hyper.initial
  rw [if_pos (List.all_eq_true.2 fun v hv => find_isSome ((hm v).2 (mem_dfs.1 hv)))]
  rw [mapM_map (h := fun n => (dfs cnf).idxOf n.1) _ fun n hn => idxOf?_mem (mem_dfs.2 ((hm n.1).1 (List.mem_map.2 ⟨n, hn, rfl⟩)))]
  exact ⟨_, rfl, by simp⟩

theorem finish_ok {g : Hyper} (hg : g.Good) {ord : List Nat} (ho : ord.length = g.nodes.length) {orig : List Var} (hn : orig.Nodup) :
    ∃ vs, g.finish ord orig = some vs ∧ vs.Perm orig := by
  unfold Hyper.finish
  simp only
  have hp := List.perm_insertionSort (fun i j => ord[i]?.getD 0 ≤ ord[j]?.getD 0) (List.range ord.length)
  generalize List.insertionSort (fun i j => ord[i]?.getD 0 ≤ ord[j]?.getD 0) (List.range ord.length) = l at hp
  have hl : ∀ i ∈ l, i < (g.nodes.map (·.1)).length := fun i hi => by
    rw [List.length_map, ← ho]; exact List.mem_range.1 (hp.mem_iff.1 hi)
  rw [mapM_map (h := fun i => (g.nodes.map (·.1)).getD i (.named 0)) _ fun i hi => ?_]
  · simp only [Option.map_some]
    refine ⟨_, rfl, ?_⟩
    have hnd : (l.map fun i => (g.nodes.map (·.1)).getD i (.named 0)).Nodup := by
      refine List.Nodup.map_on ?_ (hp.nodup_iff.2 List.nodup_range)
      intro i hi j hj e
      rw [List.getD_eq_getElem?_getD, List.getElem?_eq_getElem (hl i hi), List.getD_eq_getElem?_getD, List.getElem?_eq_getElem (hl j hj)] at e
      simp only [Option.getD_some] at e
      exact (hg.inj.getElem_inj_iff).1 e
    generalize (l.map fun i => (g.nodes.map (·.1)).getD i (.named 0)) = vs at hnd
    refine (List.perm_ext_iff_of_nodup ?_ hn).2 ?_
    · refine List.nodup_append.2 ⟨hnd.filter _, hn.filter _, ?_⟩
      intro a ha b hb e
      subst e
      exact of_decide_eq_true (List.mem_filter.1 hb).2 ha
    · intro v
      rw [List.mem_append, List.mem_filter (as := orig)]
      constructor
      · rintro (h | h)
        · simpa using (List.mem_filter.1 h).2
        · exact h.1
      · intro h
        by_cases hv : v ∈ vs.filter (· ∈ orig)
        · exact .inl hv
        · exact .inr ⟨h, decide_eq_true hv⟩
  · have hi := hl i hi
    have : i < g.nodes.length := by simpa using hi
    simp [List.getD_eq_getElem?_getD, List.getElem?_eq_getElem this]

theorem hyper_force_ok {g : Hyper} (hg : g.Good) {cnf : Formula} (hm : ∀ v, v ∈ g.nodes.map (·.1) ↔ Occ v cnf) (fl : Rat → Rat) {orig : List Var} (hn : orig.Nodup)
    (n : Nat) : g.force fl cnf orig n = .fuel ∨ ∃ vs, g.force fl cnf orig n = .ok vs ∧ vs.Perm orig := by
  obtain ⟨o, e1, h1⟩ := initial_some hm
  unfold Hyper.force
  rw [e1]
  simp only
  rcases loop_ok hg fl n h1 with e | ⟨o', e, h2, _⟩
  · left; rw [e]
  · right
    obtain ⟨vs, e3, h3⟩ := finish_ok hg h2 hn
    rw [e]
    simp only
    rw [e3]
    exact ⟨vs, rfl, h3⟩

/-- Two orderings that the iteration exchanges: the loop does not end. -/
theorem loop_cycle {g : Hyper} {fl : Rat → Rat} {a b : List Nat} (h1 : g.step fl a = some b) (h2 : g.step fl b = some a) (hne : a ≠ b) (n : Nat) :
    g.loop fl n a = .fuel ∧ g.loop fl n b = .fuel := by
  induction n with
  | zero => exact ⟨rfl, rfl⟩
  | succ n ih =>
    constructor
    · unfold Hyper.loop; rw [h1]; simp only; rw [if_pos (fun e => hne e.symm)]; exact ih.2
    · unfold Hyper.loop; rw [h2]; simp only; rw [if_pos hne]; exact ih.1

end VarOrd
end Verif
