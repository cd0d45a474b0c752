import Mathlib.Order.Defs.LinearOrder
import Mathlib.Order.Basic
import Mathlib.Data.List.Nodup
import Mathlib.Data.List.Induction
import Mathlib.Data.List.Perm.Subperm
/-
Model of src/datastructures/ubtree.rs.  A `BTreeSet` is a strictly ascending list, a `BTreeMap` an association list
(its order does not matter: `all_sets` inserts into a set, `get` looks up by key).
-/
namespace Verif

/-- `UbNode`, ubtree.rs:7-10. -/
structure UbNode (α : Type) where
  children : Nat
  set : Option (List α)

/-- `UbTree`, ubtree.rs:33-37; `root_nodes` is always 0. -/
structure UbTree (α : Type) where
  nodes : List (UbNode α)
  maps : List (List (α × Nat))

namespace UbTree
variable {α : Type} [LinearOrder α]

/-- `UbTree::new`, ubtree.rs:41-43. -/
def new : UbTree α := ⟨[], [[]]⟩

/-- `BTreeMap::get`. -/
def get (m : List (α × Nat)) (e : α) : Option Nat :=
  match m with
  | [] => none
  | (k, n) :: m => if k = e then some n else get m e

/-- Look up or create the child, ubtree.rs:50-56 with `new_node` 127-138.  `none` is an index panic. -/
def childFor (t : UbTree α) (m : Nat) (e : α) : Option (Nat × UbTree α) :=
  match t.maps[m]? with
  | none => none
  | some mp =>
    match get mp e with
    | some n => some (n, t)
    | none => some (t.nodes.length, ⟨t.nodes ++ [⟨t.maps.length, none⟩], (t.maps ++ [[]]).set m (mp ++ [(e, t.nodes.length)])⟩)

/-- The loop of `add_set`, ubtree.rs:49-59. -/
def walk (t : UbTree α) : List α → Nat → Option Nat → Option (Option Nat × UbTree α)
  | [], _, node => some (node, t)
  | e :: es, m, _ =>
    match t.childFor m e with
    | none => none
    | some (n, t) =>
      match t.nodes[n]? with
      | none => none
      | some nd => walk t es nd.children (some n)

/-- `add_set`, ubtree.rs:46-63. -/
def addSet (t : UbTree α) (s : List α) : Option (UbTree α) :=
  match t.walk s 0 none with
  | none => none
  | some (none, t) => some t
  | some (some n, t) =>
    match t.nodes[n]? with
    | none => none
    | some nd => some ⟨t.nodes.set n ⟨nd.children, some s⟩, t.maps⟩

/-- `get_all_nodes_containing_elements`, ubtree.rs:116-125, before the hash set reorders it. -/
def nodesFor (m : List (α × Nat)) (s : List α) : List Nat := s.filterMap (get m)

/-- The loop of `first_subset_from_forest`, ubtree.rs:99-113.  `deeper` is the recursive call. -/
def scan (t : UbTree α) (deeper : Nat → Option (Option (List α))) : List Nat → Option (List α) → Option (Option (List α))
  | [], found => some found
  | n :: ns, found =>
    match found with
    | some s => some (some s)
    | none =>
      match t.nodes[n]? with
      | none => none
      | some nd =>
        match nd.set with
        | some s => some (some s)
        | none =>
          match deeper nd.children with
          | none => none
          | some r => scan t deeper ns r

/-- `first_subset_from_forest`, ubtree.rs:97-114.  `ord` is the iteration order of the hash set (an arbitrary
rearrangement).  The outer `Option` is an index panic.  Removing the first element of the set is `tail`. -/
def forest (ord : List Nat → List Nat) (t : UbTree α) : List α → Nat → Option (Option (List α))
  | [], m => match t.maps[m]? with
    | none => some none   -- the empty set never touches the map
    | some _ => some none
  | e :: es, m =>
    match t.maps[m]? with
    | none => none
    | some mp => scan t (forest ord t es) (ord (nodesFor mp (e :: es))) none

/-- `first_subset`, ubtree.rs:66-72. -/
def firstSubset (ord : List Nat → List Nat) (t : UbTree α) (s : List α) : Option (Option (List α)) :=
  match t.maps[0]? with
  | none => none
  | some mp => if mp.isEmpty || s.isEmpty then some none else forest ord t s 0

/-- The inner loop of `all_sets`, ubtree.rs:80-86. -/
def visit (t : UbTree α) : List (α × Nat) → List (List α) → List Nat → Option (List (List α) × List Nat)
  | [], acc, stack => some (acc, stack)
  | (_, n) :: es, acc, stack =>
    match t.nodes[n]? with
    | none => none
    | some nd =>
      visit t es (match nd.set with | some s => if s ∈ acc then acc else acc ++ [s] | none => acc) (nd.children :: stack)

/-- The outer loop of `all_sets`, ubtree.rs:79-87. -/
def collect (t : UbTree α) : Nat → List (List α) → List Nat → Option (List (List α))
  | _, acc, [] => some acc
  | 0, _, _ :: _ => none
  | fuel + 1, acc, m :: stack =>
    match t.maps[m]? with
    | none => none
    | some mp =>
      match visit t mp acc stack with
      | none => none
      | some (acc, stack) => collect t fuel acc stack

/-- `all_sets`, ubtree.rs:75-89.  The result is a set; its order (lexicographic in the code) is not modelled. -/
def allSets (t : UbTree α) : Option (List (List α)) := t.collect t.maps.length [] [0]

/-! ### Invariant -/

/-- `W m` is the word spelled by the path to child map `m`; `K` is the collection of stored sets. -/
structure Inv (t : UbTree α) (W : Nat → List α) (K : List α → Prop) : Prop where
  len : t.maps.length = t.nodes.length + 1
  kids : ∀ (n : Nat) (nd : UbNode α), t.nodes[n]? = some nd → nd.children = n + 1
  root : W 0 = []
  edge : ∀ (m : Nat) (mp : List (α × Nat)) (e : α) (n : Nat), t.maps[m]? = some mp → (e, n) ∈ mp → n < t.nodes.length ∧ W (n + 1) = W m ++ [e] ∧ m ≤ n
  keys : ∀ (m : Nat) (mp : List (α × Nat)), t.maps[m]? = some mp → (mp.map (·.1)).Nodup
  word : ∀ n, n < t.nodes.length → ∃ (m : Nat) (mp : List (α × Nat)) (e : α), t.maps[m]? = some mp ∧ (e, n) ∈ mp
  inj : ∀ m m', m < t.maps.length → m' < t.maps.length → W m = W m' → m = m'
  sorted : ∀ m, m < t.maps.length → (W m).Pairwise (· < ·)
  sets : ∀ (n : Nat) (nd : UbNode α) (s : List α), t.nodes[n]? = some nd → nd.set = some s → s = W (n + 1)
  stored : ∀ s, K s ↔ ∃ (n : Nat) (nd : UbNode α), t.nodes[n]? = some nd ∧ nd.set = some s

theorem get_some {m : List (α × Nat)} {e : α} {n : Nat} (h : get m e = some n) : (e, n) ∈ m := by
  induction m with
  | nil => cases h
  | cons p m ih =>
    obtain ⟨k, n'⟩ := p
    simp only [get] at h
    split at h
    · rename_i hk; injection h with h; subst h; subst hk; simp
    · exact List.mem_cons_of_mem _ (ih h)

theorem get_none {m : List (α × Nat)} {e : α} (h : get m e = none) : ∀ n, (e, n) ∉ m := by
  induction m with
  | nil => intro n; simp
  | cons p m ih =>
    obtain ⟨k, n'⟩ := p
    simp only [get] at h
    split at h
    · cases h
    · rename_i hk
      intro n hm
      rcases List.mem_cons.1 hm with e' | hm
      · injection e' with e1 _; exact hk e1.symm
      · exact ih h n hm

theorem get_mem {m : List (α × Nat)} (hk : (m.map (·.1)).Nodup) {e : α} {n : Nat} (h : (e, n) ∈ m) : get m e = some n := by
  induction m with
  | nil => cases h
  | cons p m ih =>
    obtain ⟨k, n'⟩ := p
    simp only [List.map_cons, List.nodup_cons] at hk
    simp only [get]
    rcases List.mem_cons.1 h with e' | hm
    · injection e' with e1 e2; subst e1; subst e2; simp
    · rw [if_neg, ih hk.2 hm]
      rintro rfl
      exact hk.1 (List.mem_map.2 ⟨_, hm, rfl⟩)

theorem Inv.new : Inv (α := α) UbTree.new (fun _ => []) (fun _ => False) where
  len := rfl
  kids n nd h := by simp [UbTree.new] at h
  root := rfl
  edge m mp e n h hm := by
    rcases m with _ | m
    · simp [UbTree.new] at h; subst h; cases hm
    · simp [UbTree.new] at h
  keys m mp h := by
    rcases m with _ | m
    · simp [UbTree.new] at h; subst h; simp
    · simp [UbTree.new] at h
  word n h := by simp [UbTree.new] at h
  inj m m' h h' _ := by simp [UbTree.new] at h h'; omega
  sorted m _ := List.Pairwise.nil
  sets n nd s h := by simp [UbTree.new] at h
  stored s := by simp [UbTree.new]

/-- Every child map has a word other than the root's. -/
theorem Inv.map_mem {t : UbTree α} {W K} (h : Inv t W K) {m : Nat} (hm : m < t.maps.length) : ∃ mp, t.maps[m]? = some mp :=
  ⟨_, List.getElem?_eq_getElem hm⟩

theorem childFor_ok {t : UbTree α} {W K} (h : Inv t W K) {m : Nat} (hm : m < t.maps.length) {e : α} (hs : (W m ++ [e]).Pairwise (· < ·)) :
    ∃ n t' W', t.childFor m e = some (n, t') ∧ Inv t' W' K ∧ n < t'.nodes.length ∧ W' (n + 1) = W m ++ [e] := by
  obtain ⟨mp, hmp⟩ := h.map_mem hm
  unfold childFor
  simp only [hmp]
  cases hg : get mp e with
  | some n =>
    obtain ⟨h1, h2, _⟩ := h.edge m mp e n hmp (get_some hg)
    exact ⟨n, t, W, rfl, h, h1, h2⟩
  | none =>
    let W' : Nat → List α := fun i => if i = t.nodes.length + 1 then W m ++ [e] else W i
    have hW : ∀ i, i < t.maps.length → W' i = W i := by
      intro i hi; have := h.len; simp only [W']; rw [if_neg (by omega)]
    have hWn : W' (t.nodes.length + 1) = W m ++ [e] := by simp [W']
    have hmaps : ∀ (i : Nat) (q : List (α × Nat)), ((t.maps ++ [[]]).set m (mp ++ [(e, t.nodes.length)]))[i]? = some q →
        (i < t.maps.length ∧ i ≠ m ∧ t.maps[i]? = some q) ∨ (i = m ∧ q = mp ++ [(e, t.nodes.length)]) ∨ (i = t.maps.length ∧ q = []) := by
      intro i q hq
      rw [List.getElem?_set] at hq
      split at hq
      · rename_i e'; subst e'
        rw [if_pos (by simp; omega)] at hq; injection hq with hq; exact .inr (.inl ⟨rfl, hq.symm⟩)
      · rename_i hne
        by_cases hi : i < t.maps.length
        · rw [List.getElem?_append_left hi] at hq; exact .inl ⟨hi, Ne.symm hne, hq⟩
        · have := (List.getElem?_eq_some_iff.1 hq).1
          simp at this
          have hi' : i = t.maps.length := by omega
          subst hi'; simp at hq; exact .inr (.inr ⟨rfl, hq⟩)
    have hnodes : ∀ (i : Nat) (nd : UbNode α), (t.nodes ++ [⟨t.maps.length, none⟩])[i]? = some nd → (i < t.nodes.length ∧ t.nodes[i]? = some nd) ∨ (i = t.nodes.length ∧ nd = ⟨t.maps.length, none⟩) := by
      intro i nd hq
      by_cases hi : i < t.nodes.length
      · rw [List.getElem?_append_left hi] at hq; exact .inl ⟨hi, hq⟩
      · have := (List.getElem?_eq_some_iff.1 hq).1
        simp at this
        have hi' : i = t.nodes.length := by omega
        subst hi'; simp at hq; exact .inr ⟨rfl, hq.symm⟩
    have hnew : ∀ i, i < t.maps.length → W i ≠ W m ++ [e] := by
      intro i hi heq
      rcases Nat.eq_zero_or_pos i with h0 | h0
      · subst h0; rw [h.root] at heq; simp at heq
      · obtain ⟨m', mp', e', hm', he'⟩ := h.word (i - 1) (by have := h.len; omega)
        obtain ⟨_, h2, _⟩ := h.edge m' mp' e' (i - 1) hm' he'
        rw [show i - 1 + 1 = i by omega, heq] at h2
        obtain ⟨a1, a2⟩ := List.append_inj' h2 rfl
        have hm'l := (List.getElem?_eq_some_iff.1 hm').1
        have := h.inj m m' hm hm'l a1
        subst this
        rw [hmp] at hm'; injection hm' with hm'; subst hm'
        injection a2 with a2 _; subst a2
        exact get_none hg _ he'
    refine ⟨t.nodes.length, _, W', rfl, ⟨by simp [h.len], ?_, ?_, ?_, ?_, ?_, ?_, ?_, ?_, ?_⟩, by simp, hWn⟩
    · intro n nd hn
      rcases hnodes n nd hn with ⟨_, hn⟩ | ⟨rfl, rfl⟩
      · exact h.kids n nd hn
      · exact h.len
    · rw [hW 0 (by have := h.len; omega)]; exact h.root
    · intro i q e' n hq he'
      rcases hmaps i q hq with ⟨hi, _, hq⟩ | ⟨rfl, rfl⟩ | ⟨rfl, rfl⟩
      · obtain ⟨h1, h2, h3⟩ := h.edge i q e' n hq he'
        refine ⟨by simp; omega, ?_, h3⟩
        rw [hW _ (by have := h.len; omega), hW i hi]; exact h2
      · rcases List.mem_append.1 he' with he' | he'
        · obtain ⟨h1, h2, h3⟩ := h.edge i mp e' n hmp he'
          refine ⟨by simp; omega, ?_, h3⟩
          rw [hW _ (by have := h.len; omega), hW i hm]; exact h2
        · simp only [List.mem_singleton, Prod.mk.injEq] at he'
          obtain ⟨rfl, rfl⟩ := he'
          exact ⟨by simp, by rw [hWn, hW i hm], by have := h.len; omega⟩
      · cases he'
    · intro i q hq
      rcases hmaps i q hq with ⟨_, _, hq⟩ | ⟨rfl, rfl⟩ | ⟨rfl, rfl⟩
      · exact h.keys i q hq
      · rw [List.map_append, List.nodup_append]
        refine ⟨h.keys _ _ hmp, by simp, ?_⟩
        intro a ha b hb
        simp at hb
        rintro rfl
        subst hb
        obtain ⟨⟨k, n⟩, hkn, rfl⟩ := List.mem_map.1 ha
        exact get_none hg n hkn
      · simp
    · intro n hn
      simp at hn
      by_cases hn' : n < t.nodes.length
      · obtain ⟨m', mp', e', hm', he'⟩ := h.word n hn'
        by_cases hmm : m' = m
        · subst hmm
          rw [hmp] at hm'; injection hm' with hm'; subst hm'
          exact ⟨m', mp ++ [(e, t.nodes.length)], e', by rw [List.getElem?_set_self (by simp; omega)], by simp [he']⟩
        · refine ⟨m', mp', e', ?_, he'⟩
          rw [List.getElem?_set_ne (Ne.symm hmm), List.getElem?_append_left (List.getElem?_eq_some_iff.1 hm').1]; exact hm'
      · have : n = t.nodes.length := by omega
        subst this
        exact ⟨m, mp ++ [(e, t.nodes.length)], e, by rw [List.getElem?_set_self (by simp; omega)], by simp⟩
    · intro i j hi hj hij
      simp at hi hj
      have hlen := h.len
      by_cases hi' : i < t.maps.length
      · by_cases hj' : j < t.maps.length
        · rw [hW i hi', hW j hj'] at hij; exact h.inj i j hi' hj' hij
        · have : j = t.nodes.length + 1 := by omega
          subst this; rw [hWn, hW i hi'] at hij; exact absurd hij (hnew i hi')
      · have hi2 : i = t.nodes.length + 1 := by omega
        subst hi2
        by_cases hj' : j < t.maps.length
        · rw [hWn, hW j hj'] at hij; exact absurd hij.symm (hnew j hj')
        · omega
    · intro i hi
      simp at hi
      by_cases hi' : i < t.maps.length
      · rw [hW i hi']; exact h.sorted i hi'
      · have : i = t.nodes.length + 1 := by have := h.len; omega
        subst this; rw [hWn]; exact hs
    · intro n nd s hn hset
      rcases hnodes n nd hn with ⟨hl, hn⟩ | ⟨rfl, rfl⟩
      · rw [hW _ (by have := h.len; omega)]; exact h.sets n nd s hn hset
      · cases hset
    · intro s
      rw [h.stored]
      constructor
      · rintro ⟨n, nd, hn, hset⟩
        exact ⟨n, nd, by rw [List.getElem?_append_left (List.getElem?_eq_some_iff.1 hn).1]; exact hn, hset⟩
      · rintro ⟨n, nd, hn, hset⟩
        rcases hnodes n nd hn with ⟨_, hn⟩ | ⟨rfl, rfl⟩
        · exact ⟨n, nd, hn, hset⟩
        · cases hset

theorem walk_ok (s : List α) : ∀ {t : UbTree α} {W K} (_ : Inv t W K) {m : Nat} (_ : m < t.maps.length) (node : Option Nat),
    (W m ++ s).Pairwise (· < ·) → (∀ n, node = some n → n < t.nodes.length ∧ m = n + 1) → (node = none → m = 0) →
    ∃ r t' W', t.walk s m node = some (r, t') ∧ Inv t' W' K ∧
      (∀ n, r = some n → n < t'.nodes.length ∧ W' (n + 1) = W m ++ s) ∧ (r = none → s = [] ∧ node = none) := by
  induction s with
  | nil =>
    intro t W K h m hm node _ hn _
    refine ⟨node, t, W, rfl, h, fun n hn' => ⟨(hn n hn').1, by rw [← (hn n hn').2]; simp⟩, fun e => ⟨rfl, e⟩⟩
  | cons e es ih =>
    intro t W K h m hm node hs _ _
    have hs' : (W m ++ [e]).Pairwise (· < ·) := by
      exact List.Pairwise.sublist (List.Sublist.append (List.Sublist.refl _) (by simp)) hs
    obtain ⟨n, t1, W1, e1, h1, hn1, hw1⟩ := childFor_ok h hm hs'
    have hnd : t1.nodes[n]? = some t1.nodes[n] := List.getElem?_eq_getElem hn1
    have hc := h1.kids n _ hnd
    obtain ⟨r, t2, W2, e2, h2, hr, hr'⟩ := ih h1 (m := n + 1) (by rw [h1.len]; omega) (some n) (by rw [hw1]; simpa using hs) (fun k hk => by injection hk with hk; subst hk; exact ⟨hn1, rfl⟩) (fun h => (nomatch h))
    refine ⟨r, t2, W2, ?_, h2, fun k hk => ⟨(hr k hk).1, by rw [(hr k hk).2, hw1]; simp⟩, fun e => absurd (hr' e).2 (by simp)⟩
    simp only [walk, e1, hnd, hc, e2]

theorem addSet_ok {t : UbTree α} {W K} (h : Inv t W K) {s : List α} (hs : s.Pairwise (· < ·)) :
    ∃ t' W', t.addSet s = some t' ∧ Inv t' W' (fun x => K x ∨ (x = s ∧ s ≠ [])) := by
  obtain ⟨r, t1, W1, e1, h1, hr, hr'⟩ := walk_ok s h (m := 0) (by rw [h.len]; omega) none (by rw [h.root]; simpa using hs) (fun _ h => (nomatch h)) (fun _ => rfl)
  rw [h.root] at hr
  unfold addSet
  simp only [e1]
  cases r with
  | none =>
    obtain ⟨rfl, _⟩ := hr' rfl
    refine ⟨t1, W1, rfl, { h1 with stored := fun s => ?_ }⟩
    rw [← h1.stored]; simp
  | some n =>
    obtain ⟨hn, hw⟩ := hr n rfl
    rw [List.nil_append] at hw
    have hnd : t1.nodes[n]? = some t1.nodes[n] := List.getElem?_eq_getElem hn
    generalize t1.nodes[n] = nd at hnd
    simp only [hnd]
    have hne : s ≠ [] := by
      rintro rfl
      have h0 := h1.root
      have := h1.inj (n + 1) 0 (by rw [h1.len]; omega) (by rw [h1.len]; omega) (by rw [hw, h0])
      omega
    have hget : ∀ (i : Nat) (x : UbNode α), (t1.nodes.set n ⟨nd.children, some s⟩)[i]? = some x → (i = n ∧ x = ⟨nd.children, some s⟩) ∨ (i ≠ n ∧ t1.nodes[i]? = some x) := by
      intro i x hx
      rw [List.getElem?_set] at hx
      split at hx
      · rename_i e; subst e; injection hx with hx; exact .inl ⟨rfl, hx.symm⟩
      · rename_i hne; exact .inr ⟨Ne.symm hne, hx⟩
    refine ⟨_, W1, rfl, ⟨by simp [h1.len], ?_, h1.root, ?_, h1.keys, ?_, h1.inj, h1.sorted, ?_, ?_⟩⟩
    · intro i x hx
      rcases hget i x hx with ⟨rfl, rfl⟩ | ⟨_, hx⟩
      · exact h1.kids i nd hnd
      · exact h1.kids i x hx
    · intro m mp e k hm he; simpa using h1.edge m mp e k hm he
    · intro i hi; exact h1.word i (by simpa using hi)
    · intro i x s' hx hset
      rcases hget i x hx with ⟨rfl, rfl⟩ | ⟨_, hx⟩
      · simp only [Option.some.injEq] at hset; rw [hw, hset]
      · exact h1.sets i x s' hx hset
    · intro x
      rw [h1.stored]
      constructor
      · rintro (⟨i, y, hy, hset⟩ | ⟨rfl, _⟩)
        · by_cases hin : i = n
          · subst hin
            have := h1.sets i y x hy hset
            exact ⟨i, ⟨nd.children, some s⟩, by simp [hn], by rw [this, hw]⟩
          · exact ⟨i, y, by rw [List.getElem?_set_ne (Ne.symm hin)]; exact hy, hset⟩
        · exact ⟨n, _, by rw [List.getElem?_set_self hn], rfl⟩
      · rintro ⟨i, y, hy, hset⟩
        rcases hget i y hy with ⟨rfl, rfl⟩ | ⟨_, hy⟩
        · simp only [Option.some.injEq] at hset; exact .inr ⟨hset.symm, hne⟩
        · exact .inl ⟨i, y, hy, hset⟩

/-! ### Queries -/

/-- Every stored set whose word passes through the child map `m` and whose rest lies in `s`. -/
def Below (W : Nat → List α) (K : List α → Prop) (m : Nat) (s : List α) : Prop := ∃ r, r ≠ [] ∧ K (W m ++ r) ∧ ∀ x ∈ r, x ∈ s

/-- Prefixes of stored words are child maps. -/
theorem prefix_edge {t : UbTree α} {W K} (h : Inv t W K) {m : Nat} {e : α} : ∀ (r : List α) {m' : Nat}, m < t.maps.length → m' < t.maps.length → W m' = W m ++ e :: r →
    ∃ (mp : List (α × Nat)) (n : Nat), t.maps[m]? = some mp ∧ (e, n) ∈ mp := by
  intro r
  induction r using List.reverseRecOn with
  | nil =>
    intro m' hm hm' hw
    rcases Nat.eq_zero_or_pos m' with h0 | h0
    · subst h0; rw [h.root] at hw; simp at hw
    · obtain ⟨q, mp, e', hq, he'⟩ := h.word (m' - 1) (by have := h.len; omega)
      obtain ⟨_, h2, _⟩ := h.edge q mp e' (m' - 1) hq he'
      rw [show m' - 1 + 1 = m' by omega, hw] at h2
      obtain ⟨a1, a2⟩ := List.append_inj' h2 rfl
      have := h.inj m q hm (List.getElem?_eq_some_iff.1 hq).1 a1
      subst this
      injection a2 with a2 _; subst a2
      exact ⟨mp, m' - 1, hq, he'⟩
  | append_singleton r x ih =>
    intro m' hm hm' hw
    rcases Nat.eq_zero_or_pos m' with h0 | h0
    · subst h0; rw [h.root] at hw; simp at hw
    · obtain ⟨q, mp, e', hq, he'⟩ := h.word (m' - 1) (by have := h.len; omega)
      obtain ⟨_, h2, _⟩ := h.edge q mp e' (m' - 1) hq he'
      rw [show m' - 1 + 1 = m' by omega, hw] at h2
      have h2' : (W m ++ e :: r) ++ [x] = W q ++ [e'] := by simpa using h2
      obtain ⟨a1, _⟩ := List.append_inj' h2' rfl
      exact ih hm (List.getElem?_eq_some_iff.1 hq).1 a1.symm

/-- The result of a query. -/
def Answer (W : Nat → List α) (K : List α → Prop) (m : Nat) (s : List α) : Option (List α) → Prop
  | some x => ∃ r, r ≠ [] ∧ x = W m ++ r ∧ K x ∧ ∀ a ∈ r, a ∈ s
  | none => ¬ Below W K m s

theorem scan_ok {t : UbTree α} {W K} (h : Inv t W K) {m : Nat} {s : List α} (deeper : Nat → Option (Option (List α))) : ∀ (ns : List Nat) (found : Option (List α)),
    (∀ n ∈ ns, n < t.nodes.length ∧ (∃ e ∈ s, W (n + 1) = W m ++ [e]) ∧ ∃ r, deeper (n + 1) = some r ∧
      match r with
      | some x => ∃ r', x = W (n + 1) ++ r' ∧ K x ∧ ∀ a ∈ r', a ∈ s
      | none => ∀ r', r' ≠ [] → K (W (n + 1) ++ r') → ¬ (∀ a ∈ W m ++ r', a ∈ W m ++ s)) →
    (∀ x, found = some x → ∃ r, r ≠ [] ∧ x = W m ++ r ∧ K x ∧ ∀ a ∈ r, a ∈ s) →
    ∃ r, t.scan deeper ns found = some r ∧
      match r with
      | some x => ∃ r, r ≠ [] ∧ x = W m ++ r ∧ K x ∧ ∀ a ∈ r, a ∈ s
      | none => found = none ∧ ∀ n ∈ ns, ¬ K (W (n + 1)) ∧ ∀ r', r' ≠ [] → K (W (n + 1) ++ r') → ¬ (∀ a ∈ W m ++ r', a ∈ W m ++ s) := by
  intro ns
  induction ns with
  | nil =>
    intro found _ hf
    refine ⟨found, rfl, ?_⟩
    cases found with
    | none => exact ⟨rfl, by simp⟩
    | some x => exact hf x rfl
  | cons n ns ih =>
    intro found hns hf
    cases found with
    | some x => exact ⟨some x, rfl, hf x rfl⟩
    | none =>
      obtain ⟨hn, ⟨e, he, hw⟩, r, hr, hr'⟩ := hns n (by simp)
      have hnd : t.nodes[n]? = some t.nodes[n] := List.getElem?_eq_getElem hn
      generalize t.nodes[n] = nd at hnd
      simp only [scan, hnd]
      cases hset : nd.set with
      | some x =>
        refine ⟨some x, rfl, [e], by simp, ?_, ?_, by simpa using he⟩
        · rw [← hw]; exact h.sets n nd x hnd hset
        · exact (h.stored x).2 ⟨n, nd, hnd, hset⟩
      | none =>
        have hnk : ¬ K (W (n + 1)) := by
          intro hk
          obtain ⟨i, y, hy, hs⟩ := (h.stored _).1 hk
          have := h.sets i y _ hy hs
          have hin := h.inj (n + 1) (i + 1) (by rw [h.len]; omega) (by have := (List.getElem?_eq_some_iff.1 hy).1; rw [h.len]; omega) this
          have : i = n := by omega
          subst this
          rw [hnd] at hy; injection hy with hy; subst hy
          rw [hset] at hs; cases hs
        rw [h.kids n nd hnd]
        simp only [hr]
        obtain ⟨q, hq, hq'⟩ := ih r (fun k hk => hns k (by simp [hk])) (by
          intro x hx
          subst hx
          obtain ⟨r', h1, h2, h3⟩ := hr'
          refine ⟨e :: r', by simp, by rw [h1, hw]; simp, h2, ?_⟩
          intro a ha
          rcases List.mem_cons.1 ha with rfl | ha
          · exact he
          · exact h3 a ha)
        refine ⟨q, hq, ?_⟩
        cases q with
        | some x => exact hq'
        | none =>
          obtain ⟨h1, h2⟩ := hq'
          subst h1
          refine ⟨trivial, fun k hk => ?_⟩
          rcases List.mem_cons.1 hk with rfl | hk
          · exact ⟨hnk, hr'⟩
          · exact h2 k hk

theorem not_in_prefix {l r : List α} (h : (l ++ r).Pairwise (· < ·)) : ∀ a ∈ r, a ∉ l := by
  intro a ha hl
  exact lt_irrefl _ ((List.pairwise_append.1 h).2.2 a hl a ha)

theorem stored_word {t : UbTree α} {W K} (h : Inv t W K) {x : List α} (hk : K x) : ∃ n, n < t.nodes.length ∧ x = W (n + 1) := by
  obtain ⟨n, nd, hn, hs⟩ := (h.stored x).1 hk
  exact ⟨n, (List.getElem?_eq_some_iff.1 hn).1, h.sets n nd x hn hs⟩

theorem forest_ok (ord : List Nat → List Nat) (hord : ∀ l n, n ∈ ord l ↔ n ∈ l) {t : UbTree α} {W K} (h : Inv t W K) : ∀ (s : List α) {m : Nat}, m < t.maps.length →
    s.Pairwise (· < ·) → ∃ r, t.forest ord s m = some r ∧ Answer W K m s r := by
  intro s
  induction s with
  | nil =>
    intro m hm _
    obtain ⟨mp, hmp⟩ := h.map_mem hm
    refine ⟨none, by simp only [forest, hmp], ?_⟩
    rintro ⟨r, hr, _, ha⟩
    cases r with
    | nil => exact hr rfl
    | cons a r => exact absurd (ha a (by simp)) (by simp)
  | cons e es ih =>
    intro m hm hs
    obtain ⟨mp, hmp⟩ := h.map_mem hm
    have hes := (List.pairwise_cons.1 hs)
    have hns : ∀ n ∈ ord (nodesFor mp (e :: es)), ∃ x ∈ e :: es, (x, n) ∈ mp := by
      intro n hn
      rw [hord] at hn
      obtain ⟨x, hx, hg⟩ := List.mem_filterMap.1 hn
      exact ⟨x, hx, get_some hg⟩
    obtain ⟨r, hr, hr'⟩ := scan_ok h (m := m) (s := e :: es) (t.forest ord es) (ord (nodesFor mp (e :: es))) none (by
      intro n hn
      obtain ⟨x, hx, hxn⟩ := hns n hn
      obtain ⟨h1, h2, _⟩ := h.edge m mp x n hmp hxn
      obtain ⟨r, hr, hr'⟩ := ih (m := n + 1) (by rw [h.len]; omega) hes.2
      refine ⟨h1, ⟨x, hx, h2⟩, r, hr, ?_⟩
      cases r with
      | some y =>
        obtain ⟨r', _, a1, a2, a3⟩ := hr'
        exact ⟨r', a1, a2, fun a ha => List.mem_cons_of_mem _ (a3 a ha)⟩
      | none =>
        intro r' hr0 hk hall
        refine hr' ⟨r', hr0, hk, fun a ha => ?_⟩
        obtain ⟨i, hi, hw⟩ := stored_word h hk
        have hsort := h.sorted (i + 1) (by rw [h.len]; omega)
        rw [← hw, h2] at hsort
        have hxa : x < a := (List.pairwise_append.1 hsort).2.2 x (by simp) a ha
        have hnm : a ∉ W m := fun hc => not_in_prefix hsort a ha (by simp [hc])
        have := hall a (by simp [ha])
        rcases List.mem_append.1 this with hc | hc
        · exact absurd hc hnm
        · rcases List.mem_cons.1 hc with rfl | hc
          · exfalso
            rcases List.mem_cons.1 hx with rfl | hx
            · exact lt_irrefl _ hxa
            · exact lt_irrefl _ (lt_trans hxa (hes.1 x hx))
          · exact hc) (fun _ h => (nomatch h))
    refine ⟨r, by simp only [forest, hmp, hr], ?_⟩
    cases r with
    | some x => exact hr'
    | none =>
      rintro ⟨r, hr0, hk, hall⟩
      cases r with
      | nil => exact hr0 rfl
      | cons x r =>
        obtain ⟨i, hi, hw⟩ := stored_word h hk
        obtain ⟨mp', n, hmp', hxn⟩ := prefix_edge h (m := m) (e := x) r hm (m' := i + 1) (by rw [h.len]; omega) hw.symm
        rw [hmp] at hmp'; injection hmp' with hmp'; subst hmp'
        obtain ⟨h1, h2, _⟩ := h.edge m mp x n hmp hxn
        have hmem : n ∈ ord (nodesFor mp (e :: es)) := by
          rw [hord]
          exact List.mem_filterMap.2 ⟨x, hall x (by simp), get_mem (h.keys m mp hmp) hxn⟩
        obtain ⟨g1, g2⟩ := hr'.2 n hmem
        rw [h2] at g1 g2
        cases r with
        | nil => exact g1 hk
        | cons y r =>
          refine g2 (y :: r) (by simp) (by simpa using hk) ?_
          intro a ha
          rcases List.mem_append.1 ha with ha | ha
          · exact List.mem_append_left _ ha
          · exact List.mem_append_right _ (hall a (List.mem_cons_of_mem _ ha))

theorem firstSubset_ok (ord : List Nat → List Nat) (hord : ∀ l n, n ∈ ord l ↔ n ∈ l) {t : UbTree α} {W K} (h : Inv t W K) {s : List α} (hs : s.Pairwise (· < ·)) :
    ∃ r, t.firstSubset ord s = some r ∧ match r with
      | some x => K x ∧ ∀ a ∈ x, a ∈ s
      | none => ∀ x, K x → ¬ ∀ a ∈ x, a ∈ s := by
  have h0 : 0 < t.maps.length := by rw [h.len]; omega
  obtain ⟨mp, hmp⟩ := h.map_mem h0
  have hne : ∀ x, K x → x ≠ [] := by
    rintro x hk rfl
    obtain ⟨i, hi, hw⟩ := stored_word h hk
    have := h.inj (i + 1) 0 (by rw [h.len]; omega) h0 (by rw [← hw, h.root])
    omega
  obtain ⟨r, hr, hr'⟩ := forest_ok ord hord h s h0 hs
  unfold firstSubset
  simp only [hmp]
  by_cases hc : (mp.isEmpty || s.isEmpty) = true
  · rw [if_pos hc]
    refine ⟨none, rfl, fun x hk hall => ?_⟩
    rcases Bool.or_eq_true_iff.1 hc with hc | hc
    · have hc := List.isEmpty_iff.1 hc
      subst hc
      obtain ⟨i, hi, hw⟩ := stored_word h hk
      cases x with
      | nil => exact hne [] hk rfl
      | cons a x =>
        obtain ⟨mp', n, hmp', hxn⟩ := prefix_edge h (m := 0) (e := a) x h0 (m' := i + 1) (by rw [h.len]; omega) (by rw [h.root, ← hw]; rfl)
        rw [hmp] at hmp'; injection hmp' with hmp'; subst hmp'; cases hxn
    · have hc := List.isEmpty_iff.1 hc
      subst hc
      cases x with
      | nil => exact hne [] hk rfl
      | cons a x => exact absurd (hall a (by simp)) (by simp)
  · rw [if_neg hc]
    refine ⟨r, hr, ?_⟩
    cases r with
    | some x =>
      obtain ⟨r', _, h1, h2, h3⟩ := hr'
      rw [h.root, List.nil_append] at h1
      exact ⟨h2, h1 ▸ h3⟩
    | none =>
      intro x hk hall
      exact hr' ⟨x, hne x hk, by rw [h.root]; simpa using hk, hall⟩

/-! ### Enumerating all sets -/

theorem visit_ok {t : UbTree α} {W K} (h : Inv t W K) : ∀ (es : List (α × Nat)) (acc : List (List α)) (stack : List Nat), (∀ p ∈ es, p.2 < t.nodes.length) →
    ∃ acc', t.visit es acc stack = some (acc', (es.map fun p : α × Nat => p.2 + 1).reverse ++ stack) ∧ (acc.Nodup → acc'.Nodup) ∧
      ∀ x, x ∈ acc' ↔ x ∈ acc ∨ ∃ p ∈ es, ∃ nd : UbNode α, t.nodes[p.2]? = some nd ∧ nd.set = some x := by
  intro es
  induction es with
  | nil => intro acc stack _; exact ⟨acc, by simp [visit], id, by simp⟩
  | cons p es ih =>
    intro acc stack hl
    obtain ⟨e, n⟩ := p
    have hn : n < t.nodes.length := hl (e, n) (by simp)
    have hnd : t.nodes[n]? = some t.nodes[n] := List.getElem?_eq_getElem hn
    generalize t.nodes[n] = nd at hnd
    obtain ⟨acc', h1, h2, h3⟩ := ih (match nd.set with | some s => if s ∈ acc then acc else acc ++ [s] | none => acc) (nd.children :: stack) (fun p hp => hl p (by simp [hp]))
    refine ⟨acc', ?_, ?_, fun x => ?_⟩
    · simp only [visit, hnd]
      rw [h1, h.kids n nd hnd]; simp
    · intro hnd'
      apply h2
      split
      · split
        · exact hnd'
        · rename_i hno
          rw [List.nodup_append]
          exact ⟨hnd', by simp, by intro a ha b hb; simp at hb; rintro rfl; exact hno (hb ▸ ha)⟩
      · exact hnd'
    · rw [h3]
      have : (∃ p ∈ (e, n) :: es, ∃ nd', t.nodes[p.2]? = some nd' ∧ nd'.set = some x) ↔ nd.set = some x ∨ ∃ p ∈ es, ∃ nd', t.nodes[p.2]? = some nd' ∧ nd'.set = some x := by
        constructor
        · rintro ⟨p, hp, nd', h1, h2⟩
          rcases List.mem_cons.1 hp with rfl | hp
          · rw [hnd] at h1; injection h1 with h1; subst h1; exact .inl h2
          · exact .inr ⟨p, hp, nd', h1, h2⟩
        · rintro (h1 | ⟨p, hp, h1⟩)
          · exact ⟨(e, n), by simp, nd, hnd, h1⟩
          · exact ⟨p, by simp [hp], h1⟩
      rw [this, ← or_assoc]
      refine or_congr ?_ Iff.rfl
      cases hset : nd.set with
      | none => simp
      | some s =>
        simp only [Option.some.injEq]
        split
        · rename_i hm
          constructor
          · exact .inl
          · rintro (h | rfl)
            · exact h
            · exact hm
        · simp [eq_comm]

/-- Progress of the traversal: `P` are the maps already visited. -/
structure Trav (t : UbTree α) (P stack : List Nat) (acc : List (List α)) : Prop where
  nodup : (P ++ stack).Nodup
  lt : ∀ m ∈ P ++ stack, m < t.maps.length
  parent : ∀ n, n + 1 ∈ P ++ stack → ∃ m ∈ P, ∃ (mp : List (α × Nat)) (e : α), t.maps[m]? = some mp ∧ (e, n) ∈ mp
  kids : ∀ m ∈ P, ∀ (mp : List (α × Nat)) (e : α) (n : Nat), t.maps[m]? = some mp → (e, n) ∈ mp → n + 1 ∈ P ++ stack
  zero : 0 ∈ P ++ stack
  acc : ∀ x, x ∈ acc ↔ ∃ m ∈ P, ∃ (mp : List (α × Nat)) (p : α × Nat) (nd : UbNode α), t.maps[m]? = some mp ∧ p ∈ mp ∧ t.nodes[p.2]? = some nd ∧ nd.set = some x

/-- A child has one parent. -/
theorem one_parent {t : UbTree α} {W K} (h : Inv t W K) {m m' : Nat} {mp mp' : List (α × Nat)} {e e' : α} {n : Nat} (h1 : t.maps[m]? = some mp) (h2 : (e, n) ∈ mp) (h3 : t.maps[m']? = some mp') (h4 : (e', n) ∈ mp') :
    m = m' ∧ e = e' := by
  obtain ⟨_, a, _⟩ := h.edge m mp e n h1 h2
  obtain ⟨_, b, _⟩ := h.edge m' mp' e' n h3 h4
  rw [a] at b
  obtain ⟨c, d⟩ := List.append_inj' b rfl
  injection d with d _
  exact ⟨h.inj m m' (List.getElem?_eq_some_iff.1 h1).1 (List.getElem?_eq_some_iff.1 h3).1 c, d⟩

theorem kids_nodup {t : UbTree α} {W K} (h : Inv t W K) {m : Nat} {mp : List (α × Nat)} (hm : t.maps[m]? = some mp) : (mp.map fun p : α × Nat => p.2 + 1).Nodup := by
  have hk := h.keys m mp hm
  have key : ∀ q : List (α × Nat), (∀ p ∈ q, p ∈ mp) → (q.map (·.1)).Nodup → (q.map fun p : α × Nat => p.2 + 1).Nodup := by
    intro q
    induction q with
    | nil => intro _ _; simp
    | cons p q ih =>
      intro hq hn
      simp only [List.map_cons, List.nodup_cons] at hn ⊢
      refine ⟨fun hc => ?_, ih (fun p hp => hq p (by simp [hp])) hn.2⟩
      obtain ⟨⟨e', n'⟩, hp', he⟩ := List.mem_map.1 hc
      obtain ⟨e, n⟩ := p
      simp only at he
      have : n' = n := by omega
      subst this
      have := (one_parent h hm (hq (e, n') (by simp)) hm (hq (e', n') (by simp [hp']))).2
      subst this
      exact hn.1 (List.mem_map.2 ⟨_, hp', rfl⟩)
  exact key mp (fun _ h => h) hk

theorem collect_ok {t : UbTree α} {W K} (h : Inv t W K) (fuel : Nat) : ∀ {P stack : List Nat} {acc : List (List α)}, Trav t P stack acc → P.length + fuel = t.maps.length → acc.Nodup →
    ∃ r, t.collect fuel acc stack = some r ∧ r.Nodup ∧ ∀ x, x ∈ r ↔ K x := by
  induction fuel with
  | zero =>
    intro P stack acc hT hf hn
    cases stack with
    | cons m stack =>
      exfalso
      have h1 : (P ++ m :: stack) ⊆ List.range t.maps.length := fun x hx => List.mem_range.2 (hT.lt x hx)
      have h2 := (hT.nodup.subperm h1).length_le
      simp at h2; omega
    | nil =>
      refine ⟨acc, by simp [collect], hn, fun x => ?_⟩
      have hall : ∀ m, m < t.maps.length → m ∈ P := by
        intro m
        induction m using Nat.strongRecOn with
        | _ m ih =>
          intro hm
          rcases Nat.eq_zero_or_pos m with h0 | h0
          · subst h0; simpa using hT.zero
          · obtain ⟨q, mp, e, hq, he⟩ := h.word (m - 1) (by have := h.len; omega)
            obtain ⟨_, _, hle⟩ := h.edge q mp e _ hq he
            have := hT.kids q (ih q (by omega) (List.getElem?_eq_some_iff.1 hq).1) mp e _ hq he
            rw [show m - 1 + 1 = m by omega] at this; simpa using this
      rw [hT.acc, h.stored]
      constructor
      · rintro ⟨m, _, mp, p, nd, _, _, h3, h4⟩; exact ⟨p.2, nd, h3, h4⟩
      · rintro ⟨n, nd, h3, h4⟩
        obtain ⟨q, mp, e, hq, he⟩ := h.word n (List.getElem?_eq_some_iff.1 h3).1
        exact ⟨q, hall q (List.getElem?_eq_some_iff.1 hq).1, mp, (e, n), nd, hq, he, h3, h4⟩
  | succ fuel ih =>
    intro P stack acc hT hf hn
    cases stack with
    | nil =>
      exfalso
      have hall : ∀ m, m < t.maps.length → m ∈ P := by
        intro m
        induction m using Nat.strongRecOn with
        | _ m ih =>
          intro hm
          rcases Nat.eq_zero_or_pos m with h0 | h0
          · subst h0; simpa using hT.zero
          · obtain ⟨q, mp, e, hq, he⟩ := h.word (m - 1) (by have := h.len; omega)
            obtain ⟨_, _, hle⟩ := h.edge q mp e _ hq he
            have := hT.kids q (ih q (by omega) (List.getElem?_eq_some_iff.1 hq).1) mp e _ hq he
            rw [show m - 1 + 1 = m by omega] at this; simpa using this
      have h2 := (List.nodup_range.subperm (l₂ := P) fun x hx => hall x (List.mem_range.1 hx)).length_le
      simp at h2; omega
    | cons m stack =>
      obtain ⟨mp, hmp⟩ := h.map_mem (hT.lt m (by simp))
      obtain ⟨acc', e1, e2, e3⟩ := visit_ok h mp acc stack (fun p hp => (h.edge m mp p.1 p.2 hmp hp).1)
      have hmP : m ∉ P := by
        intro hc
        have := (List.nodup_append.1 hT.nodup).2.2 m hc m (by simp)
        exact this rfl
      have hfresh : ∀ p ∈ mp, p.2 + 1 ∉ P ++ m :: stack := by
        intro p hp hc
        obtain ⟨q, hq, mq, e, h1, h2⟩ := hT.parent _ hc
        have := (one_parent h hmp hp h1 h2).1
        subst this
        exact hmP hq
      have hT' : Trav t (P ++ [m]) ((mp.map fun p : α × Nat => p.2 + 1).reverse ++ stack) acc' := by
        refine ⟨?_, ?_, ?_, ?_, ?_, ?_⟩
        · have hp : (P ++ [m] ++ ((mp.map fun p : α × Nat => p.2 + 1).reverse ++ stack)).Perm ((P ++ m :: stack) ++ (mp.map fun p : α × Nat => p.2 + 1)) := by
            simp only [List.append_assoc, List.cons_append, List.nil_append]
            refine List.Perm.append_left P (List.Perm.cons m ?_)
            exact (List.perm_append_comm (l₁ := (mp.map fun p : α × Nat => p.2 + 1).reverse) (l₂ := stack)).trans (List.Perm.append_left _ (List.reverse_perm _))
          rw [hp.nodup_iff, List.nodup_append]
          refine ⟨hT.nodup, kids_nodup h hmp, ?_⟩
          intro a ha b hb
          obtain ⟨p, hp, rfl⟩ := List.mem_map.1 hb
          rintro rfl
          exact hfresh p hp ha
        · intro x hx
          simp only [List.mem_append, List.mem_singleton, List.mem_reverse, List.mem_map] at hx
          rcases hx with (hx | rfl) | ⟨p, hp, rfl⟩ | hx
          · exact hT.lt x (by simp [hx])
          · exact hT.lt x (by simp)
          · have := (h.edge m mp p.1 p.2 hmp hp).1; rw [h.len]; omega
          · exact hT.lt x (by simp [hx])
        · intro n hx
          simp only [List.mem_append, List.mem_singleton, List.mem_reverse, List.mem_map] at hx
          have old : n + 1 ∈ P ++ m :: stack → ∃ q ∈ P ++ [m], ∃ (mp : List (α × Nat)) (e : α), t.maps[q]? = some mp ∧ (e, n) ∈ mp := by
            intro hc
            obtain ⟨q, hq, r⟩ := hT.parent n hc
            exact ⟨q, by simp [hq], r⟩
          rcases hx with (hx | hx) | ⟨p, hp, he⟩ | hx
          · exact old (by simp [hx])
          · exact old (by simp [hx])
          · have : p.2 = n := by omega
            subst this
            exact ⟨m, by simp, mp, p.1, hmp, hp⟩
          · exact old (by simp [hx])
        · intro q hq mq e n h1 h2
          rcases List.mem_append.1 hq with hq | hq
          · have := hT.kids q hq mq e n h1 h2
            simp only [List.mem_append, List.mem_cons] at this
            simp only [List.mem_append, List.mem_singleton]
            rcases this with h | h | h
            · exact .inl (.inl h)
            · exact .inl (.inr h)
            · exact .inr (.inr h)
          · simp only [List.mem_singleton] at hq; subst hq
            rw [hmp] at h1; injection h1 with h1; subst h1
            simp only [List.mem_append, List.mem_reverse, List.mem_map]
            exact .inr (.inl ⟨(e, n), h2, rfl⟩)
        · have := hT.zero
          simp only [List.mem_append, List.mem_cons] at this
          simp only [List.mem_append, List.mem_singleton]
          rcases this with h | h | h
          · exact .inl (.inl h)
          · exact .inl (.inr h)
          · exact .inr (.inr h)
        · intro x
          rw [e3, hT.acc]
          constructor
          · rintro (⟨q, hq, r⟩ | ⟨p, hp, nd, h1, h2⟩)
            · exact ⟨q, by simp [hq], r⟩
            · exact ⟨m, by simp, mp, p, nd, hmp, hp, h1, h2⟩
          · rintro ⟨q, hq, mq, p, nd, h1, h2, h3⟩
            rcases List.mem_append.1 hq with hq | hq
            · exact .inl ⟨q, hq, mq, p, nd, h1, h2, h3⟩
            · simp only [List.mem_singleton] at hq; subst hq
              rw [hmp] at h1; injection h1 with h1; subst h1
              exact .inr ⟨p, h2, nd, h3⟩
      obtain ⟨r, hr, hr'⟩ := ih hT' (by simp; omega) (e2 hn)
      exact ⟨r, by simp only [collect, hmp, e1, hr], hr'⟩

theorem allSets_ok {t : UbTree α} {W K} (h : Inv t W K) : ∃ r, t.allSets = some r ∧ r.Nodup ∧ ∀ x, x ∈ r ↔ K x := by
  refine collect_ok h t.maps.length (P := []) (stack := [0]) (acc := []) ⟨by simp, by simp [h.len], ?_, by simp, by simp, by simp⟩ (by simp) (by simp)
  intro n hn; simp at hn

end UbTree
end Verif
