import Verif.Drup.Model
import Mathlib.Data.List.Basic
import Mathlib.Tactic.ByContra
/-
Watches of the DRUP trimmer: how often a clause is in which list.
-/
namespace Verif.Drup

@[simp] theorem put_same {α β : Type} [DecidableEq α] (f : α → β) (a : α) (b : β) : put f a b a = b := by simp [put]

theorem put_ne {α β : Type} [DecidableEq α] (f : α → β) {a x : α} (b : β) (h : x ≠ a) : put f a b x = f x := by simp [put, h]

theorem swapRemove_perm {α : Type} {l : List α} {i : Nat} (h : i < l.length) : (l[i] :: swapRemove l i).Perm l := by
  have hne : l ≠ [] := by rintro rfl; simp at h
  unfold swapRemove
  rw [List.getLast?_eq_some_getLast hne]
  simp only
  have h2 : l.length - 1 < l.length := by omega
  refine List.Perm.trans ?_ (List.set_set_perm (as := l) (i := i) (j := l.length - 1) h h2)
  have e : (l.set i l[l.length - 1]).set (l.length - 1) l[i] = (l.set i l[l.length - 1]).dropLast ++ [l[i]] := by
    rw [List.dropLast_eq_take, List.set_eq_take_append_cons_drop]
    simp [h2]
    omega
  rw [e, List.getLast_eq_getElem]
  exact (List.perm_append_singleton _ _).symm

/-- How often the clause is in the list. -/
def wcount (wl : Int → List (Nat × Bool)) (x : Int) (i : Nat) : Nat := ((wl x).map Prod.fst).count i

theorem wcount_push (wl : Int → List (Nat × Bool)) (x y : Int) (e : Nat × Bool) (i : Nat) :
    wcount (push wl x e) y i = wcount wl y i + if y = x ∧ i = e.1 then 1 else 0 := by
  unfold wcount push
  by_cases h : y = x
  · subst h
    by_cases hi : i = e.1
    · simp [hi]
    · simp [hi, List.count_singleton, Ne.symm hi]
  · simp [put_ne _ _ h, h]

theorem wcount_swap {wl : Int → List (Nat × Bool)} {x : Int} {j : Nat} (h : j < (wl x).length) (y : Int) (i : Nat) :
    wcount (put wl x (swapRemove (wl x) j)) y i + (if y = x ∧ i = (wl x)[j].1 then 1 else 0) = wcount wl y i := by
  unfold wcount
  by_cases hy : y = x
  · subst hy
    have := ((swapRemove_perm h).map Prod.fst).count_eq i
    rw [put_same, ← this, List.map_cons, List.count_cons]
    by_cases hi : i = (wl y)[j].1
    · simp [hi]
    · simp [hi, Ne.symm hi]
  · simp [put_ne _ _ hy, hy]

theorem removeOne_count {wl w : Int → List (Nat × Bool)} {x : Int} {c : Nat} (h : removeOne wl x c = some w) (y : Int) (i : Nat) :
    wcount w y i + (if y = x ∧ i = c then 1 else 0) = wcount wl y i := by
  unfold removeOne at h
  obtain ⟨j, hj, rfl⟩ := Option.map_eq_some_iff.1 h
  obtain ⟨hl, hp, _⟩ := List.findIdx?_eq_some_iff_getElem.1 hj
  have hp : (wl x)[j].1 = c := by simpa using hp
  have := wcount_swap hl y i
  rwa [hp] at this

theorem markWatch_count {wl w : Int → List (Nat × Bool)} {x : Int} {c : Nat} (h : markWatch wl x c = some w) (y : Int) (i : Nat) :
    wcount w y i = wcount wl y i := by
  unfold markWatch at h
  obtain ⟨j, hj, rfl⟩ := Option.map_eq_some_iff.1 h
  obtain ⟨hl, hp, _⟩ := List.findIdx?_eq_some_iff_getElem.1 hj
  have hp : (wl x)[j].1 = c := by simpa using hp
  unfold wcount
  by_cases hy : y = x
  · subst hy
    rw [put_same, List.map_set]
    congr 1
    apply List.ext_getElem
    · simp
    · intro n h1 h2
      rw [List.getElem_set]
      split
      · rename_i e; subst e; simp [hp]
      · rfl
  · rw [put_ne _ _ hy]

/-- Every clause below `b` except those of `rm` is watched at most by its first two literals, and no other clause is watched. -/
structure Wf (c0 : Nat → List Int) (b : Nat) (rm : List Nat) (S : T) : Prop where
  perm : ∀ i, (S.cl i).Perm (c0 i)
  cnt : ∀ i x, wcount S.wl x i ≤ if i < b ∧ i ∉ rm ∧ 2 ≤ (S.cl i).length then ((S.cl i).take 2).count x else 0

variable {c0 : Nat → List Int} {b : Nat} {rm : List Nat} {S S' : T}

theorem Wf.congr (h : Wf c0 b rm S) (hc : S'.cl = S.cl) (hw : ∀ y i, wcount S'.wl y i = wcount S.wl y i) : Wf c0 b rm S' :=
  ⟨by rw [hc]; exact h.perm, fun i x => by rw [hc, hw]; exact h.cnt i x⟩

theorem Wf.zero (h : Wf c0 b rm S) {i : Nat} (hi : ¬ (i < b ∧ i ∉ rm ∧ 2 ≤ (S.cl i).length)) (x : Int) : wcount S.wl x i = 0 := by
  have := h.cnt i x
  rw [if_neg hi] at this
  omega

/-- What an entry of a list means. -/
theorem Wf.entry (h : Wf c0 b rm S) {x : Int} {j i : Nat} {bit : Bool} (e : (S.wl x)[j]? = some (i, bit)) :
    i < b ∧ i ∉ rm ∧ ∃ y z rest, S.cl i = y :: z :: rest ∧ (x = y ∨ x = z) := by
  have hm : i ∈ (S.wl x).map Prod.fst := List.mem_map.2 ⟨(i, bit), List.mem_of_getElem? e, rfl⟩
  have hpos : 0 < wcount S.wl x i := List.count_pos_iff.2 hm
  have := h.cnt i x
  by_cases hc : i < b ∧ i ∉ rm ∧ 2 ≤ (S.cl i).length
  · rw [if_pos hc] at this
    refine ⟨hc.1, hc.2.1, ?_⟩
    match hl : S.cl i, hc.2.2 with
    | y :: z :: rest, _ =>
      refine ⟨y, z, rest, rfl, ?_⟩
      rw [hl] at this
      have hx : x ∈ [y, z] := List.count_pos_iff.1 (by simp only [List.take_succ_cons, List.take_zero] at this; omega)
      simpa using hx
  · rw [if_neg hc] at this
    omega

/-- Another order of the literals of a clause that is not watched. -/
theorem Wf.reorder (h : Wf c0 b rm S) {i : Nat} (hi : ¬ (i < b ∧ i ∉ rm)) {c : List Int} (hc : c.Perm (S.cl i)) : Wf c0 b rm { S with cl := put S.cl i c } := by
  refine ⟨fun j => ?_, fun j x => ?_⟩
  · by_cases hj : j = i
    · subst hj; simpa using hc.trans (h.perm j)
    · simpa [put_ne _ _ hj] using h.perm j
  · by_cases hj : j = i
    · subst hj
      have := h.zero (i := j) (fun hh => hi ⟨hh.1, hh.2.1⟩) x
      simp only [this]
      exact Nat.zero_le _
    · simpa [put_ne _ _ hj] using h.cnt j x

theorem addWatches_fields (c : Nat) (S : T) : addWatches c S = { S with wl := (addWatches c S).wl } := by
  unfold addWatches
  split <;> rfl

theorem removeWatches_fields {c : Nat} {S S' : T} (h : removeWatches c S = some S') : S' = { S with wl := S'.wl } := by
  unfold removeWatches at h
  split at h
  · obtain ⟨w, _, h⟩ := Option.bind_eq_some_iff.1 h
    obtain ⟨w', _, rfl⟩ := Option.map_eq_some_iff.1 h
    rfl
  · injection h with h; subst h; rfl

/-- A clause is watched that was not. -/
theorem Wf.add (h : Wf c0 b rm S) {c : Nat} (hc : ¬ (c < b ∧ c ∉ rm)) {b' : Nat} {rm' : List Nat} (hb : ∀ i, i ≠ c → i < b → i ∉ rm → i < b' ∧ i ∉ rm') (hc' : c < b' ∧ c ∉ rm') :
    Wf c0 b' rm' (addWatches c S) := by
  have hz : ∀ x, wcount S.wl x c = 0 := h.zero fun hh => hc ⟨hh.1, hh.2.1⟩
  refine ⟨fun i => by rw [addWatches_fields]; exact h.perm i, fun i x => ?_⟩
  have ecl : (addWatches c S).cl = S.cl := by rw [addWatches_fields]
  rw [ecl]
  have old : i ≠ c → wcount S.wl x i ≤ if i < b' ∧ i ∉ rm' ∧ 2 ≤ (S.cl i).length then ((S.cl i).take 2).count x else 0 := by
    intro hic
    refine Nat.le_trans (h.cnt i x) ?_
    split
    · rename_i hh
      rw [if_pos ⟨(hb i hic hh.1 hh.2.1).1, (hb i hic hh.1 hh.2.1).2, hh.2.2⟩]
      exact Nat.le_refl _
    · exact Nat.zero_le _
  unfold addWatches
  split
  · rename_i y z rest e
    simp only [wcount_push]
    by_cases hic : i = c
    · subst hic
      have hcond : i < b' ∧ i ∉ rm' ∧ 2 ≤ (S.cl i).length := ⟨hc'.1, hc'.2, by rw [e]; simp⟩
      simp only [hz, if_pos hcond]
      rw [e]
      simp only [List.take_succ_cons, List.take_zero, List.count_cons, List.count_nil, and_true, beq_iff_eq, eq_comm (a := x)]
      omega
    · simpa [hic] using old hic
  · by_cases hic : i = c
    · subst hic
      rw [hz]; exact Nat.zero_le _
    · exact old hic

/-- A clause is not watched any more. -/
theorem Wf.remove (h : Wf c0 b rm S) {c : Nat} (e : removeWatches c S = some S') :
    ∀ i x, wcount S'.wl x i ≤ if i < b ∧ i ∉ rm ∧ i ≠ c ∧ 2 ≤ (S.cl i).length then ((S.cl i).take 2).count x else 0 := by
  intro i x
  have old : (i ≠ c ∨ ¬ (i < b ∧ i ∉ rm ∧ 2 ≤ (S.cl i).length)) → wcount S.wl x i ≤ if i < b ∧ i ∉ rm ∧ i ≠ c ∧ 2 ≤ (S.cl i).length then ((S.cl i).take 2).count x else 0 := by
    intro hic
    have h1 := h.cnt i x
    rcases hic with hic | hic
    · refine Nat.le_trans h1 ?_
      split
      · rename_i hh
        rw [if_pos ⟨hh.1, hh.2.1, hic, hh.2.2⟩]
        exact Nat.le_refl _
      · exact Nat.zero_le _
    · rw [if_neg hic] at h1
      omega
  unfold removeWatches at e
  split at e
  · rename_i y z rest ecl
    obtain ⟨w, e1, e⟩ := Option.bind_eq_some_iff.1 e
    obtain ⟨w', e2, rfl⟩ := Option.map_eq_some_iff.1 e
    have h1 := removeOne_count e1 x i
    have h2 := removeOne_count e2 x i
    show wcount w' x i ≤ _
    by_cases hic : i = c
    · subst hic
      have h3 := h.cnt i x
      rw [ecl] at h3
      rw [if_neg (by simp)]
      split at h3
      · simp only [List.take_succ_cons, List.take_zero, List.count_cons, List.count_nil, and_true, beq_iff_eq, eq_comm (a := x)] at h1 h2 h3 ⊢
        omega
      · omega
    · have := old (.inl hic)
      omega
  · rename_i hcl
    injection e with e
    subst e
    by_cases hic : i = c
    · refine old (.inr ?_)
      subst hic
      rintro ⟨_, _, hl⟩
      match hh : S.cl i, hl with
      | y :: z :: rest, _ => exact hcl y z rest hh
    · exact old (.inl hic)

end Verif.Drup
