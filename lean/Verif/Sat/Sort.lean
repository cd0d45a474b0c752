import Verif.Sat.Solver
/-
The sort of the learnt clauses never leaves the vector and only changes the order of its elements.
-/
namespace Verif.Sat
namespace St

theorem swapAt_ok {l : List Nat} {i j : Nat} (hi : i < l.length) (hj : j < l.length) :
    ∃ l', swapAt l i j = some l' ∧ l'.Perm l ∧ l'[j]? = l[i]? ∧ (i ≠ j → l'[i]? = l[j]?) := by
  unfold swapAt
  rw [List.getElem?_eq_getElem hi, List.getElem?_eq_getElem hj]
  refine ⟨_, rfl, ?_, ?_, ?_⟩
  · exact List.set_set_perm hi hj
  · rw [List.getElem?_set]; simp [hj]
  · intro hne
    rw [List.getElem?_set, if_neg (Ne.symm hne), List.getElem?_set]; simp [hi]

theorem selBest_ok (lt : Nat → Nat → Bool) (l : List Nat) (n : Nat) : ∀ (j best : Nat), best < j + n → j ≤ j + n →
    selBest lt l n j best < j + n ∨ selBest lt l n j best = best := by
  induction n with
  | zero => intro j best _ _; exact .inr rfl
  | succ n ih =>
    intro j best hb _
    unfold selBest
    split
    · rcases ih (j + 1) j (by omega) (by omega) with h | h
      · left; omega
      · left; omega
    · by_cases hb' : best < j + 1 + n
      · rcases ih (j + 1) best hb' (by omega) with h | h
        · left; omega
        · right; exact h
      · omega

theorem selSort_ok (lt : Nat → Nat → Bool) (fin n : Nat) : ∀ (i : Nat) (l : List Nat), i + n ≤ fin → fin ≤ l.length →
    ∃ l', selSort lt fin n i l = some l' ∧ l'.Perm l := by
  induction n with
  | zero => intro i l _ _; exact ⟨l, rfl, .refl _⟩
  | succ n ih =>
    intro i l h1 h2
    unfold selSort
    have hb : selBest lt l (fin - (i + 1)) (i + 1) i < l.length := by
      rcases selBest_ok lt l (fin - (i + 1)) (i + 1) i (by omega) (by omega) with h | h <;> omega
    obtain ⟨l1, e, hp, _⟩ := swapAt_ok (l := l) (i := i) (by omega) hb
    rw [e]
    simp only
    obtain ⟨l2, e2, hp2⟩ := ih (i + 1) l1 (by omega) (by rw [hp.length_eq]; exact h2)
    exact ⟨l2, e2, hp2.trans hp⟩

theorem scanUp_ok (less : Nat → Bool) {l : List Nat} {u : Nat} {x : Nat} (hu : l[u]? = some x) (hx : less x = false) (fuel : Nat) :
    ∀ i, i ≤ u → u < fuel + i → ∃ i' y, scanUp less l fuel i = some i' ∧ i ≤ i' ∧ i' ≤ u ∧ l[i']? = some y ∧ less y = false := by
  induction fuel with
  | zero => intro i h1 h2; omega
  | succ fuel ih =>
    intro i h1 h2
    unfold scanUp
    have hlen : u < l.length := by
      by_contra hc
      rw [List.getElem?_eq_none (by omega)] at hu; cases hu
    have hi : l[i]? = some (l[i]'(by omega)) := List.getElem?_eq_getElem (by omega)
    rw [hi]
    simp only
    split
    · next hl =>
      have hne : i ≠ u := by
        rintro rfl
        rw [hi] at hu; cases hu
        rw [hx] at hl; cases hl
      obtain ⟨i', y, e, a, b, c, d⟩ := ih (i + 1) (by omega) (by omega)
      exact ⟨i', y, e, by omega, b, c, d⟩
    · next hl =>
      exact ⟨i, _, rfl, Nat.le_refl _, h1, hi, by simpa using hl⟩

theorem scanDown_ok (greater : Nat → Bool) {l : List Nat} {d : Nat} {x : Nat} (hd : l[d]? = some x) (hx : greater x = false) (j : Nat) :
    d < j → j ≤ l.length → ∃ j' y, scanDown greater l j = some j' ∧ d ≤ j' ∧ j' < j ∧ l[j']? = some y ∧ greater y = false := by
  induction j with
  | zero => intro h; omega
  | succ j ih =>
    intro h1 h2
    unfold scanDown
    have hj : l[j]? = some (l[j]'(by omega)) := List.getElem?_eq_getElem (by omega)
    rw [hj]
    simp only
    split
    · next hl =>
      have hne : d ≠ j := by
        rintro rfl
        rw [hj] at hd; cases hd
        rw [hx] at hl; cases hl
      obtain ⟨j', y, e, a, b, c, d⟩ := ih (by omega) (by omega)
      exact ⟨j', y, e, a, by omega, c, d⟩
    · next hl =>
      exact ⟨j, _, rfl, by omega, by omega, hj, by simpa using hl⟩

theorem partitionLoop_ok (less greater : Nat → Bool) {start fin : Nat} (fuel : Nat) : ∀ (i j u d x y : Nat) (l : List Nat),
    l[u]? = some x → less x = false → i ≤ u → u < fin → l[d]? = some y → greater y = false → start ≤ d → d < j → j ≤ fin → fin ≤ l.length →
    j < fuel → start ≤ i → (start < i ∨ start < d) →
    ∃ i' l', partitionLoop less greater fuel i j l = some (i', l') ∧ start < i' ∧ i' < fin ∧ l'.Perm l := by
  induction fuel with
  | zero => intro i j u d x y l _ _ _ _ _ _ _ _ _ _ h; omega
  | succ fuel ih =>
    intro i j u d x y l hu hx hiu hub hd hy hsd hdj hjf hfl hf hsi hor
    unfold partitionLoop
    obtain ⟨i', a, e1, h1, h2, h3, h4⟩ := scanUp_ok less hu hx (l.length + 1) i hiu (by omega)
    rw [e1]
    simp only
    obtain ⟨j', b, e2, h5, h6, h7, h8⟩ := scanDown_ok greater hd hy j hdj (by omega)
    rw [e2]
    simp only
    split
    · exact ⟨i', l, rfl, by omega, by omega, .refl _⟩
    · next hlt =>
      obtain ⟨l1, e3, hp, hj1, hi1⟩ := swapAt_ok (l := l) (i := i') (j := j') (by omega) (by omega)
      rw [e3]
      simp only
      obtain ⟨i2, l2, e4, h9, h10, h11⟩ := ih (i' + 1) j' j' i' a b l1 (hj1.trans h3) h4 (by omega) (by omega) ((hi1 (by omega)).trans h7) h8
        (by omega) (by omega) (by omega) (by rw [hp.length_eq]; exact hfl) (by omega) (by omega) (.inl (by omega))
      exact ⟨i2, l2, e4, h9, h10, h11.trans hp⟩

/-- The sort of `manual_sort_learnts` succeeds and permutes. -/
theorem sortRec_ok (lt : Nat → Nat → Bool) (hlt : ∀ x, lt x x = false) (fuel : Nat) : ∀ (start fin : Nat) (l : List Nat), start ≤ fin → fin ≤ l.length →
    fin - start < fuel → ∃ l', sortRec lt fuel start fin l = some l' ∧ l'.Perm l := by
  induction fuel with
  | zero => intro start fin l _ _ h; omega
  | succ fuel ih =>
    intro start fin l h1 h2 h3
    unfold sortRec
    split
    · exact ⟨l, rfl, .refl _⟩
    · split
      · exact selSort_ok lt fin (fin - start) start l (by omega) h2
      · next hs =>
        have hm : l[start + (fin - start) / 2]? = some (l[start + (fin - start) / 2]'(by omega)) := List.getElem?_eq_getElem (by omega)
        rw [hm]
        simp only
        obtain ⟨i, l1, e, h4, h5, hp⟩ := partitionLoop_ok (fun x => lt x (l[start + (fin - start) / 2]'(by omega))) (fun x => lt (l[start + (fin - start) / 2]'(by omega)) x)
          (start := start) (fin := fin) (fin + 1) start fin (start + (fin - start) / 2) (start + (fin - start) / 2) _ _ l hm (hlt _) (by omega) (by omega) hm (hlt _)
          (by omega) (by omega) (Nat.le_refl _) h2 (by omega) (Nat.le_refl _) (.inr (by omega))
        rw [e]
        simp only
        obtain ⟨l2, e2, hp2⟩ := ih start i l1 (by omega) (by rw [hp.length_eq]; omega) (by omega)
        rw [e2]
        simp only
        obtain ⟨l3, e3, hp3⟩ := ih i fin l2 (by omega) (by rw [hp2.length_eq, hp.length_eq]; omega) (by omega)
        exact ⟨l3, e3, (hp3.trans hp2).trans hp⟩

end St
end Verif.Sat
