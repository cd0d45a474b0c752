import Verif.Sat.Term

/-!
Results of functions with fuel that stay the same from some fuel on: total versions of the loops around `solve`.
-/

namespace Verif.Sat
open St

/-- The function ends, and more fuel does not change its result. -/
def Conv {α : Type} (g : Nat → Res α) : Prop := ∃ f0 r, r ≠ .diverge ∧ ∀ f ≥ f0, g f = r

namespace Conv
variable {α β : Type}

theorem const {r : Res α} (h : r ≠ .diverge) : Conv fun _ => r := ⟨0, r, h, fun _ _ => rfl⟩

theorem ok (a : α) : Conv fun _ => Res.ok a := const nofun

theorem panic : Conv fun _ => (Res.panic : Res α) := const nofun

/-- What a function returns in the end is what it returns with some fuel. -/
theorem bind {g : Nat → Res α} {k : Nat → α → Res β} (hg : Conv g) (hk : ∀ f0 a, g f0 = .ok a → Conv fun f => k f a) :
    Conv fun f => match g f with
      | .panic => .panic
      | .diverge => .diverge
      | .ok a => k f a := by
  obtain ⟨f0, r, hr, h⟩ := hg
  match r, hr with
  | .panic, _ =>
    refine ⟨f0, .panic, nofun, fun f hf => ?_⟩
    simp only [h f hf]
  | .ok a, _ =>
    obtain ⟨f1, r1, hr1, h1⟩ := hk f0 a (h f0 (Nat.le_refl _))
    refine ⟨f0 + f1, r1, hr1, fun f hf => ?_⟩
    simp only [h f (by omega : f ≥ f0)]
    exact h1 f (by omega)
  | .diverge, hr => exact absurd rfl hr

theorem congr {g g' : Nat → Res α} (h : Conv g) (he : ∀ f, g' f = g f) : Conv g' := by
  obtain ⟨f0, r, hr, h⟩ := h
  exact ⟨f0, r, hr, fun f hf => (he f).trans (h f hf)⟩

end Conv

section
variable {F : Type} [LinearOrder F] [Flt F] {Φ : List (List Nat)} {inc : Bool} {s : St F}

theorem searchLoop_mono (C : Cfg F) {a b : Nat} (h : a ≤ b) : ∀ (n : Nat) (s : St F), searchLoop C a n s ≠ .diverge → searchLoop C b n s = searchLoop C a n s := by
  induction a generalizing b with
  | zero => intro n s h; exact absurd rfl h
  | succ a ih =>
    intro n s
    obtain ⟨b, rfl⟩ : ∃ b', b = b' + 1 := ⟨b - 1, by omega⟩
    have hab : a ≤ b := by omega
    unfold searchLoop
    match s.prop with
    | none => exact fun _ => rfl
    | some (s1, some id) =>
      simp only
      split
      · exact fun _ => rfl
      · match learn C id s1 with
        | none => exact fun _ => rfl
        | some s2 => exact ih hab (n - 1) s2
    | some (s1, none) =>
      simp only
      match noConflict C (n == 0) s1 with
      | .panic => exact fun _ => rfl
      | .answer s' r => exact fun _ => rfl
      | .again s2 => exact ih hab n s2

theorem search_mono (C : Cfg F) {a b : Nat} (h : a ≤ b) (n : Nat) (s : St F) : search C a n s ≠ .diverge → search C b n s = search C a n s := by
  unfold search
  split
  · exact fun _ => rfl
  · exact searchLoop_mono C h n _

theorem restartLoop_mono (C : Cfg F) {a0 b0 : Nat} (h0 : a0 ≤ b0) {a b : Nat} (h : a ≤ b) : ∀ (k : Nat) (s : St F), restartLoop C a0 a k s ≠ .diverge →
    restartLoop C b0 b k s = restartLoop C a0 a k s := by
  induction a generalizing b with
  | zero => intro k s h; exact absurd rfl h
  | succ a ih =>
    intro k s
    obtain ⟨b, rfl⟩ : ∃ b', b = b' + 1 := ⟨b - 1, by omega⟩
    have hab : a ≤ b := by omega
    unfold restartLoop
    match lubyExp k with
    | none => exact fun _ => rfl
    | some e =>
      simp only
      have := search_mono C h0 (Flt.toNat (Flt.mul (Flt.pow C.restartInc e) (Flt.ofInt C.restartFirst))) s
      revert this
      generalize search C b0 (Flt.toNat (Flt.mul (Flt.pow C.restartInc e) (Flt.ofInt C.restartFirst))) s = r'
      generalize search C a0 (Flt.toNat (Flt.mul (Flt.pow C.restartInc e) (Flt.ofInt C.restartFirst))) s = r
      intro hs
      match r, hs with
      | .panic, hs => rw [hs nofun]; exact fun _ => rfl
      | .diverge, hs => exact fun h => absurd rfl h
      | .ok (s1, some b), hs => rw [hs nofun]; exact fun _ => rfl
      | .ok (s1, none), hs => rw [hs nofun]; exact ih hab (k + 1) s1

theorem solve_mono (C : Cfg F) {a b : Nat} (h : a ≤ b) (s : St F) : solve C a s ≠ .diverge → solve C b s = solve C a s := by
  unfold solve
  simp only
  split
  · exact fun _ => rfl
  · have := restartLoop_mono C h h 0 { s with
      model := [], conflict := []
      adjConfl := Flt.ofInt 100
      adjCnt := 100
      maxLearnts := Flt.mul (Flt.ofInt s.clauses.length) C.learntsizeFactor }
    revert this
    generalize restartLoop C b b 0 _ = r'
    generalize restartLoop C a a 0 _ = r
    intro hs
    match r, hs with
    | .panic, hs => rw [hs nofun]; exact fun _ => rfl
    | .diverge, hs => exact fun h => absurd rfl h
    | .ok (s1, b), hs => rw [hs nofun]; exact fun _ => rfl

/-- `solve` ends. -/
theorem solve_conv (C : Cfg F) (hm : C.clauseMin ≠ .none) (hE : Ends C s.nvars) (h : Ready Φ C.incremental s) : Conv fun f => solve C f s := by
  obtain ⟨f0, hf0⟩ := solve_enough C hm hE
  have h0 := hf0 f0 (Nat.le_refl _) Φ s rfl h
  exact ⟨f0, solve C f0 s, h0, fun f hf => solve_mono C hf s h0⟩

theorem solveWith_conv (C : Cfg F) (hm : C.clauseMin ≠ .none) (hE : Ends C s.nvars) (h : Ready Φ C.incremental s) {as : List Nat} (ha : ∀ p ∈ as, p < 2 * s.nvars) :
    Conv fun f => solveWith C f as s := by
  have := (solve_conv C hm (s := { s with assumptions := as }) hE (h.assume ha)).bind (k := fun _ a => Res.ok ({ a.1 with assumptions := [] }, a.2)) fun _ _ _ => .ok _
  refine this.congr fun f => ?_
  unfold solveWith
  match solve C f { s with assumptions := as } with
  | .ok (s1, b) => rfl
  | .panic => rfl
  | .diverge => rfl

theorem solveSel_conv (C : Cfg F) (hm : C.clauseMin ≠ .none) (hE : Ends C s.nvars) (h : Ready Φ C.incremental s) {sel as : List Nat} (hs : ∀ p ∈ sel, p < 2 * s.nvars)
    (ha : ∀ p ∈ as, p < 2 * s.nvars) : Conv fun f => Sess.solveSel C f sel as s := by
  have := (solveWith_conv C hm (s := { s with sel := sel }) hE (h.setSel hs) ha).bind (k := fun _ a => Res.ok ({ a.1 with sel := [] }, a.2)) fun _ _ _ => .ok _
  refine this.congr fun f => ?_
  unfold Sess.solveSel
  match solveWith C f as { s with sel := sel } with
  | .ok (s1, b) => rfl
  | .panic => rfl
  | .diverge => rfl

end
end Verif.Sat
