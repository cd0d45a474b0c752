import Verif.Sat.Core
import Mathlib.Data.List.Nodup
import Mathlib.Data.List.Perm.Subperm
/-
Meaning of the solver's literals and clauses, and facts about literals and trails.
-/
namespace Verif.Sat

/-- A literal is true under a valuation of the variables. -/
def litT (ρ : Nat → Bool) (l : Nat) : Prop := ρ (l / 2) = (l % 2 == 0)

/-- A clause is true when one of its literals is. -/
def clT (ρ : Nat → Bool) (c : List Nat) : Prop := ∃ l ∈ c, litT ρ l

/-- A valuation satisfies all clauses. -/
def Models (ρ : Nat → Bool) (Φ : List (List Nat)) : Prop := ∀ c ∈ Φ, clT ρ c

/-- The clauses `Φ` imply the clause `c`. -/
def Ent (Φ : List (List Nat)) (c : List Nat) : Prop := ∀ ρ, Models ρ Φ → clT ρ c

theorem Ent.mono {Φ Ψ : List (List Nat)} {c : List Nat} (h : Ent Φ c) (hs : ∀ d ∈ Φ, d ∈ Ψ) : Ent Ψ c :=
  fun ρ hρ => h ρ fun d hd => hρ d (hs d hd)

theorem clT.mono {ρ : Nat → Bool} {c d : List Nat} (h : clT ρ c) (hs : ∀ l ∈ c, l ∈ d) : clT ρ d :=
  h.elim fun l hl => ⟨l, hs l hl.1, hl.2⟩

theorem Ent.perm {Φ : List (List Nat)} {c d : List Nat} (h : Ent Φ c) (hp : ∀ l ∈ c, l ∈ d) : Ent Φ d :=
  fun ρ hρ => (h ρ hρ).mono hp

theorem clT_single {ρ : Nat → Bool} {l : Nat} : clT ρ [l] ↔ litT ρ l := by simp [clT]

theorem Ent.lit {Φ : List (List Nat)} {l : Nat} (h : Ent Φ [l]) {ρ : Nat → Bool} (hρ : Models ρ Φ) : litT ρ l := clT_single.1 (h ρ hρ)

/-! ### Literals -/

theorem neg_neg (l : Nat) : neg (neg l) = l := by unfold neg; split <;> split <;> omega

theorem vr_neg (l : Nat) : vr (neg l) = vr l := by unfold neg vr; split <;> omega

theorem neg_ne (l : Nat) : neg l ≠ l := by unfold neg; split <;> omega

theorem sgn_neg (l : Nat) : sgn (neg l) = !sgn l := by
  unfold sgn neg
  rcases Nat.mod_two_eq_zero_or_one l with h | h
  · rw [if_pos h]; have : (l + 1) % 2 = 1 := by omega
    simp [this, h]
  · rw [if_neg (by omega)]; have : (l - 1) % 2 = 0 := by omega
    simp [this, h]

theorem neg_inj {a b : Nat} : neg a = neg b ↔ a = b :=
  ⟨fun h => by rw [← neg_neg a, h, neg_neg], fun h => h ▸ rfl⟩

theorem vr_eq {a b : Nat} (h : vr a = vr b) : a = b ∨ a = neg b := by
  unfold vr at h; unfold neg; split <;> omega

theorem eq_of_vr_sgn {a b : Nat} (h : vr a = vr b) (hs : sgn a = sgn b) : a = b := by
  rcases vr_eq h with h | h
  · exact h
  · rw [h, sgn_neg] at hs; cases hb : sgn b <;> rw [hb] at hs <;> cases hs

theorem neg_lt {l n : Nat} : neg l < 2 * n ↔ l < 2 * n := by unfold neg; split <;> omega

theorem vr_lt {l n : Nat} : vr l < n ↔ l < 2 * n := by unfold vr; omega

theorem litT_neg {ρ : Nat → Bool} {l : Nat} : litT ρ (neg l) ↔ ¬ litT ρ l := by
  unfold litT neg
  rcases Nat.mod_two_eq_zero_or_one l with h | h
  · rw [if_pos h]
    have h1 : (l + 1) % 2 = 1 := by omega
    have h2 : (l + 1) / 2 = l / 2 := by omega
    rw [h1, h2, h]
    cases ρ (l / 2) <;> simp
  · rw [if_neg (by omega)]
    have h1 : (l - 1) % 2 = 0 := by omega
    have h2 : (l - 1) / 2 = l / 2 := by omega
    rw [h1, h2, h]
    cases ρ (l / 2) <;> simp

theorem litT_iff {ρ : Nat → Bool} {l : Nat} : litT ρ l ↔ ρ (vr l) = !sgn l := by
  unfold litT vr sgn
  rcases Nat.mod_two_eq_zero_or_one l with h | h <;> simp [h]

theorem vr_mkLit (v : Nat) (b : Bool) : vr (mkLit v b) = v := by unfold vr mkLit; split <;> omega

theorem sgn_mkLit (v : Nat) (b : Bool) : sgn (mkLit v b) = b := by
  unfold sgn mkLit
  cases b
  · simp
  · simp

theorem mkLit_vr (l : Nat) : mkLit (vr l) (sgn l) = l := eq_of_vr_sgn (vr_mkLit _ _) (sgn_mkLit _ _)

/-! ### Lists -/

theorem upd_self {α : Type} (f : Nat → α) (i : Nat) (x : α) : upd f i x i = x := by simp [upd]

theorem upd_ne {α : Type} (f : Nat → α) {i j : Nat} (x : α) (h : j ≠ i) : upd f i x j = f j := by simp [upd, h]

theorem upd_same {α : Type} (f : Nat → α) (i : Nat) : upd f i (f i) = f := by
  funext j; unfold upd; split
  · next h => rw [h]
  · rfl

theorem upd_upd {α : Type} (f : Nat → α) (i : Nat) (x y : α) : upd (upd f i x) i y = upd f i y := by
  funext j; unfold upd; split <;> rfl

/-- Exchanging an entry with an outside value. -/
theorem perm_set {α : Type} : ∀ {r : List α} {k : Nat} {b : α}, r[k]? = some b → ∀ a, (b :: r.set k a).Perm (a :: r)
  | [], k, b, h, a => by cases h
  | x :: r, 0, b, h, a => by
    simp only [List.getElem?_cons_zero, Option.some.injEq] at h
    subst h
    exact .swap _ _ _
  | x :: r, k + 1, b, h, a => by
    simp only [List.getElem?_cons_succ] at h
    have := perm_set h a
    simp only [List.set_cons_succ]
    exact (List.Perm.swap _ _ _).trans ((this.cons x).trans (.swap _ _ _))

/-! ### Trails -/

/-- A trail (newest first) with the positions at which decision levels begin (newest first). -/
inductive TWf (lev : Nat → Option Nat) : List Nat → List Nat → Prop
  | nil : TWf lev [] []
  | push {t lim : List Nat} (l : Nat) : TWf lev t lim → lev (vr l) = some lim.length → TWf lev (l :: t) lim
  | new {t lim : List Nat} : TWf lev t lim → TWf lev t (t.length :: lim)

namespace TWf
variable {lev : Nat → Option Nat} {t lim : List Nat}

theorem le (h : TWf lev t lim) : ∀ l ∈ t, ∃ k, lev (vr l) = some k ∧ k ≤ lim.length := by
  induction h with
  | nil => simp
  | push l _ hl ih =>
    intro x hx
    rcases List.mem_cons.1 hx with rfl | hx
    · exact ⟨_, hl, Nat.le_refl _⟩
    · exact ih x hx
  | new _ ih =>
    intro x hx
    obtain ⟨k, h1, h2⟩ := ih x hx
    exact ⟨k, h1, by simp; omega⟩

theorem lim_le (h : TWf lev t lim) : ∀ n ∈ lim, n ≤ t.length := by
  induction h with
  | nil => simp
  | push l _ _ ih => intro n hn; have := ih n hn; simp; omega
  | new _ ih =>
    intro n hn
    rcases List.mem_cons.1 hn with rfl | hn
    · exact Nat.le_refl _
    · exact ih n hn

theorem congr {lev' : Nat → Option Nat} (h : TWf lev t lim) (he : ∀ l ∈ t, lev' (vr l) = lev (vr l)) : TWf lev' t lim := by
  induction h with
  | nil => exact .nil
  | push l _ hl ih =>
    exact .push l (ih fun x hx => he x (List.mem_cons_of_mem _ hx)) (by rw [he l (List.mem_cons_self ..), hl])
  | new _ ih => exact .new (ih he)

/-- The literals after the last decision are on the current level. -/
theorem current (h : TWf lev t lim) : ∀ {t1 l t2}, t = t1 ++ l :: t2 → (∀ n ∈ lim, n ≤ t2.length) → lev (vr l) = some lim.length := by
  induction h with
  | nil => intro t1 l t2 he; simp at he
  | push x _ hl ih =>
    intro t1 l t2 he hn
    cases t1 with
    | nil => simp at he; rw [← he.1]; exact hl
    | cons y t1 => simp at he; exact ih he.2 hn
  | @new t lim _ ih =>
    intro t1 l t2 he hn
    have := hn t.length (List.mem_cons_self ..)
    rw [he] at this
    simp at this
    omega

/-- Older literals are on lower or equal levels. -/
theorem mono (h : TWf lev t lim) : ∀ {t1 l t2}, t = t1 ++ l :: t2 → ∀ y ∈ t2, (lev (vr y)).getD 0 ≤ (lev (vr l)).getD 0 := by
  induction h with
  | nil => intro t1 l t2 he; simp at he
  | push x h hl ih =>
    intro t1 l t2 he
    cases t1 with
    | nil =>
      simp at he
      obtain ⟨rfl, rfl⟩ := he
      intro y hy
      obtain ⟨k, h1, h2⟩ := h.le y hy
      simp [h1, hl]; exact h2
    | cons y t1 => simp at he; exact ih he.2
  | new _ ih => exact ih

theorem lt_of_full (h : TWf lev t lim) (hm : t.length ∈ lim) : ∀ y ∈ t, (lev (vr y)).getD 0 < lim.length := by
  cases h with
  | nil => simp
  | push l h hl => have := h.lim_le _ hm; simp only [List.length_cons] at this; omega
  | new h =>
    intro y hy
    obtain ⟨k, h1, h2⟩ := h.le y hy
    simp [h1]; omega

/-- A literal that begins a level is on a higher level than all older ones. -/
theorem decision (h : TWf lev t lim) : ∀ {t1 l t2}, t = t1 ++ l :: t2 → t2.length ∈ lim →
    ∀ y ∈ t2, (lev (vr y)).getD 0 < (lev (vr l)).getD 0 := by
  induction h with
  | nil => intro t1 l t2 he; simp at he
  | push x h hl ih =>
    intro t1 l t2 he hm
    cases t1 with
    | nil =>
      simp at he
      obtain ⟨rfl, rfl⟩ := he
      intro y hy
      have := h.lt_of_full hm y hy
      simpa [hl] using this
    | cons y t1 => simp at he; exact ih he.2 hm
  | @new t lim h ih =>
    intro t1 l t2 he hm
    rcases List.mem_cons.1 hm with hm | hm
    · rw [he] at hm; simp at hm; omega
    · exact ih he hm

/-- Removing all levels above `L`. -/
theorem cut (h : TWf lev t lim) {L : Nat} (hL : L < lim.length) :
    lim.getD (lim.length - 1 - L) 0 ≤ t.length ∧
    TWf lev (t.drop (t.length - lim.getD (lim.length - 1 - L) 0)) (lim.drop (lim.length - L)) ∧
    (∀ l ∈ t.take (t.length - lim.getD (lim.length - 1 - L) 0), L < (lev (vr l)).getD 0) ∧
    (∀ l ∈ t.drop (t.length - lim.getD (lim.length - 1 - L) 0), (lev (vr l)).getD 0 ≤ L) ∧
    (∀ n ∈ lim.drop (lim.length - L), n ≤ lim.getD (lim.length - 1 - L) 0) := by
  induction h with
  | nil => simp at hL
  | @push t lim x h hl ih =>
    obtain ⟨h1, h2, h3, h4, h5⟩ := ih hL
    have e : (x :: t).length - lim.getD (lim.length - 1 - L) 0 = (t.length - lim.getD (lim.length - 1 - L) 0) + 1 := by
      rw [List.length_cons]; omega
    refine ⟨by rw [List.length_cons]; omega, by rw [e]; simpa using h2, ?_, by rw [e]; simpa using h4, h5⟩
    rw [e]
    simp only [List.take_succ_cons]
    intro l hl'
    rcases List.mem_cons.1 hl' with rfl | hl'
    · simp [hl]; exact hL
    · exact h3 l hl'
  | @new t lim h ih =>
    by_cases hc : L = lim.length
    · subst hc
      simp only [List.length_cons, Nat.add_sub_cancel, Nat.sub_self, List.getD_cons_zero, List.drop_zero, List.take_zero, Nat.le_refl, true_and]
      have : lim.length + 1 - lim.length = 1 := by omega
      rw [this]
      refine ⟨by simpa using h, by simp, ?_, by simpa using h.lim_le⟩
      intro l hl
      obtain ⟨k, h1, h2⟩ := h.le l hl
      simp [h1]; exact h2
    · have hL' : L < lim.length := by simp at hL; omega
      obtain ⟨h1, h2, h3, h4, h5⟩ := ih hL'
      have e : (t.length :: lim).length - 1 - L = (lim.length - 1 - L) + 1 := by simp; omega
      have e2 : (t.length :: lim).length - L = (lim.length - L) + 1 := by simp; omega
      rw [e, e2]
      simp only [List.getD_cons_succ, List.drop_succ_cons]
      exact ⟨h1, h2, h3, h4, h5⟩

/-- The positions of the remaining levels are kept. -/
theorem cut_mem (h : TWf lev t lim) {L : Nat} (hL : L < lim.length) :
    ∀ n ∈ lim, n < lim.getD (lim.length - 1 - L) 0 → n ∈ lim.drop (lim.length - L) := by
  induction h with
  | nil => simp at hL
  | push l h hl ih => exact ih hL
  | @new t lim h ih =>
    intro n hn hlt
    by_cases hc : L = lim.length
    · subst hc
      have e : (t.length :: lim).length - lim.length = 1 := by simp
      have e2 : (t.length :: lim).length - 1 - lim.length = 0 := by simp
      rw [e2] at hlt
      rw [e]
      rcases List.mem_cons.1 hn with rfl | hn
      · simp at hlt
      · simpa using hn
    · have hL' : L < lim.length := by simp at hL; omega
      have e : (t.length :: lim).length - 1 - L = (lim.length - 1 - L) + 1 := by simp; omega
      have e2 : (t.length :: lim).length - L = (lim.length - L) + 1 := by simp; omega
      rw [e, List.getD_cons_succ] at hlt
      rw [e2, List.drop_succ_cons]
      rcases List.mem_cons.1 hn with rfl | hn
      · have h1 := (h.cut hL').1
        omega
      · exact ih hL' n hn hlt

end TWf
end Verif.Sat
