import Verif.Enc.AmoLemmas3
import Mathlib.Tactic.ByContra
/-
Encodings whose bound can be tightened later.
-/
namespace Verif
open ER

/-- Helper notion: going from `s` to `s'` encoded `C r`, and adding the clauses `cl r'` for a
tighter bound (`T r' r`) will encode `C r'`. -/
structure IncOK (s s' : ER) (C : Nat → Asg → Prop) (T : Nat → Nat → Prop) (r : Nat)
    (cl : Nat → List Clause) : Prop where
  le : Le s s'
  wf : Wf s'
  old : ∀ r', T r' r → ∀ c ∈ cl r', ∀ l ∈ c, s'.Old l.v
  sound : ∀ σ, Sat σ s' → C r σ
  snd : ∀ σ r', Sat σ s' → T r' r → (∀ c ∈ cl r', Clause.Sat σ c) → C r' σ
  compl : ∀ σ, Sat σ s → C r σ →
    ∃ σ', Agree s σ σ' ∧ Sat σ' s' ∧ ∀ r', T r' r → C r' σ → ∀ c ∈ cl r', Clause.Sat σ' c

theorem IncOK.encodes {s s' C T r cl} (h : IncOK s s' C T r cl) (hw : Wf s)
    (hC : ∀ σ σ', Agree s σ σ' → C r σ → C r σ') : Encodes s s' (C r) :=
  Encodes.mk' h.le hw h.wf hC h.sound (fun σ h1 h2 =>
    let ⟨σ', a, b, _⟩ := h.compl σ h1 h2; ⟨σ', a, b⟩)

theorem IncOK.step {s s' C T r cl} (h : IncOK s s' C T r cl) {r' : Nat} (ht : T r' r)
    (htr : ∀ r'', T r'' r' → T r'' r) (hC : ∀ σ, C r' σ → C r σ) :
    IncOK s (s'.addClauses (cl r')) C T r' cl where
  le := h.le.trans (addClauses_le _ _)
  wf := addClauses_wf h.wf (h.old r' ht)
  old r'' ht' c hc l hl := by rw [addClauses_old]; exact h.old r'' (htr _ ht') c hc l hl
  sound σ hs := by
    rw [addClauses_sat] at hs
    exact h.snd σ r' hs.1 ht hs.2
  snd σ r'' hs ht' hc := by
    rw [addClauses_sat] at hs
    exact h.snd σ r'' hs.1 (htr _ ht') hc
  compl σ hs hc := by
    obtain ⟨σ', a, b, c⟩ := h.compl σ hs (hC σ hc)
    exact ⟨σ', a, addClauses_sat.2 ⟨b, c r' ht hc⟩, fun r'' ht' hc' => c r'' (htr _ ht') hc'⟩

/-- Bounds of at-most-k constraints get tighter by decreasing. -/
abbrev TUp (r' r : Nat) : Prop := r' < r
/-- Bounds of at-least-k constraints get tighter by increasing, up to the number of variables. -/
abbrev TLo (n : Nat) (r' r : Nat) : Prop := r < r' ∧ r' ≤ n

abbrev CUp (vars : List Var) (r : Nat) (σ : Asg) : Prop := cntV σ vars ≤ r
abbrev CLo (vars : List Var) (r : Nat) (σ : Asg) : Prop := r ≤ cntV σ vars

end Verif
