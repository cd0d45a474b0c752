import Verif.Props.Transform
/-
Property C85: transformations of formulas introduce no variables but auxiliary ones.

As specification only `Occ` is used; `TReach C cfg c w es rs` says that `rs` are the results of any sequence of transformations of a factory (Props/Transform.lean).
-/
namespace Verif

section
variable {C : Canon} {cfg : FCfg} {c : AuxTy → Nat}

/-- C85: whatever transformations are called in whatever order, with whatever caches and states of encoders, all variables of each result are variables of its input or
auxiliary variables, and all of them exist in the factory. -/
theorem C85_variables (hcfg : cfg.cc.Good) {w es rs} (h : TReach C cfg c w es rs) {f g : Formula} (hm : (f, g) ∈ rs) :
    (∀ n, Occ (.named n) g → Occ (.named n) f) ∧ ∀ v, Occ v g → Known w.cnt v := by
  obtain ⟨E, i⟩ := h.inv hcfg
  refine ⟨fun n hn => ?_, fun v hv => known_iff.2 ((i.rs _ hm).old v hv)⟩
  rcases (i.rs _ hm).aux _ hn with h | ⟨_, _, h⟩
  · exact h
  · cases h

/-- C85 for one call of a CNF encoder: no named variable is added, also if the formula contains constraints. -/
theorem C85_encoder (hcfg : cfg.cc.Good) {w es rs} (h : TReach C cfg c w es rs) {f} (hin : Input cfg w.cnt f) {i : Nat} {a : CnfAlg} {s} (he : es[i]? = some (a, s)) :
    ∃ g s' w', a.transform C cfg f s w = some (g, s', w') ∧ IsCnf g ∧ ∀ n, Occ (.named n) g → Occ (.named n) f := by
  obtain ⟨g, s', w', e, hr, k1, _⟩ := C15_cnf_encoder (C := C) hcfg h hin he
  exact ⟨g, s', w', e, k1, (C85_variables hcfg hr (by simp)).1⟩

/-- C85 for one call of `nnf`. -/
theorem C85_nnf (hcfg : cfg.cc.Good) {w es rs} (h : TReach C cfg c w es rs) {f} (hin : Input cfg w.cnt f) :
    ∃ g w', nnf C cfg f w = some (g, w') ∧ ∀ n, Occ (.named n) g → Occ (.named n) f := by
  obtain ⟨g, w', e, hr, _⟩ := C11_nnf (C := C) hcfg h hin
  exact ⟨g, w', e, (C85_variables hcfg hr (by simp)).1⟩

end

/-! ### Cases that meet the hypotheses -/

/-- The named variables of the results of the sample run (Props/Transform.lean). -/
def exNamed (a : CnfAlg) : List (List Nat) :=
  ((exRun a true).getD []).map fun p => (fnVars.val p.2).filterMap fun v => match v with | .named n => some n | _ => none

/-- How many auxiliary variables they have. -/
def exAux (a : CnfAlg) : List Nat := ((exRun a true).getD []).map fun p => ((fnVars.val p.2).filter fun v => match v with | .named _ => false | _ => true).length

example : (exNamed (.tseitin 0)).map (fun l => (List.range 9).filter (l.contains ·)) = [[0, 1, 2, 3, 4], [0, 1, 2, 3, 4], [], [0, 1, 2, 3, 4], [0, 1, 2, 5], [0, 1, 2, 3, 4, 5]] := by decide +kernel
example : (exNamed (.pg 0)).map (fun l => (List.range 9).filter (l.contains ·)) = [[0, 1, 2, 3, 4], [0, 1, 2, 3, 4], [], [0, 1, 2, 3, 4], [0, 1, 2, 5], [0, 1, 2, 3, 4, 5]] := by decide +kernel
example : (exAux (.pg 0)).map (· == 0) = [true, true, true, false, false, false] := by decide +kernel

/-- A new factory, with a formula containing a pseudo-Boolean constraint as input. -/
example : ∃ w, ∃ g w', nnf canon0 (exFCfg .swc true) exTc w = some (g, w') ∧ ∀ n, Occ (.named n) g → Occ (.named n) exTc :=
  ⟨_, C85_nnf (C := canon0) (cfg := exFCfg .swc true) (c := fun _ => 7) trivial .fresh exTc_input⟩

end Verif
