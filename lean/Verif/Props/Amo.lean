import Verif.Enc.AmoLemmas3
/-
C21: the at-most-one encoders.  `ER.Encodes s s' C` (Verif/Enc/Base.lean) says: an
assignment extends to the auxiliary variables allocated between `s` and `s'` so that all
clauses hold iff it satisfied the clauses of `s` and has property `C`.
-/
namespace Verif
open ER

/-- Parameter values for which the encoders terminate. -/
def AmoCfg.Good : AmoCfg → Prop
  | .product rb => 2 ≤ rb
  | .nested gs => 4 ≤ gs
  | .commander gs => 2 ≤ gs
  | .bimanderFixed m => 1 ≤ m
  | _ => True

/-- **C21.**  Every at-most-one encoder returns and encodes exactly "at most one of the
variables is true", for every list of variables (also with repetitions). -/
theorem C21_amo_correct (cfg : AmoCfg) (hcfg : cfg.Good) (vars : List Var) (s : ER) (fuel : Nat)
    (hf : vars.length < fuel) (hw : Wf s) (hv : ∀ v ∈ vars, s.Old v) :
    ∃ s', amo cfg fuel vars s = .ok s' ∧ Encodes s s' (fun σ => cntV σ vars ≤ 1) := by
  unfold amo
  by_cases h1 : vars.length ≤ 1
  · simp only [h1, if_true]
    refine ⟨s, rfl, (Encodes.id hw).congr fun σ => ?_⟩
    have : cntV σ vars ≤ vars.length := List.countP_le_length
    simp; omega
  · simp only [h1, if_false]
    cases cfg with
    | pure => exact ⟨_, rfl, amoPure_encodes hw hv⟩
    | ladder => exact ⟨_, rfl, amoLadder_encodes (by omega) hw hv⟩
    | product rb =>
      obtain ⟨s', h, E⟩ := productRec_encodes hcfg fuel vars s (by omega) (by omega) hw hv
      exact ⟨s', by simp [h], E⟩
    | nested gs =>
      obtain ⟨s', h, E⟩ := nestedRec_encodes hcfg fuel (vars.map Var.p) s (by simpa) hw (map_p_old hv)
      refine ⟨s', by simp [amoNested, h], E.congr fun σ => by rw [cntL_map_p]⟩
    | commander gs =>
      have hg : 2 ≤ gs := hcfg
      obtain ⟨s', h, E⟩ := amoCommander_encodes (fuel := fuel) hg (vars := vars) (s := s) (by omega) (by omega) hw hv
      refine ⟨s', ?_, E⟩
      simp only [h]; rw [if_neg (by omega)]
    | binary => exact ⟨_, rfl, amoBinary_encodes (by omega) hw hv⟩
    | bimanderFixed m =>
      have hg : 1 ≤ m := hcfg
      refine ⟨_, ?_, amoBimander_encodes hg hw hv⟩
      simp only; rw [if_neg (by omega)]
    | bimanderHalf => exact ⟨_, rfl, amoBimander_encodes (by omega) hw hv⟩
    | bimanderSqrt =>
      refine ⟨_, rfl, amoBimander_encodes ?_ hw hv⟩
      have := ceilSqrt_spec (vars.length + 1)
      unfold floorSqrt
      apply Nat.le_of_not_lt; intro h
      have h3 : ceilSqrt (vars.length + 1) ≤ 1 := by omega
      have := Nat.mul_le_mul h3 h3
      omega
    | best =>
      by_cases h10 : vars.length ≤ 10
      · simp only [h10, if_true]; exact ⟨_, rfl, amoPure_encodes hw hv⟩
      · simp only [h10, if_false]
        obtain ⟨s', h, E⟩ := productRec_encodes (rb := 20) (by omega) fuel vars s (by omega) (by omega) hw hv
        exact ⟨s', by simp [h], E⟩

/-- The parameter restriction in `C21_amo_correct` is needed: outside it no amount of fuel
suffices (the Rust code does not return) or the code panics, already for three variables. -/
theorem C21_amo_bad_parameters (cfg : AmoCfg) (hcfg : ¬ cfg.Good) (vars : List Var) (s : ER) (fuel : Nat)
    (h3 : 3 ≤ vars.length) : amo cfg fuel vars s = .diverge ∨ amo cfg fuel vars s = .panic := by
  unfold amo
  simp only [show ¬ vars.length ≤ 1 by omega, if_false]
  cases cfg <;> simp only [AmoCfg.Good, not_true_eq_false] at hcfg
  · rename_i rb
    left; simp only
    rw [productRec_diverges (show rb ≤ 1 by omega) fuel vars s (by omega)]
  · left; simp only [amoNested]
    rw [nestedRec_diverges fuel (vars.map Var.p) s (by simp; omega)]
  · rename_i gs
    by_cases h0 : gs = 0
    · right; simp [h0]
    · left
      have : gs = 1 := by omega
      subst this
      simp only [amoCommander]
      rw [commanderLoop_diverges fuel false (vars.map Var.p) s (by simp; omega)]; rfl
  · rename_i m
    right
    have : m = 0 := by omega
    subst this; rfl

/-- Non-vacuity: a state with one clause and four named variables. -/
example : let s : ER := ⟨fun _ => 0, [[(Var.named 0).p]]⟩
    Wf s ∧ (∀ v ∈ [Var.named 0, .named 1, .named 2, .named 3], s.Old v) ∧ (AmoCfg.nested 4).Good := by
  refine ⟨?_, ?_, ?_⟩
  · intro c hc l hl; simp at hc; subst hc; simp at hl; subst hl; trivial
  · intro v hv; simp at hv; rcases hv with rfl | rfl | rfl | rfl <;> trivial
  · exact Nat.le_refl 4

/-- Test: the encodings really produce clauses (4 variables, ladder). -/
example : (amoLadder [.named 0, .named 1, .named 2, .named 3] ⟨fun _ => 0, []⟩).clauses.length = 8 := by decide

end Verif
