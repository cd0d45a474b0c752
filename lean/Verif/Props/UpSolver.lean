import Verif.F.PgSolverUp
import Verif.Props.UpCnf
import Verif.Props.SatFormula
/-
C76 for the transformation on the solver: the clauses that `add_cnf_to_solver` adds decide the
formulas by unit propagation alone.
-/
namespace Verif
open ER

/-- The values of the variables of the formulas under `σ`. -/
def inputsAll (fs : List Formula) (σ : Asg) (l : Lit) : Prop := (∃ f ∈ fs, Occ l.v f) ∧ l.eval σ = true

private theorem up_mono {cs cs' : List Clause} {A A' : Lit → Prop} (hc : ∀ c ∈ cs, c ∈ cs') (hA : ∀ l, A l → A' l) {l} (h : UP cs A l) : UP cs' A' l := by
  induction h with
  | ass h => exact .ass (hA _ h)
  | prop h1 h2 _ ih => exact .prop (hc _ h1) h2 ih

/-- Without a contradiction, what unit propagation derives is closed. -/
private theorem up_closed {cs : List Clause} {A : Lit → Prop} (h : ¬ UP.Conflict cs A) : PgUp.Closed (UP cs A) cs := by
  have hS : LitCons (UP cs A) := fun k h1 h2 => h (.inr ⟨k, h1, h2⟩)
  refine ⟨hS, fun c hc k hk => ?_⟩
  by_cases hkc : k ∈ c
  · exact .prop hc hkc hk
  · have hall : ∀ l ∈ c, UP cs A l.neg := fun l hl => hk l hl fun e => hkc (e ▸ hl)
    cases c with
    | nil => exact (h (.inl hc)).elim
    | cons l ls => exact (hS l (.prop hc (by simp) fun l' hl' _ => hall l' hl') (hall l (by simp))).elim

/-- The formulas added so far are decided. -/
private theorem runs_up {C cfg full c fs es s} (hcfg : cfg.cc.Good) (h : PgRuns C cfg full c fs es s) :
    PgUp.Good [] idle s ∧ ∀ f ∈ fs, NoCon f → ∀ S σ, PgUp.Closed S s.out → Sets S f σ → f.eval σ = true := by
  induction h with
  | new => exact ⟨fun f e pol he => (by cases he), by simp⟩
  | world _ hw ih => exact ih
  | @add fs es s s' f h0 hin e ih =>
    obtain ⟨G, h1, _⟩ := PgRuns.inv hcfg h0
    obtain ⟨k1, k2, k3⟩ := PgUp.addCnfToSolver_up hcfg h1.w ih.1 full hin.top e
    refine ⟨k1, fun g hg hn S σ hc hs => ?_⟩
    rcases List.mem_append.1 hg with hg | hg
    · exact ih.2 g hg hn S σ (hc.mono k2.out) hs
    · rw [List.mem_singleton.1 hg] at hn hs ⊢
      exact k3 hn S σ (by simpa using hc) hs

/-- **C76 (on the solver).**  For any sequence of formulas without constraints, with and without a negation normal form
first, and for any other uses of the factory in between: unit propagation on the clauses added, from the
values of the variables of the formulas alone, runs into a contradiction exactly if one of the formulas
is false. -/
theorem C76_on_solver {C : Canon} {cfg : FCfg} (hcfg : cfg.cc.Good) {full : Bool} {c : AuxTy → Nat} {fs : List Formula} {es : List (CnfAlg × EncSt)} {s : PgS}
    (h : PgRuns C cfg full c fs es s) (hn : ∀ f ∈ fs, NoCon f) (hk : ∀ f ∈ fs, ∀ v, Occ v f → Known c v) (σ : Asg) :
    UP.Conflict s.out (inputsAll fs σ) ↔ ∃ f ∈ fs, f.eval σ = false := by
  constructor
  · intro hc
    refine Classical.byContradiction fun hno => ?_
    have hall : ∀ f ∈ fs, f.eval σ = true := fun f hf => by
      cases hv : f.eval σ with
      | true => rfl
      | false => exact absurd ⟨f, hf, hv⟩ hno
    obtain ⟨σ', a1, a2⟩ := (C15_on_solver hcfg h).2.2 hk σ hall
    refine hc.sound σ' a2 fun l hl => ?_
    obtain ⟨⟨f, hf, ho⟩, he⟩ := hl
    rw [← he]
    simp only [Lit.eval, a1 _ (hk f hf _ ho)]
  · rintro ⟨f, hf, hv⟩
    refine Classical.byContradiction fun hc => ?_
    have := (runs_up hcfg h).2 f hf (hn f hf) _ σ (up_closed hc) fun v ho => .ass ⟨⟨f, hf, ho⟩, by cases hs : σ v <;> simp [Lit.eval, hs]⟩
    rw [hv] at this
    exact absurd this (by simp)

/-- A formula that is false is refuted from the values of its own variables, also if other formulas were
added, with and without constraints. -/
theorem C76_on_solver_single {C : Canon} {cfg : FCfg} (hcfg : cfg.cc.Good) {full : Bool} {c : AuxTy → Nat} {fs : List Formula} {es : List (CnfAlg × EncSt)} {s : PgS}
    (h : PgRuns C cfg full c fs es s) {f : Formula} (hf : f ∈ fs) (hn : NoCon f) (σ : Asg) (hv : f.eval σ = false) :
    UP.Conflict s.out (inputs f σ) := by
  refine Classical.byContradiction fun hc => ?_
  have := (runs_up hcfg h).2 f hf hn _ σ (up_closed hc) fun v ho => .ass ⟨ho, by cases hs : σ v <;> simp [Lit.eval, hs]⟩
  rw [hv] at this
  exact absurd this (by simp)

/-! ### The hypotheses are met -/

private def exS : Option PgS := addCnfToSolver canon0 (exFCfg .swc true) true exT ⟨fun _ => none, World.fresh fun _ => 7, []⟩

/-- Case: `(~(a & b) <=> c) | (d & e & ~a)`, without a negation normal form. -/
example : ∃ s, PgRuns canon0 (exFCfg .swc true) true (fun _ => 7) [exT] [] s ∧ s.out.length = 8 ∧
    (∀ σ, UP.Conflict s.out (inputsAll [exT] σ) ↔ ∃ f ∈ [exT], f.eval σ = false) ∧ exT.eval (fun v => v = .named 0) = false := by
  have hx : exS.isSome = true := by decide +kernel
  obtain ⟨s, e⟩ := Option.isSome_iff_exists.1 hx
  have hr : PgRuns canon0 (exFCfg .swc true) true (fun _ => 7) [exT] [] s := by simpa using PgRuns.add .new exT_input.1 e
  refine ⟨s, hr, ?_, C76_on_solver (cfg := exFCfg .swc true) trivial hr (by simpa using exT_input.2) (by simpa using exT_input.1.known), by decide⟩
  have : exS.map (fun s => s.out.length) = some 8 := by decide +kernel
  rw [e] at this
  simpa using this

end Verif
