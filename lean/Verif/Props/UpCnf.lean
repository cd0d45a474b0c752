import Verif.F.CnfUp
import Verif.Props.Transform
import Verif.Props.Up

/-
C76: the CNFs of `CnfEncoder` decide a formula by unit propagation alone.
`UP cs A l` (Verif/Enc/Up.lean): unit propagation on the clauses `cs` derives `l` from the
assumed literals `A`; `UP.Conflict cs A` (Verif/Props/Up.lean): it runs into a contradiction.
-/
namespace Verif
open ER

/-- The literals of a clause (specification). -/
def clauseLits : Formula → List Lit
  | .lit l => [l]
  | .nary _ fs => fs.filterMap fun | .lit l => some l | _ => none
  | _ => []

/-- The clauses of a CNF (specification). -/
def cnfCls : Formula → List Clause
  | .tru => []
  | .nary .conj fs => fs.map clauseLits
  | f => [clauseLits f]

/-- The values of the variables of `f` under `σ`. -/
def inputs (f : Formula) (σ : Asg) (l : Lit) : Prop := Occ l.v f ∧ l.eval σ = true

private theorem lits_eval {c : Formula} (hc : IsCl .disj c) (ht : c ≠ .tru) (σ : Asg) : c.eval σ = true ↔ Clause.Sat σ (clauseLits c) := by
  cases hc with
  | tru => exact absurd rfl ht
  | fls => simp [clauseLits, Clause.Sat]
  | lit l => simp [clauseLits, Clause.Sat]
  | @nary fs h =>
    rw [Formula.eval_nary, Op.eval, List.any_eq_true]
    simp only [clauseLits, Clause.Sat, List.mem_filterMap]
    constructor
    · rintro ⟨f, hf, he⟩
      obtain ⟨l, rfl⟩ := h f hf
      exact ⟨l, ⟨_, hf, rfl⟩, by simpa using he⟩
    · rintro ⟨l, ⟨f, hf, e⟩, he⟩
      obtain ⟨k, rfl⟩ := h f hf
      simp only [Option.some.injEq] at e
      subst e
      exact ⟨_, hf, by simpa using he⟩

private theorem cls_leaf {g : Formula} (hg : IsCnf g) (hn : g.Norm) {c : Formula} (hc : OLeaf .conj c g) :
    IsCl .disj c ∧ (c = .tru ∨ clauseLits c ∈ cnfCls g) := by
  have hcl : ∀ f, IsClause f → IsCl .disj f := fun f hf => by cases hf with
    | tru => exact .tru
    | fls => exact .fls
    | lit l => exact .lit l
    | or h => exact .nary h
  cases hg with
  | clause hg =>
    have hg := hcl _ hg
    have : c = g := by cases hg <;> cases hc <;> rfl
    subst this
    refine ⟨hg, ?_⟩
    cases hg with
    | tru => exact .inl rfl
    | _ => right; simp [cnfCls]
  | @and fs hg =>
    cases hc with
    | self hc => exact absurd rfl (hc fs)
    | nary hf hc =>
      rename_i f
      have hcf := hcl _ (hg f hf)
      have : c = f := by cases hcf <;> cases hc <;> rfl
      subst this
      exact ⟨hcf, .inr (List.mem_map.2 ⟨_, hf, rfl⟩)⟩

/-- A model of the CNF is a model of the clauses. -/
private theorem cls_sat {g : Formula} (hg : IsCnf g) (hn : g.Norm) {σ : Asg} (h : g.eval σ = true) : ∀ c ∈ cnfCls g, Clause.Sat σ c := by
  have hcl : ∀ f, IsClause f → IsCl .disj f := fun f hf => by cases hf with
    | tru => exact .tru
    | fls => exact .fls
    | lit l => exact .lit l
    | or h => exact .nary h
  intro c hc
  cases hg with
  | clause hg =>
    have hg := hcl _ hg
    have he := fun ht => (lits_eval hg ht σ).1 h
    cases hg with
    | tru => simp [cnfCls] at hc
    | _ => simp only [cnfCls, List.mem_singleton] at hc; subst hc; exact he (by simp)
  | @and fs hg =>
    simp only [cnfCls, List.mem_map] at hc
    obtain ⟨f, hf, rfl⟩ := hc
    rw [Formula.eval_nary, Op.eval, List.all_eq_true] at h
    refine (lits_eval (hcl _ (hg f hf)) ?_ σ).1 (h f hf)
    cases hn with
    | nary _ _ k => intro e; have := k.notConst f hf; rw [e] at this; simp [Formula.isConst] at this

/-- Without a contradiction, what unit propagation derives is closed. -/
private theorem up_scd {g : Formula} (hg : IsCnf g) (hn : g.Norm) {A : Lit → Prop} (h : ¬ UP.Conflict (cnfCls g) A) :
    LitCons (UP (cnfCls g) A) ∧ SCd (UP (cnfCls g) A) g := by
  have hS : LitCons (UP (cnfCls g) A) := fun k h1 h2 => h (.inr ⟨k, h1, h2⟩)
  refine ⟨hS, fun c hc => ?_⟩
  obtain ⟨h1, h2⟩ := cls_leaf hg hn hc
  by_cases ht : c = .tru
  · subst ht; exact SC.tru hS
  have h2 := h2.resolve_left ht
  have he := lits_eval h1 ht
  intro k hk
  refine Classical.byContradiction fun hkn => ?_
  -- every other literal is false
  have hneg : ∀ l ∈ clauseLits c, l ≠ k → UP (cnfCls g) A l.neg := by
    intro l hl hne
    refine Classical.byContradiction fun hln => ?_
    have hS' : LitCons (fun j => UP (cnfCls g) A j ∨ j = l) := by
      intro j hj hj'
      rcases hj with hj | rfl <;> rcases hj' with hj' | hj'
      · exact hS j hj hj'
      · exact hln (by rw [← hj', Lit.neg_neg]; exact hj)
      · exact hln hj'
      · have := congrArg Lit.pos hj'
        rcases j with ⟨u, _ | _⟩ <;> simp [Lit.neg] at this
    obtain ⟨σ, s1, s2⟩ := hS'.extend (k := k) (by rintro (h | h); exacts [hkn h, hne h.symm])
    have := hk σ (fun j hj => s1 j (.inl hj)) ((he σ).2 ⟨l, hl, s1 l (.inr rfl)⟩)
    rw [s2] at this
    exact absurd this (by simp)
  by_cases hkc : k ∈ clauseLits c
  · exact hkn (.prop h2 hkc hneg)
  · cases hcl : clauseLits c with
    | nil => exact h (.inl (hcl ▸ h2))
    | cons l ls =>
      have hl : l ∈ clauseLits c := by rw [hcl]; simp
      have hn : ∀ l' ∈ clauseLits c, UP (cnfCls g) A l'.neg := fun l' hl' => hneg l' hl' fun e => hkc (e ▸ hl')
      exact hS l (.prop h2 hl fun l' hl' _ => hn l' hl') (hn l hl)

section
variable {C : Canon} {cfg : FCfg} {c : AuxTy → Nat}

/-- **C76.**  Every algorithm of `CnfEncoder` but `Bdd`, in any state of the factory and the encoder: for a
formula without constraints, unit propagation on the clauses of the result, from the values of the
variables of the formula alone, runs into a contradiction exactly if the formula is false. -/
theorem C76_decides (hcfg : cfg.cc.Good) {w es rs} (h : TReach C cfg c w es rs) {f} (hin : Input cfg w.cnt f) (hn : NoCon f)
    (hf : ∀ v, Occ v f → Known c v) {i : Nat} {a s} (he : es[i]? = some (a, s)) :
    ∃ g s' w', a.transform C cfg f s w = some (g, s', w') ∧ IsCnf g ∧
      ∀ σ, UP.Conflict (cnfCls g) (inputs f σ) ↔ f.eval σ = false := by
  obtain ⟨g, s', w', e, hr, k1, k2, k3, k4⟩ := C15_cnf_encoder (C := C) hcfg h hin he
  obtain ⟨E, j⟩ := h.inv hcfg
  have hu := (transform_up hcfg a j.w (j.es _ (List.mem_of_getElem? he)) hin.top hn g s' w' e).1
  refine ⟨g, s', w', e, k1, fun σ => ⟨fun hc => ?_, fun hv => Classical.byContradiction fun hc => ?_⟩⟩
  · refine Bool.eq_false_iff.2 fun ht => ?_
    obtain ⟨σ', a1, a2⟩ := k4 hf σ ht
    refine hc.sound σ' (cls_sat k1 k2 a2) fun l hl => ?_
    rw [← hl.2]
    simp only [Lit.eval, a1 _ (hf _ hl.1)]
  · obtain ⟨u1, u2⟩ := up_scd k1 k2 hc
    have := hu _ σ u1 u2 fun v hv' => .ass ⟨hv', by cases hs : σ v <;> simp [Lit.eval, hs]⟩
    rw [hv] at this
    exact absurd this (by simp)

/-- **C76 (values of the new variables).**  If the algorithm does not use Plaisted-Greenbaum and the formula is
true, unit propagation derives the values of all variables of the CNF, and they are a model. -/
theorem C76_values (hcfg : cfg.cc.Good) {w es rs} (h : TReach C cfg c w es rs) {f} (hin : Input cfg w.cnt f) (hn : NoCon f)
    (hf : ∀ v, Occ v f → Known c v) {i : Nat} {a s} (he : es[i]? = some (a, s)) (hp : a.NoPg) :
    ∃ g s' w', a.transform C cfg f s w = some (g, s', w') ∧
      ∀ σ, f.eval σ = true → ∃ σ' : Asg, (∀ v, Known c v → σ' v = σ v) ∧ g.eval σ' = true ∧
        ∀ v, Occ v g → UP (cnfCls g) (inputs f σ) ⟨v, σ' v⟩ := by
  obtain ⟨g, s', w', e, hr, k1, k2, k3, k4⟩ := C15_cnf_encoder (C := C) hcfg h hin he
  obtain ⟨E, j⟩ := h.inv hcfg
  have hu := (transform_up hcfg a j.w (j.es _ (List.mem_of_getElem? he)) hin.top hn g s' w' e).2 hp
  refine ⟨g, s', w', e, fun σ ht => ?_⟩
  obtain ⟨σ', a1, a2⟩ := k4 hf σ ht
  have hA : ∀ l, inputs f σ l → l.eval σ' = true := fun l hl => by
    rw [← hl.2]
    simp only [Lit.eval, a1 _ (hf _ hl.1)]
  have hc : ¬ UP.Conflict (cnfCls g) (inputs f σ) := fun hc => hc.sound σ' (cls_sat k1 k2 a2) hA
  obtain ⟨u1, u2⟩ := up_scd k1 k2 hc
  refine ⟨σ', a1, a2, fun v hv => ?_⟩
  rcases hu _ σ u1 u2 (fun v hv' => .ass ⟨hv', by cases hs : σ v <;> simp [Lit.eval, hs]⟩) v hv with h | h
  · have := h.sound σ' (cls_sat k1 k2 a2) hA
    rw [Lit.eval_p] at this; rw [this]; exact h
  · have := h.sound σ' (cls_sat k1 k2 a2) hA
    rw [Lit.eval_n, Bool.not_eq_true'] at this; rw [this]; exact h

end

/-! ### The hypotheses are met -/

private theorem exT_reach (a : CnfAlg) : TReach canon0 (exFCfg .swc true) (fun _ => 7) (World.fresh fun _ => 7) [(a, .new)] [] := by
  simpa using TReach.encoder a true (.fresh (C := canon0) (cfg := exFCfg .swc true) (c := fun _ => 7))

/-- Case: Plaisted-Greenbaum on `(~(a & b) <=> c) | (d & e & ~a)`. -/
example : ∃ g s' w', (CnfAlg.pg 0).transform canon0 (exFCfg .swc true) exT .new (World.fresh fun _ => 7) = some (g, s', w') ∧
    (cnfCls g).length = 10 ∧ (∀ σ, UP.Conflict (cnfCls g) (inputs exT σ) ↔ exT.eval σ = false) ∧
    exT.eval (fun v => v = .named 0 ∨ v = .named 2) = true ∧ exT.eval (fun v => v = .named 0) = false := by
  obtain ⟨g, s', w', e, _, h⟩ := C76_decides (C := canon0) (cfg := exFCfg .swc true) trivial (exT_reach (.pg 0)) exT_input.1 exT_input.2 exT_input.1.known (i := 0) rfl
  refine ⟨g, s', w', e, ?_, h, by decide, by decide⟩
  have : (((CnfAlg.pg 0).transform canon0 (exFCfg .swc true) exT .new (World.fresh fun _ => 7)).map fun r => (cnfCls r.1).length) = some 10 := by decide +kernel
  rw [e] at this
  simpa using this

/-- Case: Tseitin on the same formula. -/
example : ∃ g s' w', (CnfAlg.tseitin 0).transform canon0 (exFCfg .swc true) exT .new (World.fresh fun _ => 7) = some (g, s', w') ∧
    ∀ σ, exT.eval σ = true → ∃ σ' : Asg, (∀ v, Known (fun _ => 7) v → σ' v = σ v) ∧ g.eval σ' = true ∧
        ∀ v, Occ v g → UP (cnfCls g) (inputs exT σ) ⟨v, σ' v⟩ :=
  C76_values (C := canon0) (cfg := exFCfg .swc true) trivial (exT_reach (.tseitin 0)) exT_input.1 exT_input.2 exT_input.1.known (i := 0) rfl trivial

/-- `(a & b) | (c & d)`. -/
private def exPg : Formula := .nary .disj [.nary .conj [.lit ⟨.named 0, true⟩, .lit ⟨.named 1, true⟩], .nary .conj [.lit ⟨.named 2, true⟩, .lit ⟨.named 3, true⟩]]
private def exPgCnf : Formula := (((CnfAlg.pg 0).transform canon0 (exFCfg .swc true) exPg .new (World.fresh fun _ => 7)).map fun r => r.1).getD .tru

/-- `C76_values` fails for Plaisted-Greenbaum: the variables for `a & b` and `c & d` stay open if all of
`a`, `b`, `c`, `d` are true, since they are defined in one direction only. -/
theorem C76_pg_open : ∃ f g s' w' v, (CnfAlg.pg 0).transform canon0 (exFCfg .swc true) f .new (World.fresh fun _ => 7) = some (g, s', w') ∧
    Occ v g ∧ f.eval (fun _ => true) = true ∧ ¬ UP (cnfCls g) (inputs f fun _ => true) v.p ∧ ¬ UP (cnfCls g) (inputs f fun _ => true) v.n := by
  have hx : ((CnfAlg.pg 0).transform canon0 (exFCfg .swc true) exPg .new (World.fresh fun _ => 7)).isSome = true := by decide +kernel
  obtain ⟨⟨g, s', w'⟩, e⟩ := Option.isSome_iff_exists.1 hx
  have hg : g = exPgCnf := by unfold exPgCnf; rw [e]; rfl
  have key : ∀ l, UP (cnfCls g) (inputs exPg fun _ => true) l → l ∈ [(Var.named 0).p, (Var.named 1).p, (Var.named 2).p, (Var.named 3).p] := by
    intro l hl
    refine UP.of_closed (cs := cnfCls g) (fun l hA => ?_) (by rw [hg]; decide +kernel) hl
    obtain ⟨h1, h2⟩ := hA
    rcases l with ⟨v, p⟩
    have hp : p = true := by cases p <;> simp [Lit.eval] at h2 ⊢
    subst hp
    simp [exPg] at h1
    rcases h1 with (rfl | rfl) | rfl | rfl <;> simp [Var.p]
  have ho : Occ (.aux .cnf 8) g := by
    have : Var.aux .cnf 8 ∈ fnVars.val g := by rw [hg]; decide +kernel
    exact ((vars_val g).1 _).1 this
  exact ⟨exPg, g, s', w', .aux .cnf 8, e, ho, by decide, fun h => absurd (key _ h) (by decide), fun h => absurd (key _ h) (by decide)⟩

end Verif
