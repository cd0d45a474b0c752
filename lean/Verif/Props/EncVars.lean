import Verif.F.EncVars
import Verif.Props.Pb
/-
C84: the clauses of an encoded constraint are about the variables of the constraint and new auxiliary variables only.
-/
namespace Verif
open Formula ER

/-- The variables of a constraint (specification). -/
def Con.Has : Con → Var → Prop
  | .cc c, v => v ∈ c.vars
  | .pbc p, v => ∃ t ∈ p.terms, t.1.v = v

/-- An auxiliary variable of a cardinality or pseudo-Boolean encoding with a number from `c` to below `c'` (specification). -/
def MadeBetween (c c' : AuxTy → Nat) (v : Var) : Prop := ∃ t k, (t = .cc ∨ t = .pb) ∧ c t ≤ k ∧ k < c' t ∧ v = .aux t k

theorem EncAux.between {c c' : AuxTy → Nat} {v : Var} (h : EncAux c v) (ho : (cER c').Old v) : MadeBetween c c' v := by
  rcases h with ⟨k, hk, rfl⟩ | ⟨k, hk, rfl⟩ | rfl
  · exact ⟨.cc, k, .inl rfl, hk, ho, rfl⟩
  · exact ⟨.pb, k, .inr rfl, hk, ho, rfl⟩
  · exact ho.elim

theorem Con.encode_vars {C : Canon} {cfg : FCfg} {c0 : AuxTy → Nat} {w w' : World} {x : Con} {L : List Clause} (h : VarsInv c0 w) (e : x.encode C cfg w = some (L, w')) :
    VarsInv c0 w' ∧ OverV c0 x.Has L := by
  cases x with
  | cc c => exact encodeCc_vars h e
  | pbc p => exact encodePbc_vars h e

theorem encodeAll_vars {C : Canon} {cfg : FCfg} {c0 : AuxTy → Nat} (xs : List Con) : ∀ {w w' : World} {Ls : List (List Clause)}, VarsInv c0 w → encodeAll C cfg xs w = some (Ls, w') →
    List.Forall₂ (fun (x : Con) L => OverV c0 x.Has L) xs Ls := by
  induction xs with
  | nil => intro w w' Ls _ e; cases e; exact .nil
  | cons x xs ih =>
    intro w w' Ls h e
    unfold encodeAll at e
    split at e
    · cases e
    · rename_i L w1 e1
      obtain ⟨k1, k2⟩ := Con.encode_vars h e1
      split at e
      · cases e
      · rename_i Ls' w2 e2
        cases e
        exact .cons k2 (ih k1 e2)

/-- C84: encode any list of cardinality and pseudo-Boolean constraints one after the other, with any configuration of algorithms and caches, in a factory with any counters.  The
clauses returned for a constraint, computed or from a cache, are only about variables of this constraint and auxiliary variables made in this run. -/
theorem C84_encode (C : Canon) (cfg : FCfg) (hcfg : cfg.cc.Good) (c : AuxTy → Nat) (xs : List Con) (hx : ∀ x ∈ xs, x.Good cfg c) :
    ∃ Ls w', encodeAll C cfg xs (World.fresh c) = some (Ls, w') ∧ Ls.length = xs.length ∧
      ∀ (i : Nat) (x : Con) (L : List Clause), xs[i]? = some x → Ls[i]? = some L → ∀ cl ∈ L, ∀ l ∈ cl, x.Has l.v ∨ MadeBetween c w'.cnt l.v := by
  obtain ⟨Ls, w', E', e, h, hg, hf⟩ := encodeAll_ok (C := C) hcfg xs (WInv.fresh c) hx
  have hv := encodeAll_vars (c0 := c) xs ⟨fun _ => Nat.le_refl _, fun _ _ e => (by cases e), fun _ _ e => (by cases e)⟩ e
  refine ⟨Ls, w', e, hf.length_eq.symm, fun i x L h1 h2 cl hcl l hl => ?_⟩
  obtain ⟨i1, rfl⟩ := List.getElem?_eq_some_iff.1 h1
  obtain ⟨i2, rfl⟩ := List.getElem?_eq_some_iff.1 h2
  exact (hv.get i1 i2 cl hcl l hl).imp_right fun k => k.between ((hf.get i1 i2).old cl hcl l hl)

/-- C84 for constraints written to a solver: the clauses are about the variables of the constraint and auxiliary variables made by this call. -/
theorem C84_encode_constraint (cfg : CcCfg) (hcfg : cfg.Good) (cc : CC) (c : AuxTy → Nat) (fuel : Nat) (hf : cc.vars.length < fuel)
    (hbig : cc.vars.length < 2 ^ 30) (hv : ∀ v ∈ cc.vars, (cER c).Old v) (hn : cfg.CardNet → cc.vars.Nodup) (hlt : cc.cmp = .lt → 1 ≤ cc.rhs) :
    ∃ s', encodeConstraint cfg fuel cc (cER c) = .ok s' ∧ ∀ cl ∈ s'.clauses, ∀ l ∈ cl, l.v ∈ cc.vars ∨ ∃ k, c .cc ≤ k ∧ k < s'.cnt .cc ∧ l.v = .aux .cc k := by
  obtain ⟨s', e, E⟩ := C24_encode_constraint cfg hcfg cc (cER c) fuel hf hbig (cER_wf c) hv hn hlt
  refine ⟨s', e, fun cl hcl l hl => ?_⟩
  have hP : NewVars (fun v => v ∈ cc.vars ∨ (∃ k, c .cc ≤ k ∧ v = .aux .cc k) ∨ v = .aux .tmp 0) c :=
    ⟨fun k hk => .inr (.inl ⟨k, hk, rfl⟩), .inr (.inr rfl)⟩
  have ho := E.wf cl hcl l hl
  rcases (encodeConstraint_clean hP (cER_clean fun _ => Nat.le_refl _) (fun v hv => .inl hv) e).cl cl hcl l hl with h | ⟨k, hk, h⟩ | h
  · exact .inl h
  · rw [h] at ho ⊢
    exact .inr ⟨k, hk, ho, rfl⟩
  · rw [h] at ho
    exact ho.elim

/-- C84: normalization introduces no variables, also when its arithmetic overflows. -/
theorem C84_normalize {C : Canon} {p : PBC} {f : Formula} (e : p.normalize C = some f) {v : Var} (hv : Occ v f) : ∃ t ∈ p.terms, t.1.v = v :=
  normalize_vars (V := fun v => ∃ t ∈ p.terms, t.1.v = v) (fun t ht => ⟨t, ht, rfl⟩) e v hv

/-! ### Cases that meet the hypotheses -/

/-- Three constraints (see Props/Pb.lean for their being good) encoded with adder networks. -/
example : ∃ Ls w', encodeAll canon0 (exFCfg .adder true) exCons (World.fresh fun _ => 7) = some (Ls, w') ∧ Ls.length = 3 := by
  obtain ⟨Ls, w', h1, h2, _⟩ := C84_encode canon0 (exFCfg .adder true) trivial (fun _ => 7) exCons (by
    intro x hx
    simp only [exCons, List.mem_cons, List.not_mem_nil, or_false] at hx
    rcases hx with rfl | rfl | rfl
    · refine ⟨by decide, by decide, ?_⟩
      intro t ht; simp only [List.mem_cons, List.not_mem_nil, or_false] at ht; rcases ht with rfl | rfl | rfl <;> trivial
    · refine ⟨⟨by decide, by decide, by decide⟩, by decide, fun _ => by decide, ?_⟩
      intro v hv; simp only [List.mem_cons, List.not_mem_nil, or_false] at hv; rcases hv with rfl | rfl | rfl <;> trivial
    · refine ⟨by decide, by decide, ?_⟩
      intro t ht; simp only [List.mem_cons, List.not_mem_nil, or_false] at ht; rcases ht with rfl | rfl | rfl <;> trivial)
  exact ⟨Ls, w', h1, h2⟩

/-- Four of six variables with cardinality networks. -/
example : ∃ s', encodeConstraint ⟨.best, .cardNet, .cardNet, .cardNet⟩ 10 ⟨exVars, .eq, 4⟩ (cER fun _ => 3) = .ok s' := by
  obtain ⟨s', e, _⟩ := C84_encode_constraint ⟨.best, .cardNet, .cardNet, .cardNet⟩ trivial ⟨exVars, .eq, 4⟩ (fun _ => 3) 10 (by decide) (by decide)
    (by intro v hv; simp [exVars] at hv; rcases hv with rfl | rfl | rfl | rfl | rfl | rfl <;> trivial) (fun _ => by decide) (by decide)
  exact ⟨s', e⟩

/-- A pseudo-Boolean equation is normalized to a conjunction. -/
example : ((PBC.normalize canon0 ⟨[(⟨.named 0, true⟩, 3), (⟨.named 1, false⟩, -2), (⟨.named 2, true⟩, 4)], .eq, 2⟩).map fun f =>
    match f with | .nary .conj fs => fs.length | _ => 0) = some 2 := by decide +kernel

end Verif
