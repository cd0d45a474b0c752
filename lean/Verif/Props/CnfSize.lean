import Verif.F.PgSize
import Verif.Props.SatFormula
/-
C77: the sizes of the CNFs with new variables.

`N` is any list with all subformulas, other than literals, of the negation normal form; subformulas used in
several places count once.
-/
namespace Verif
open ER

/-- The number of operands. -/
def arity (f : Formula) : Nat := f.operands.length

/-- `N` has all subformulas of `f` but literals. -/
def CoversNodes (N : List Formula) (f : Formula) : Prop := ∀ k, Sub k f → k.isLit = false → k ∈ N

/-- Plaisted-Greenbaum: the clauses for a node. -/
def pgClauseNo : Formula → Nat
  | .nary .conj fs => fs.length
  | .nary .disj _ => 1
  | _ => 0

namespace Size

structure SzInv (C : Canon) (s : EncSt) : Prop where
  ts : ∀ t, s.ts = some t → TsSz C t
  pg : ∀ t, s.pg = some t → PgSz C t

theorem lazyAnd_size {C : Canon} {c0 cS ES} {run : Formula → EncSt → World → Option (Formula × EncSt × World)} (fs : List Formula)
    (hrun : ∀ f ∈ fs, ∀ s w E, WInv c0 w E → EncInv E w.cnt s → GExt cS ES w.cnt E → AlgStep c0 w E (It.wk f) (run f s w) ∧
      (SzInv C s → ∀ g s' w', run f s w = some (g, s', w') → SzInv C s')) :
    ∀ acc s w E, WInv c0 w E → EncInv E w.cnt s → GExt cS ES w.cnt E → SzInv C s →
      ∀ g s' w', lazyAnd C run fs acc s w = some (g, s', w') → SzInv C s' := by
  induction fs with
  | nil =>
    intro acc s w E h hi hx hz g s' w' e
    simp only [lazyAnd, Option.some.injEq, Prod.mk.injEq] at e
    rw [← e.2.1]; exact hz
  | cons f fs ih =>
    intro acc s w E h hi hx hz g s' w' e
    obtain ⟨⟨g1, s1, w1, E1, e1, h1, x1, i1, k1⟩, u⟩ := hrun f (by simp) s w E h hi hx
    have z1 := u hz _ _ _ e1
    simp only [lazyAnd, e1] at e
    by_cases hn : Formula.flats .conj (acc ++ [g1]) [] = none
    · rw [if_pos hn] at e
      simp only [Option.some.injEq, Prod.mk.injEq] at e
      rw [← e.2.1]; exact z1
    · rw [if_neg hn] at e
      exact ih (fun f hf => hrun f (by simp [hf])) _ s1 w1 E1 h1 i1 (hx.trans x1) z1 g s' w' e

theorem transform_size {C : Canon} {cfg : FCfg} (hcfg : cfg.cc.Good) {c0} (a : CnfAlg) : ∀ {f s w E}, WInv c0 w E → EncInv E w.cnt s →
    PTop cfg w.cnt f → SzInv C s → ∀ g s' w', a.transform C cfg f s w = some (g, s', w') → SzInv C s' := by
  induction a with
  | factorization =>
    intro f s w E h hi hp hz g s' w' e
    unfold CnfAlg.transform at e
    split at e
    · simp only [Option.some.injEq, Prod.mk.injEq] at e; rw [← e.2.1]; exact hz
    · simp only [Option.map_eq_some_iff, Prod.mk.injEq] at e
      obtain ⟨_, _, _, e, _⟩ := e
      rw [← e]; exact hz
  | tseitin b =>
    intro f s w E h hi hp hz g s' w' e
    unfold CnfAlg.transform at e
    split at e
    · simp only [Option.some.injEq, Prod.mk.injEq] at e; rw [← e.2.1]; exact hz
    · simp only [Option.map_eq_some_iff, Prod.mk.injEq] at e
      obtain ⟨⟨g1, t, w1⟩, e1, _, e, _⟩ := e
      subst e
      refine ⟨fun t' e' => ?_, hz.pg⟩
      cases hs : s.ts with
      | none => simp [hs, putSt] at e'
      | some t0 =>
        simp only [hs, putSt, Option.some.injEq] at e'
        rw [hs] at e1
        subst e'
        exact (tseitin_size hcfg h (hi.ts t0 hs) (hz.ts t0 hs) hp e1).1
  | pg b =>
    intro f s w E h hi hp hz g s' w' e
    unfold CnfAlg.transform at e
    split at e
    · simp only [Option.some.injEq, Prod.mk.injEq] at e; rw [← e.2.1]; exact hz
    · simp only [Option.map_eq_some_iff, Prod.mk.injEq] at e
      obtain ⟨⟨g1, t, w1⟩, e1, _, e, _⟩ := e
      subst e
      refine ⟨hz.ts, fun t' e' => ?_⟩
      cases hs : s.pg with
      | none => simp [hs, putSt] at e'
      | some t0 =>
        simp only [hs, putSt, Option.some.injEq] at e'
        rw [hs] at e1
        subst e'
        exact (pgCnf_size hcfg h (hi.pg t0 hs) (hz.pg t0 hs) hp e1).1
  | advanced dl cl fb ih =>
    intro f s w E h hi hp hz g s' w' e
    have single : ∀ {f s w E}, WInv c0 w E → EncInv E w.cnt s → PTop cfg w.cnt f →
        AlgStep c0 w E (It.wk f) (singleAdvanced C cfg dl cl (fb.transform C cfg) f s w) ∧
        (SzInv C s → ∀ g s' w', singleAdvanced C cfg dl cl (fb.transform C cfg) f s w = some (g, s', w') → SzInv C s') := by
      intro f s w E h hi hp
      obtain ⟨r, w1, l1, E1, e, h1, x1, k⟩ := factorize_ok (C := C) hcfg h hp .conj ⟨0, 0, some dl, some cl⟩
      unfold singleAdvanced
      rw [e]
      cases r with
      | some g =>
        refine ⟨⟨g, s, w1, E1, rfl, h1, x1, hi.mono x1, TrOk.wk (k g rfl)⟩, fun hz g' s' w' e' => ?_⟩
        simp only [Option.some.injEq, Prod.mk.injEq] at e'
        rw [← e'.2.1]; exact hz
      | none =>
        obtain ⟨g, s2, w2, E2, e2, h2, x2, i2, k2⟩ := transform_ok (C := C) hcfg fb h1 (hi.mono x1) (hp.mono x1)
        exact ⟨⟨g, s2, w2, E2, e2, h2, x1.trans x2, i2, k2⟩, fun hz => ih h1 (hi.mono x1) (hp.mono x1) hz⟩
    unfold CnfAlg.transform at e
    split at e
    · simp only [Option.some.injEq, Prod.mk.injEq] at e; rw [← e.2.1]; exact hz
    · split at e
      · rename_i fs _
        exact lazyAnd_size (c0 := c0) (cS := w.cnt) (ES := E) fs (fun f hf s w1 E1 h1 i1 x1 => by
          have hf' : f ∈ (Formula.nary .conj fs).operands := by simpa [Formula.operands] using hf
          exact single h1 i1 ((hp.op hf').mono x1)) [] s w E h hi (GExt.refl _ _) hz g s' w' e
      · exact (single h hi hp).2 hz g s' w' e

theorem reach_size {C : Canon} {cfg : FCfg} {c : AuxTy → Nat} (hcfg : cfg.cc.Good) {w es rs} (h : TReach C cfg c w es rs) : ∀ p ∈ es, SzInv C p.2 := by
  induction h with
  | fresh => simp
  | aux _ _ ih => exact ih
  | encoder a st _ ih =>
    intro p hp
    rcases List.mem_append.1 hp with hp | hp
    · exact ih p hp
    · rw [List.mem_singleton.1 hp]
      cases st
      · exact ⟨fun _ e => (nomatch e), fun _ e => (nomatch e)⟩
      · exact ⟨fun t e => by injection e with e; subst e; exact TsSz.empty _, fun t e => by injection e with e; subst e; exact PgSz.empty _⟩
  | nnf _ _ _ ih => exact ih
  | factor _ _ _ ih => exact ih
  | @cnf w es rs a s f g s' w' n h hin hes e ih =>
    intro p hp
    rcases List.mem_or_eq_of_mem_set hp with hp | rfl
    · exact ih p hp
    · obtain ⟨E, i⟩ := h.inv hcfg
      exact transform_size hcfg a i.w (i.es _ (List.mem_of_getElem? hes)) hin.top (ih _ (List.mem_of_getElem? hes)) g s' w' e

theorem sum_le_sum {α : Type} {f g : α → Nat} : ∀ l : List α, (∀ a ∈ l, f a ≤ g a) → (l.map f).sum ≤ (l.map g).sum
  | [], _ => by simp
  | a :: l, h => by
    have := sum_le_sum l fun b hb => h b (by simp [hb])
    have := h a (by simp)
    simp only [List.map_cons, List.sum_cons]; omega

theorem msum_one (g : Formula) : msum (fun _ => 1) g = (cnfCls g).length := by simp [msum]

end Size

section
variable {C : Canon} {cfg : FCfg} {c : AuxTy → Nat}

/-- **C77**, Tseitin: in any state of the factory and the encoder, for a formula whose negation normal form
`n` is no CNF and has at least as many atoms as the boundary, the result has at most `k + 1` clauses with
`3k + 1` literals in total for each node of `n` with `k` operands, and there is at most one new variable
for each node. -/
theorem C77_tseitin (hcfg : cfg.cc.Good) {w es rs} (h : TReach C cfg c w es rs) {f} (hin : Input cfg w.cnt f) {i : Nat} {b s}
    (he : es[i]? = some (CnfAlg.tseitin b, s)) (hf : ¬ IsCnf f) :
    ∃ g s' w' n w1, (CnfAlg.tseitin b).transform C cfg f s w = some (g, s', w') ∧ nnf C cfg f w = some (n, w1) ∧
      (¬ IsCnf n → b ≤ fnAtoms64.val n → ∀ N : List Formula, CoversNodes N n →
        (cnfCls g).length ≤ (N.map fun k => arity k + 1).sum ∧
        ((cnfCls g).map List.length).sum ≤ (N.map fun k => 3 * arity k + 1).sum ∧
        w'.cnt .cnf ≤ w1.cnt .cnf + N.length) := by
  obtain ⟨E, j⟩ := h.inv hcfg
  have hs := j.es _ (List.mem_of_getElem? he)
  have hz := Size.reach_size hcfg h _ (List.mem_of_getElem? he)
  obtain ⟨g, s', w', E', e, -⟩ := transform_ok (C := C) hcfg (.tseitin b) j.w hs hin.top
  obtain ⟨n, w1, E1, e1, h1, x1, k1⟩ := nnf_ok (C := C) hcfg j.w hin.top
  refine ⟨g, s', w', n, w1, e, e1, fun hn hb N hN => ?_⟩
  unfold CnfAlg.transform at e
  rw [if_neg (fun hc => hf ((isCnfF_iff hin.norm).1 hc))] at e
  simp only [Option.map_eq_some_iff, Prod.mk.injEq] at e
  obtain ⟨⟨g1, t, w2⟩, e, rfl, -, rfl⟩ := e
  have ht : TsInv E w.cnt (s.ts.getD .empty) := by
    cases hs' : s.ts with
    | none => exact TsInv.empty _ _
    | some t => exact hs.ts t hs'
  have hz' : Size.TsSz C (s.ts.getD .empty) := by
    cases hs' : s.ts with
    | none => exact Size.TsSz.empty _
    | some t => exact hz.ts t hs'
  have hnc : n.isCnfF = false := by
    cases hc : n.isCnfF with
    | false => rfl
    | true => exact absurd ((isCnfF_iff k1.norm).1 hc) hn
  obtain ⟨a1, a2⟩ := (Size.tseitin_size hcfg j.w ht hz' hin.top e).2 n w1 e1 hnc (by omega) N hN
  refine ⟨?_, ?_, a2⟩
  · rw [← Size.msum_one]
    refine le_trans (a1 _ fun _ _ _ => le_rfl) (Size.sum_le_sum N fun k _ => ?_)
    cases k <;> simp [Size.tsBound, arity, Formula.operands]
  · refine le_trans (a1 id fun _ _ h => h) (Size.sum_le_sum N fun k _ => ?_)
    cases k <;> simp [Size.tsBound, arity, Formula.operands]
    omega

/-- **C77**, Plaisted-Greenbaum: as `C77_tseitin`, with `k` clauses of two literals for a conjunction of `k`
operands, and one clause of `k + 1` literals for a disjunction. -/
theorem C77_pg (hcfg : cfg.cc.Good) {w es rs} (h : TReach C cfg c w es rs) {f} (hin : Input cfg w.cnt f) {i : Nat} {b s}
    (he : es[i]? = some (CnfAlg.pg b, s)) (hf : ¬ IsCnf f) :
    ∃ g s' w' n w1, (CnfAlg.pg b).transform C cfg f s w = some (g, s', w') ∧ nnf C cfg f w = some (n, w1) ∧
      (¬ IsCnf n → b ≤ fnAtoms64.val n → ∀ N : List Formula, CoversNodes N n →
        (cnfCls g).length ≤ (N.map pgClauseNo).sum ∧
        ((cnfCls g).map List.length).sum ≤ (N.map fun k => arity k + pgClauseNo k).sum ∧
        w'.cnt .cnf ≤ w1.cnt .cnf + N.length) := by
  obtain ⟨E, j⟩ := h.inv hcfg
  have hs := j.es _ (List.mem_of_getElem? he)
  have hz := Size.reach_size hcfg h _ (List.mem_of_getElem? he)
  obtain ⟨g, s', w', E', e, -⟩ := transform_ok (C := C) hcfg (.pg b) j.w hs hin.top
  obtain ⟨n, w1, E1, e1, h1, x1, k1⟩ := nnf_ok (C := C) hcfg j.w hin.top
  refine ⟨g, s', w', n, w1, e, e1, fun hn hb N hN => ?_⟩
  unfold CnfAlg.transform at e
  rw [if_neg (fun hc => hf ((isCnfF_iff hin.norm).1 hc))] at e
  simp only [Option.map_eq_some_iff, Prod.mk.injEq] at e
  obtain ⟨⟨g1, t, w2⟩, e, rfl, -, rfl⟩ := e
  have ht : PgInv E w.cnt (s.pg.getD .empty) := by
    cases hs' : s.pg with
    | none => exact PgInv.empty _ _
    | some t => exact hs.pg t hs'
  have hz' : Size.PgSz C (s.pg.getD .empty) := by
    cases hs' : s.pg with
    | none => exact Size.PgSz.empty _
    | some t => exact hz.pg t hs'
  have hnc : n.isCnfF = false := by
    cases hc : n.isCnfF with
    | false => rfl
    | true => exact absurd ((isCnfF_iff k1.norm).1 hc) hn
  obtain ⟨a1, a2⟩ := (Size.pgCnf_size hcfg j.w ht hz' hin.top e).2 n w1 e1 hnc (by omega) N hN
  refine ⟨?_, ?_, a2⟩
  · rw [← Size.msum_one]
    refine le_trans (a1 _ fun _ _ _ => le_rfl) (Size.sum_le_sum N fun k _ => ?_)
    rcases k with _ | _ | _ | _ | _ | _ | ⟨_ | _, _⟩ | _ | _ <;> simp [Size.pgBound, pgClauseNo]
  · refine le_trans (a1 id fun _ _ h => h) (Size.sum_le_sum N fun k _ => ?_)
    rcases k with _ | _ | _ | _ | _ | _ | ⟨_ | _, _⟩ | _ | _ <;> simp [Size.pgBound, pgClauseNo, arity, Formula.operands]
    omega

end

/-! ### Full Plaisted-Greenbaum on the solver -/

namespace Blow

def p : Formula := .lit ⟨.named 0, true⟩
def q : Formula := .lit ⟨.named 1, true⟩
/-- `~(~d & x)` -/
def arm (d x : Formula) : Formula := .not (.nary .conj [.not d, x])
/-- `d(0) = p | q`, `d(n+1) = ~(~d(n) & p) | ~(~d(n) & q)` -/
def d : Nat → Formula
  | 0 => .nary .disj [p, q]
  | n + 1 => .nary .disj [arm (d n) p, arm (d n) q]

/-- The subformulas of `d n`. -/
def nodes : Nat → List Formula
  | 0 => [d 0, p, q]
  | n + 1 => d (n + 1) :: arm (d n) p :: arm (d n) q :: .nary .conj [.not (d n), p] :: .nary .conj [.not (d n), q] :: .not (d n) :: nodes n

theorem nodes_length (n : Nat) : (nodes n).length = 6 * n + 3 := by
  induction n with
  | zero => rfl
  | succ n ih => simp only [nodes, List.length_cons, ih]; omega

theorem d_mem (n : Nat) : d n ∈ nodes n := by cases n <;> simp [nodes]

theorem pq_mem (n : Nat) : p ∈ nodes n ∧ q ∈ nodes n := by
  induction n with
  | zero => simp [nodes]
  | succ n ih => simp [nodes, ih.1, ih.2]

theorem nodes_closed (n : Nat) : ∀ f ∈ nodes n, ∀ g ∈ f.operands, g ∈ nodes n := by
  induction n with
  | zero => simp [nodes, d, p, q, Formula.operands]
  | succ n ih =>
    intro f hf g hg
    have hd := d_mem n
    have hp := pq_mem n
    simp only [nodes, List.mem_cons] at hf ⊢
    rcases hf with rfl | rfl | rfl | rfl | rfl | rfl | hf
    · simp only [d, Formula.operands, List.mem_cons, List.not_mem_nil, or_false] at hg; rcases hg with rfl | rfl <;> simp
    · simp only [arm, Formula.operands, List.mem_cons, List.not_mem_nil, or_false] at hg; subst hg; simp
    · simp only [arm, Formula.operands, List.mem_cons, List.not_mem_nil, or_false] at hg; subst hg; simp
    · simp only [Formula.operands, List.mem_cons, List.not_mem_nil, or_false] at hg; rcases hg with rfl | rfl <;> simp [hp.1]
    · simp only [Formula.operands, List.mem_cons, List.not_mem_nil, or_false] at hg; rcases hg with rfl | rfl <;> simp [hp.2]
    · simp only [Formula.operands, List.mem_cons, List.not_mem_nil, or_false] at hg; subst hg; simp [hd]
    · simp [ih f hf g hg]

theorem sub_mem {n g f} (h : Sub g f) : f ∈ nodes n → g ∈ nodes n := by
  induction h with
  | refl => exact id
  | op h1 _ ih => exact fun hf => ih (nodes_closed n _ hf _ h1)

theorem noCon (n : Nat) : NoCon (d n) := by
  have key : ∀ n, ∀ f ∈ nodes n, (∀ c, f ≠ .cc c) ∧ ∀ p, f ≠ .pbc p := by
    intro n
    induction n with
    | zero => simp [nodes, d, p, q]
    | succ n ih => simpa [nodes, d, arm] using ih
  exact fun g hg => key n g (sub_mem hg (d_mem n))

theorem d_kind (n : Nat) : ∃ fs, d n = .nary .disj fs := by cases n <;> exact ⟨_, rfl⟩

theorem d_norm (n : Nat) : (d n).Norm := by
  induction n with
  | zero =>
    refine .nary (by simp) (by simp [p, q]; exact ⟨.lit _, .lit _⟩) ⟨by decide, by decide, by simp [p, q], ?_, by simp [p, q]⟩
    simp only [p, q, List.mem_cons, List.not_mem_nil, or_false]
    rintro l (h | h) <;> (injection h with h; subst h; decide)
  | succ n ih =>
    obtain ⟨fs, hd⟩ := d_kind n
    have harm : ∀ l : Lit, (arm (d n) (.lit l)).Norm := by
      intro l
      refine .not (.nary (by simp) ?_ ⟨?_, ?_, ?_, ?_, ?_⟩) rfl rfl rfl
      · simp only [List.mem_cons, List.not_mem_nil, or_false]
        rintro f (rfl | rfl)
        · exact .not ih (by rw [hd]; rfl) (by rw [hd]; rfl) (by rw [hd]; rfl)
        · exact .lit l
      · simp
      · simp [Formula.isConst]
      · simp
      · simp only [List.mem_cons, List.not_mem_nil, or_false]
        rintro k (h | h)
        · cases h
        · injection h with h; subst h
          rintro (h | h)
          · cases h
          · injection h with h; have := congrArg Lit.pos h; rcases k with ⟨u, _ | _⟩ <;> simp [Lit.neg] at this
      · simp only [List.mem_cons, List.not_mem_nil, or_false]
        rintro k (h | h)
        · injection h with h; subst h; rw [hd]; simp
        · cases h
    refine .nary (by simp) ?_ ⟨?_, ?_, ?_, ?_, ?_⟩
    · simp only [List.mem_cons, List.not_mem_nil, or_false]
      rintro f (rfl | rfl)
      · exact harm _
      · exact harm _
    · simp [arm, p, q]
    · simp [arm, Formula.isConst]
    · simp [arm]
    · simp [arm]
    · simp only [arm, List.mem_cons, List.not_mem_nil, or_false]
      rintro k (h | h) <;> (injection h with h; subst h; simp)

theorem known (n : Nat) : ∀ v, Occ v (d n) → Known (fun _ => 7) v := by
  intro v hv
  induction n with
  | zero => simp [d, p, q] at hv; rcases hv with rfl | rfl <;> trivial
  | succ n ih =>
    simp [d, arm, p, q] at hv
    rcases hv with (h | rfl) | (h | rfl)
    · exact ih h
    · trivial
    · exact ih h
    · trivial

theorem join (n : Nat) : ∀ (top : Bool) (s : PgS), ∃ c : Clause, pgC (d n) true top s = some (some c, s) ∧ 2 ^ n ≤ c.length := by
  induction n with
  | zero => intro top s; exact ⟨[⟨.named 0, true⟩, ⟨.named 1, true⟩], by simp [d, pgC, pgJoin, p, q], by simp⟩
  | succ n ih =>
    intro top s
    obtain ⟨c, e, h⟩ := ih false s
    refine ⟨(c ++ [⟨.named 0, false⟩]) ++ (c ++ [⟨.named 1, false⟩]), ?_, ?_⟩
    · simp [d, arm, pgC, pgJoin, p, q, e, Lit.neg]
    · simp only [List.length_append, List.length_cons, List.length_nil, Nat.pow_succ]; omega

end Blow

/-- Finding 39.  `C77_pg` fails for the Plaisted-Greenbaum of the solver without negation normal form:
`d n` has at most `6n + 3` distinct subformulas, but the clause passed to the solver for it has at least
`2^n` literals. -/
theorem C77_full_pg_exponential (C : Canon) (cfg : FCfg) (n : Nat) :
    ∃ (f : Formula) (N : List Formula) (s : PgS) (cl : Clause), PgRuns C cfg true (fun _ => 7) [f] [] s ∧ (∀ g, Sub g f → g ∈ N) ∧ N.length = 6 * (n + 1) + 3 ∧ s.out = [cl] ∧ 2 ^ (n + 1) ≤ cl.length := by
  obtain ⟨cl, e, hl⟩ := Blow.join (n + 1) true ⟨fun _ => none, World.fresh fun _ => 7, []⟩
  have hnc := Blow.noCon (n + 1)
  have hcp : ((Blow.d (n + 1)).containsPbc false fun _ => none).1 = some false := by
    obtain ⟨b, h1, h2⟩ := (containsPbc_ok (on := false) .empty).2 (Blow.d (n + 1))
    cases b with
    | false => exact h1
    | true =>
      obtain ⟨g, hg, h⟩ := h2.1 rfl
      rcases h with ⟨x, rfl⟩ | ⟨x, rfl⟩
      · exact absurd rfl ((hnc _ hg).2 x)
      · exact absurd rfl ((hnc _ hg).1 x)
  have hcf : (Blow.d (n + 1)).isCnfF = false := by
    cases hc : (Blow.d (n + 1)).isCnfF with
    | false => rfl
    | true =>
      have := (isCnfF_iff (Blow.d_norm _)).1 hc
      cases this with
      | clause h =>
        cases h with
        | or h =>
          obtain ⟨l, h⟩ := h (Blow.arm (Blow.d n) Blow.p) (by simp)
          simp [Blow.arm] at h
  refine ⟨Blow.d (n + 1), Blow.nodes (n + 1), ⟨fun _ => none, World.fresh fun _ => 7, [cl]⟩, cl, ?_, fun g hg => Blow.sub_mem hg (Blow.d_mem _), Blow.nodes_length _, rfl, hl⟩
  have hin : Input cfg (fun _ => 7) (Blow.d (n + 1)) :=
    ⟨Blow.d_norm _, ⟨fun c hc => absurd rfl ((hnc _ hc).1 c), fun p hp => absurd rfl ((hnc _ hp).2 p)⟩, Blow.known _⟩
  have := PgRuns.add (C := C) (cfg := cfg) (full := true) (.new) hin (s' := ⟨fun _ => none, World.fresh fun _ => 7, [cl]⟩) (by
    simp [addCnfToSolver, hcp, hcf, e, PgS.add])
  simpa using this

/-! ### Cases -/

private theorem exT_reach (a : CnfAlg) : TReach canon0 (exFCfg .swc true) (fun _ => 7) (World.fresh fun _ => 7) [(a, .new)] [] := by
  simpa using TReach.encoder a true (.fresh (C := canon0) (cfg := exFCfg .swc true) (c := fun _ => 7))

private theorem exT_no : ¬ IsCnf exT := fun h => by
  have := (isCnfF_iff exT_input.1.norm).2 h
  exact absurd this (by decide)

private def exTn : Formula := ((nnf canon0 (exFCfg .swc true) exT (World.fresh fun _ => 7)).map fun r => r.1).getD .tru

/-- Case: both on `(~(a & b) <=> c) | (d & e & ~a)`, whose negation normal form is no CNF. -/
example : (∃ g s' w' n w1, (CnfAlg.tseitin 0).transform canon0 (exFCfg .swc true) exT .new (World.fresh fun _ => 7) = some (g, s', w') ∧
    nnf canon0 (exFCfg .swc true) exT (World.fresh fun _ => 7) = some (n, w1) ∧ ¬ IsCnf n) ∧
    ∃ g s' w' n w1, (CnfAlg.pg 0).transform canon0 (exFCfg .swc true) exT .new (World.fresh fun _ => 7) = some (g, s', w') ∧
    nnf canon0 (exFCfg .swc true) exT (World.fresh fun _ => 7) = some (n, w1) ∧ ¬ IsCnf n := by
  have hn : ∀ n w1, nnf canon0 (exFCfg .swc true) exT (World.fresh fun _ => 7) = some (n, w1) → ¬ IsCnf n := by
    intro n w1 e hc
    have hx : n = exTn := by unfold exTn; rw [e]; rfl
    obtain ⟨n', w1', E1, e1, h1, x1, k1⟩ := nnf_ok (C := canon0) (cfg := exFCfg .swc true) trivial (WInv.fresh fun _ => 7) exT_input.1.top
    rw [e] at e1
    simp only [Option.some.injEq, Prod.mk.injEq] at e1
    have := (isCnfF_iff (e1.1 ▸ k1.norm)).2 hc
    rw [hx] at this
    exact absurd this (by decide +kernel)
  obtain ⟨g, s', w', n, w1, e, e1, _⟩ := C77_tseitin (C := canon0) (cfg := exFCfg .swc true) trivial (exT_reach (.tseitin 0)) exT_input.1 (i := 0) rfl exT_no
  obtain ⟨g2, s2', w2', n2, w12, e2, e12, _⟩ := C77_pg (C := canon0) (cfg := exFCfg .swc true) trivial (exT_reach (.pg 0)) exT_input.1 (i := 0) rfl exT_no
  exact ⟨⟨g, s', w', n, w1, e, e1, hn n w1 e1⟩, g2, s2', w2', n2, w12, e2, e12, hn n2 w12 e12⟩

end Verif
