import Verif.F.OrderOk
import Verif.Props.Count
import Verif.F.F64
/-
C59: the variable orderings for BDDs list every variable of the formula exactly once.
-/
namespace Verif
open ER Bdd
open VarOrd hiding weight weights

section
variable {C : Canon} {cfg : FCfg} {c : AuxTy → Nat}

/-- **C59**: the DFS ordering lists exactly the variables of the formula, each once, by first occurrence from left to
right. -/
theorem C59_dfs (f : Formula) :
    (VarOrd.dfs f).Nodup ∧ (∀ v, v ∈ VarOrd.dfs f ↔ Occ v f) ∧ (VarOrd.dfs f).Pairwise fun u v => (occList f).idxOf u < (occList f).idxOf v :=
  ⟨nodup_dfs f, fun _ => mem_dfs, by rw [dfs_eq]; exact firsts_sorted _⟩

/-- **C59**: `bfs_ordering` ends and lists exactly the variables of the formula, each once; a variable occurs no deeper
than the variables listed after it. -/
theorem C59_bfs (f : Formula) : ∃ r, bfs f = some r ∧ r.Nodup ∧ (∀ v, v ∈ r ↔ Occ v f) ∧
    r.Pairwise fun u v => ∀ n, At v n f → ∃ m ≤ n, At u m f := by
  obtain ⟨d, e, hd⟩ := bfs_run [f] (VarOrd.weight f) [] (by simp [VarOrd.weights])
  refine ⟨_, e, nodup_foldl_add _ .nil, fun v => ?_, ?_⟩
  · rw [mem_foldl_add, hd]
    constructor
    · rintro (h | ⟨n, g, hg, h⟩)
      · simp at h
      · obtain rfl := List.mem_singleton.1 hg; exact at_occ h
    · intro h
      obtain ⟨n, h⟩ := occ_at h
      exact .inr ⟨n, f, by simp, h⟩
  · refine List.Pairwise.imp_of_mem ?_ (firsts_sorted (levelVars d [f]))
    intro u v hu _ hlt n hn
    have hu' : u ∈ levelVars d [f] := by rw [mem_foldl_add] at hu; simpa using hu
    obtain ⟨m, hm, g, hg, h⟩ := levels_le d [f] hu' hlt ⟨f, by simp, hn⟩
    obtain rfl := List.mem_singleton.1 hg
    exact ⟨m, hm, h⟩

/-- **C59**: `min_to_max_ordering` (`rev = false`) and `max_to_min_ordering` (`rev = true`) do not panic and list exactly
the variables of the formula, each once, by number of occurrences; variables that occur equally often are in the order of
their first occurrence. -/
theorem C59_occurrence (rev : Bool) {it : List Var → List Var} (hit : ∀ l, (it l).Perm l) (f : Formula) :
    ∃ r, occSort rev it f = some r ∧ r.Nodup ∧ (∀ v, v ∈ r ↔ Occ v f) ∧
      r.Pairwise fun u v => (if rev then (occList f).count v < (occList f).count u else (occList f).count u < (occList f).count v) ∨
        (occList f).count u = (occList f).count v ∧ (occList f).idxOf u < (occList f).idxOf v :=
  occSort_ok rev hit f

/-- **C59**: they do not depend on the iteration order of the hash map. -/
theorem C59_occurrence_unique (rev : Bool) {it it' : List Var → List Var} (hit : ∀ l, (it l).Perm l) (hit' : ∀ l, (it' l).Perm l) (f : Formula) :
    occSort rev it f = occSort rev it' f := by
  obtain ⟨r, e, h1, h2, h3⟩ := occSort_ok rev hit f
  obtain ⟨r', e', h1', h2', h3'⟩ := occSort_ok rev hit' f
  rw [e, e', before_unique h3 h3' ((List.perm_ext_iff_of_nodup h1 h1').2 fun v => by rw [h2, h2'])]

/-- **C59** for `force_ordering`, with any rounding of the floating point operations: it does not panic, and if it ends it
lists every variable of the formula, each once, and for a formula without constraints no others.  Missing: that it ends;
`C59_force_endless` is a formula for which it does not. -/
theorem C59_force_partial (hcfg : cfg.cc.Good) {w es rs} (h : TReach C cfg c w es rs) {f : Formula} (hin : Input cfg w.cnt f) (alg : CnfAlg)
    {srt : List Var → List Var} (hs : ∀ l, (srt l).Perm l) (fl : Rat → Rat) (fuel : Nat) :
    force C cfg alg srt fl fuel f w = .fuel ∨
      ∃ vs w' es' rs', force C cfg alg srt fl fuel f w = .ok (vs, w') ∧ TReach C cfg c w' es' rs' ∧ (∀ t, w.cnt t ≤ w'.cnt t) ∧ vs.Nodup ∧
        (∀ v, Occ v f → v ∈ vs) ∧ (NoCon f → ∀ v ∈ vs, Occ v f) := by
  obtain ⟨E, i⟩ := h.inv hcfg
  obtain ⟨g, w1, E1, e1, h1, x1, k1⟩ := nnf_ok (C := C) hcfg i.w hin.top
  have hr1 : TReach C cfg c w1 (es ++ [(alg, .stateless)]) ((f, g) :: rs) := .encoder alg false (.nnf h hin e1)
  have hin1 : Input cfg w1.cnt g := ⟨k1.norm, isNnf_fit k1.shape, fun v hv => known_iff.2 (k1.old v hv)⟩
  obtain ⟨q, s', w2, E2, e2, h2, x2, i2, k2⟩ := transform_ok (C := C) hcfg alg h1 (EncInv.stateless _ _) hin1.top
  have hr2 := TReach.cnf es.length hr1 hin1 (by simp) e2
  obtain ⟨G, e3, hG, hm⟩ := ofCnf_ok hs k2.shape k2.norm
  have ho : ∀ v, v ∈ srt (setExt (fnVars.val f) (fnVars.val g)) ↔ Occ v f ∨ Occ v g := fun v => by
    rw [(hs _).mem_iff, mem_setExt, (vars_val f).1, (vars_val g).1]
  have hnd : (srt (setExt (fnVars.val f) (fnVars.val g))).Nodup := (hs _).nodup_iff.2 (nodup_setExt (vars_val f).2)
  unfold force
  rw [e1]
  simp only
  rw [e2]
  simp only
  rw [e3]
  simp only
  rcases hyper_force_ok hG hm fl hnd fuel with e | ⟨vs, e, hp⟩
  · left; rw [e]
  · right
    rw [e]
    refine ⟨vs, w2, _, _, rfl, hr2, fun t => Nat.le_trans (x1.le t) (x2.le t), hp.nodup_iff.2 hnd, fun v hv => hp.mem_iff.2 ((ho v).2 (.inl hv)), fun hc v hv => ?_⟩
    rcases (ho v).1 (hp.mem_iff.1 hv) with h | h
    · exact h
    · exact k1.vars hc v h

/-! ### Counting models -/

/-- `count_formula` for `ModelCountAlgorithm::Bdd`, model_count.rs 121-124, with `force_ordering`. -/
def forceCount (C : Canon) (cfg : FCfg) (alg : CnfAlg) (srt : List Var → List Var) (fl : Rat → Rat) (fuel : Nat) (size csize : Nat) (grow : Nat → Nat → Nat)
    (f : Formula) (w : World) : Option Nat :=
  match force C cfg alg srt fl fuel f w with
  | .ok (vs, w') => bddCount C cfg (fun _ => vs) size csize grow f w'
  | _ => none

theorem forceCount_ok (hcfg : cfg.cc.Good) (alg : CnfAlg) {srt : List Var → List Var} (hs : ∀ l, (srt l).Perm l) (fl : Rat → Rat) (fuel : Nat) {size csize : Nat}
    {grow : Nat → Nat → Nat} (hz : 3 ≤ size) (hg : ∀ g n, n < grow g n) {w es rs g} (h : TReach C cfg c w es rs) (hn : g.Norm) (hc : NoCon g)
    (hk : ∀ v, Occ v g → Known w.cnt v) :
    force C cfg alg srt fl fuel g w = .fuel ∨ forceCount C cfg alg srt fl fuel size csize grow g w = some (modelsOver g.varSet g).card := by
  rcases C59_force_partial (C := C) hcfg h ⟨hn, fit_noCon hc, hk⟩ alg hs fl fuel with e | ⟨vs, w', es', rs', e, h', hle, o1, o2, o3⟩
  · exact .inl e
  · right
    unfold forceCount
    rw [e]
    have := bddCount_val (C := C) (c := c) hcfg (ord := fun f => if f = g then vs else fnVars.val f) (fun f => by
      by_cases hf : f = g
      · subst hf; simp only [if_pos]; exact ⟨o1, fun v => ⟨o3 hc v, o2 v⟩⟩
      · simp only [if_neg hf]; exact ⟨(vars_val f).2, (vars_val f).1⟩) (size := size) (csize := csize) hz hg w' es' rs' g h' hn hc (fun v hv => (hk v hv).mono hle)
    rw [← this]
    unfold bddCount
    simp

/-- **C46** for `count_models` with BDDs and the FORCE ordering: a result is the number of models. -/
theorem C46_force_partial (hcfg : cfg.cc.Good) {w es rs} (h : TReach C cfg c w es rs) (alg : CnfAlg) {srt : List Var → List Var} (hs : ∀ l, (srt l).Perm l)
    (fl : Rat → Rat) (fuel : Nat) {size csize : Nat} {grow : Nat → Nat → Nat} (hz : 3 ≤ size) (hg : ∀ g n, n < grow g n)
    {f : Formula} (hone : OneCons f) (hv : ∃ v, Occ v f) (hk : ∀ v, Occ v f → Known c v) (hsz : f.varSet.card < 2 ^ 32) {n w'}
    (e : countModels C cfg (forceCount C cfg alg srt fl fuel size csize grow) f w = some (n, w')) : n = (modelsOver f.varSet f).card := by
  let cf : Formula → World → Option Nat := fun g w => some ((forceCount C cfg alg srt fl fuel size csize grow g w).getD (modelsOver g.varSet g).card)
  have hcf : Counts C cfg c cf := by
    intro w es rs g h hn hc _ hk
    simp only [cf]
    rcases forceCount_ok (C := C) (c := c) (csize := csize) hcfg alg hs fl fuel hz hg h hn hc hk with e | e
    · unfold forceCount; rw [e]; rfl
    · rw [e]; rfl
  obtain ⟨w1, _, _, e1, _⟩ := C46_count_partial hcfg h hcf hone hv hk hsz
  have : countModels C cfg cf f w = some (n, w') := by
    unfold countModels countVars at e ⊢
    split at e
    · cases e
    · rename_i h1
      rw [if_neg h1]
      split at e
      · rename_i h2; rw [if_pos h2]; exact e
      · rename_i h2
        rw [if_neg h2]
        cases e3 : f.pureExp C with
        | none => rw [e3] at e; cases e
        | some g =>
          rw [e3, Option.bind_some] at e
          rw [Option.bind_some]
          cases e4 : countAlg.transform C cfg g .new w with
          | none => rw [e4] at e; cases e
          | some r =>
            rw [e4, Option.bind_some] at e
            rw [Option.bind_some]
            cases e5 : forceCount C cfg alg srt fl fuel size csize grow r.1 r.2.2 with
            | none => rw [e5] at e; cases e
            | some k =>
              rw [e5] at e
              simp only [cf, e5, Option.getD_some]
              exact e
  rw [this] at e1
  injection e1 with e1
  exact congrArg Prod.fst e1

/-! ### FORCE may run forever -/

/-- The order of `Variable`: named variables by number. -/
def varKey : Var → Nat × Nat
  | .named n => (0, n)
  | .aux t n => (match t with | .cnf => 1 | .cc => 2 | .pb => 3 | .tmp => 4, n)

/-- Iteration of a `BTreeSet<Variable>`. -/
def srtV (l : List Var) : List Var := l.insertionSort fun a b => (varKey a).1 < (varKey b).1 ∨ (varKey a).1 = (varKey b).1 ∧ (varKey a).2 ≤ (varKey b).2

theorem srtV_perm (l : List Var) : (srtV l).Perm l := List.perm_insertionSort _ l

/-- `x0 | x2 | …` -/
def posClause (l : List Nat) : Formula := .nary .disj (l.map fun i => .lit ⟨.named i, true⟩)

/-- `(a | b) & (a | c | d) & (c | e | f) & (b | f) & (a | c | e) & (f | g) & (c | d | g) & (b | c | e)`. -/
def exEndless : Formula := .nary .conj ([[0, 1], [0, 2, 3], [2, 4, 5], [1, 5], [0, 2, 4], [5, 6], [2, 3, 6], [1, 2, 4]].map posClause)

/-- It is its own negation normal form and CNF. -/
theorem endless_cnf (alg : CnfAlg) (w : World) : nnf C cfg exEndless w = some (exEndless, w) ∧ alg.transform C cfg exEndless .stateless w = some (exEndless, .stateless, w) := by
  have hc : exEndless.isCnfF = true := by decide
  constructor
  · have hh : w.nnfHit exEndless = some exEndless := by
      unfold World.nnfHit
      exact if_pos (.inr (.inl hc))
    unfold nnf exEndless
    unfold nnfG nnfMemo
    rw [if_pos rfl]
    show (match w.nnfHit exEndless with | some g => some (g, w) | none => _) = _
    rw [hh]
    rfl
  · cases alg <;> (unfold CnfAlg.transform; rw [if_pos hc])

/-- Its hypergraph. -/
def exHyper : Hyper :=
  ⟨[(.named 0, [0, 1, 4]), (.named 1, [0, 3, 7]), (.named 2, [1, 2, 4, 6, 7]), (.named 3, [1, 6]), (.named 4, [2, 4, 7]), (.named 5, [2, 3, 5]), (.named 6, [5, 6])],
    [[0, 1], [0, 2, 3], [2, 4, 5], [1, 5], [0, 2, 4], [5, 6], [2, 3, 6], [1, 2, 4]]⟩

theorem exHyper_eq : Hyper.ofCnf srtV exEndless = some exHyper := by decide +kernel

/-- **C59** fails for `force_ordering`: on a formula of eight clauses with positive literals of seven variables it runs
forever, in every state of the factory.  The locations of three nodes are equal, but differ after rounding, in two orderings
in turn. -/
theorem C59_force_endless (alg : CnfAlg) (w : World) (fuel : Nat) : force C cfg alg srtV f64 fuel exEndless w = .fuel := by
  obtain ⟨e1, e2⟩ := endless_cnf (C := C) (cfg := cfg) alg w
  have e3 : exHyper.initial exEndless = some [0, 1, 2, 3, 4, 5, 6] := by decide +kernel
  have s1 : exHyper.step f64 [0, 1, 2, 3, 4, 5, 6] = some [0, 1, 4, 2, 3, 5, 6] := by decide +kernel
  have s2 : exHyper.step f64 [0, 1, 4, 2, 3, 5, 6] = some [0, 1, 2, 3, 4, 5, 6] := by decide +kernel
  have e4 := (loop_cycle s1 s2 (by decide) fuel).1
  unfold force
  rw [e1]
  simp only
  rw [e2]
  simp only
  rw [exHyper_eq]
  simp only
  unfold Hyper.force
  rw [e3]
  simp only
  rw [e4]

/-- **C59**: without rounding errors the first ordering is the final one. -/
theorem C59_force_exact (alg : CnfAlg) (w : World) : force C cfg alg srtV id 1 exEndless w = .ok ([0, 1, 2, 3, 4, 5, 6].map .named, w) := by
  obtain ⟨e1, e2⟩ := endless_cnf (C := C) (cfg := cfg) alg w
  have e4 : exHyper.force id exEndless (srtV (setExt (fnVars.val exEndless) (fnVars.val exEndless))) 1 = .ok ([0, 1, 2, 3, 4, 5, 6].map .named) := by decide +kernel
  unfold force
  rw [e1]
  simp only
  rw [e2]
  simp only
  rw [exHyper_eq]
  simp only
  rw [e4]

/-- **C46** fails with BDDs: counting the models of this formula does not end. -/
theorem C46_bdd_endless (alg : CnfAlg) (w : World) (fuel size csize : Nat) (grow : Nat → Nat → Nat) :
    countModels canon0 cfg (forceCount canon0 cfg alg srtV f64 fuel size csize grow) exEndless w = none := by
  have e1 : exEndless.pureExp canon0 = some exEndless := by decide +kernel
  have e2 : countAlg.transform canon0 cfg exEndless .new w = some (exEndless, .new, w) := by
    unfold countAlg CnfAlg.transform; rw [if_pos (by decide)]
  have e3 : forceCount canon0 cfg alg srtV f64 fuel size csize grow exEndless w = none := by unfold forceCount; rw [C59_force_endless]
  unfold countModels countVars
  rw [if_neg (by simp), if_neg (by decide +kernel), e1, Option.bind_some, e2, Option.bind_some, e3]
  rfl

/-- The list of a result. -/
def outVars : VarOrd.Out (List Var × World) → Option (List Var)
  | .ok p => some p.1
  | _ => none

/-- **C59**: on a formula with constraints `force_ordering` may list variables that are not in the formula, auxiliary ones
of the encoding of a constraint. -/
theorem C59_force_auxiliary : ∃ (f : Formula) (vs : List Var) (w' : World), Input (exFCfg .swc true) (fun _ => 7) f ∧
    force canon0 (exFCfg .swc true) (.advanced 1000 1000 (.tseitin 12)) srtV f64 100 f (World.fresh fun _ => 7) = .ok (vs, w') ∧ ∃ v ∈ vs, ¬ Occ v f := by
  have e : (outVars (force canon0 (exFCfg .swc true) (.advanced 1000 1000 (.tseitin 12)) srtV f64 100 exTc (World.fresh fun _ => 7))).any (fun vs => vs.any fun v => v ∉ fnVars.val exTc) = true := by
    decide +kernel
  cases e1 : force canon0 (exFCfg .swc true) (.advanced 1000 1000 (.tseitin 12)) srtV f64 100 exTc (World.fresh fun _ => 7) with
  | ok p =>
    rw [e1] at e
    simp only [outVars, Option.any_some, List.any_eq_true, decide_eq_true_eq] at e
    obtain ⟨v, hv, hn⟩ := e
    exact ⟨exTc, p.1, p.2, exTc_input, e1, v, hv, fun h => hn (((vars_val _).1 v).2 h)⟩
  | panic => rw [e1] at e; simp [outVars] at e
  | fuel => rw [e1] at e; simp [outVars] at e

end

/-! ### The hypotheses are met -/

/-- `(A => ~B) & ((A & C) | (D & ~C)) & (A | Y | X) & (Y <=> (X | (W + A + F < 1)))`, the formula of the tests of the
orderings; the variables are numbered A, B, C, D, Y, X, W, F. -/
def exOrd : Formula := .nary .conj [.impl (.lit ⟨.named 0, true⟩) (.lit ⟨.named 1, false⟩),
  .nary .disj [.nary .conj [.lit ⟨.named 0, true⟩, .lit ⟨.named 2, true⟩], .nary .conj [.lit ⟨.named 3, true⟩, .lit ⟨.named 2, false⟩]],
  posClause [0, 4, 5], .equiv (.lit ⟨.named 4, true⟩) (.nary .disj [.lit ⟨.named 5, true⟩, .cc ⟨[.named 6, .named 0, .named 7], .lt, 1⟩])]

/-- The orderings that the tests of the repository expect, bfs_ordering.rs 77-83, dfs_ordering.rs 69-75,
occurrence_ordering.rs 79-87. -/
example : bfs exOrd = some ([0, 4, 5, 1, 2, 3, 6, 7].map .named) ∧ VarOrd.dfs exOrd = [0, 1, 2, 3, 4, 5, 6, 7].map .named ∧
    minToMax List.reverse exOrd = some ([1, 3, 6, 7, 2, 4, 5, 0].map .named) ∧ maxToMin id exOrd = some ([0, 2, 4, 5, 1, 3, 6, 7].map .named) ∧
    (∀ l : List Var, l.reverse.Perm l) := by
  refine ⟨by decide +kernel, by decide +kernel, by decide +kernel, by decide +kernel, fun l => l.reverse_perm⟩

/-- `(~A | ~B) & (D | A) & (~C | A) & (D | C) & (A | Y | X) & (~W | ~Y | X) & (~A | ~Y | X) & (~F | ~Y | X) & (~X | Y) & (W | A | F | Y)`;
the variables are numbered A, B, D, C, Y, X, W, F. -/
def exForce : Formula := .nary .conj ([[(0, false), (1, false)], [(2, true), (0, true)], [(3, false), (0, true)], [(2, true), (3, true)],
  [(0, true), (4, true), (5, true)], [(6, false), (4, false), (5, true)], [(0, false), (4, false), (5, true)], [(7, false), (4, false), (5, true)],
  [(5, false), (4, true)], [(6, true), (0, true), (7, true), (4, true)]].map fun l => .nary .disj (l.map fun p => .lit ⟨.named p.1, p.2⟩))

/-- FORCE does end on most formulas; the ordering that the test in force_ordering.rs 128-133 expects, B, D, C, A, X, Y, W, F. -/
example : outVars (force canon0 (exFCfg .swc true) (.advanced 1000 1000 (.tseitin 12)) srtV f64 10 exForce (World.fresh fun _ => 0)) =
    some ([1, 2, 3, 0, 5, 4, 6, 7].map .named) ∧ (countModels canon0 exB (forceCount canon0 exB countAlg srtV f64 10 50 50 growR) exForce (World.fresh fun _ => 0)).isSome = true ∧
    TReach canon0 (exFCfg .swc true) (fun _ => 7) (World.fresh fun _ => 7) [] [] := by
  refine ⟨by decide +kernel, by decide +kernel, .fresh⟩

end Verif
