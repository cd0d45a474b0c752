import Verif.F.Count
import Verif.F.Restrict
import Verif.Props.Bdd
/-
Models of src/operations/functions/model_count.rs and src/knowledge_compilation/dnnf/dnnf_model_counting.rs, and their
correctness.  Sets of variables (`BTreeSet`) are finite sets, numbers (`BigUint`) natural numbers, `none` is a panic.
-/
namespace Verif
open ER Bdd

/-! ### Model -/

/-- `variables()`: the set computed by `fnVars` (`C17_variables`). -/
def Formula.varSet (f : Formula) : Finset Var := (fnVars.val f).toFinset

/-- `2.pow(u32::try_from(k).expect(..))`, model_count.rs 60 and 145. -/
def pow2 (k : Nat) : Option Nat := if k < 2 ^ 32 then some (2 ^ k) else none

/-- The CNF algorithm of model_count.rs 54-55 and 149-150: `AdvancedFactorizationConfig::default()`
(cnf/advanced.rs 44-48) with Tseitin as fallback. -/
def countAlg : CnfAlg := .advanced (2 ^ 64 - 1) 1000 (.tseitin 12)

/-- `count_models_with_vars`, model_count.rs 41-63.  `cf` is `count_formula`; the factory after `cf` is not modelled. -/
def countVars (C : Canon) (cfg : FCfg) (cf : Formula → World → Option Nat) (f : Formula) (R : Finset Var) (w : World) : Option (Nat × World) :=
  if ¬ f.varSet ⊆ R then none
  else if f.varSet = ∅ then some (if f = .tru then 1 else 0, w)
  else (f.pureExp C).bind fun g => (countAlg.transform C cfg g .new w).bind fun r => (cf r.1 r.2.2).bind fun n =>
    (pow2 (R \ r.1.varSet).card).map fun k => (n * k, r.2.2)

/-- `count_models`, model_count.rs 34-36. -/
def countModels (C : Canon) (cfg : FCfg) (cf : Formula → World → Option Nat) (f : Formula) (w : World) : Option (Nat × World) :=
  countVars C cfg cf f f.varSet w

/-- `encode_as_cnf`, model_count.rs 148-153, with the encoder's state. -/
def cnfAll (C : Canon) (cfg : FCfg) : List Formula → EncSt → World → Option (List Formula × EncSt × World)
  | [], s, w => some ([], s, w)
  | f :: fs, s, w => (f.pureExp C).bind fun g => (countAlg.transform C cfg g s w).bind fun r =>
    (cnfAll C cfg fs r.2.1 r.2.2).map fun q => (r.1 :: q.1, q.2)

/-- `Assignment::add_literal`, assignment.rs. -/
def PAsg.addLit (A : PAsg) (l : Lit) : PAsg := if l.pos then { A with pos := l.v :: A.pos } else { A with neg := l.v :: A.neg }

/-- The first loop of `simplify`, model_count.rs 156-163. -/
def units : List Formula → PAsg × Finset Var → PAsg × Finset Var
  | [], r => r
  | .lit l :: gs, r => units gs (r.1.addLit l, insert l.v r.2)
  | _ :: gs, r => units gs r

/-- The second loop of `simplify`, model_count.rs 164-170. -/
def restrictAll (C : Canon) (A : PAsg) : List Formula → Option (List Formula)
  | [] => some []
  | g :: gs => (g.restrict C A).bind fun h => (restrictAll C A gs).map fun hs => if h = .tru then hs else h :: hs

/-- `variables` of several formulas, model_count.rs 67-70 and 140-143. -/
def varsOf (fs : List Formula) (b : Finset Var) : Finset Var := fs.foldl (fun b f => b ∪ f.varSet) b

/-- `count_models_internal`, model_count.rs 90-109, with `count`, `dont_care_factor` and `simplify`. -/
def countConjVars (C : Canon) (cfg : FCfg) (cf : Formula → World → Option Nat) (fs : List Formula) (R : Finset Var) (w : World) : Option (Nat × World) :=
  if ¬ varsOf fs ∅ ⊆ R then none
  else if varsOf fs ∅ = ∅ then some (if ∀ f ∈ fs, f = .tru then 1 else 0, w)
  else (cnfAll C cfg fs .new w).bind fun r =>
    let u := units r.1 (⟨[], []⟩, ∅)
    (restrictAll C u.1 r.1).bind fun hs => (cf (Formula.mkAnd C hs) r.2.2).bind fun n =>
      (pow2 (R \ varsOf hs u.2).card).map fun k => (n * k, r.2.2)

/-- `count_models_conjunction`, model_count.rs 66-72. -/
def countConj (C : Canon) (cfg : FCfg) (cf : Formula → World → Option Nat) (fs : List Formula) (w : World) : Option (Nat × World) :=
  countConjVars C cfg cf fs (varsOf fs ∅) w

/-- `count_formula` for `ModelCountAlgorithm::Bdd`, model_count.rs 121-124.  `ord` is the
variable ordering; `forceCount` in Props/Order.lean has `force_ordering` itself. -/
def bddCount (C : Canon) (cfg : FCfg) (ord : Formula → List Var) (size csize : Nat) (grow : Nat → Nat → Nat) (f : Formula) (w : World) : Option Nat :=
  (Kernel.newOrd (ord f) size csize grow).bind fun k => (build C cfg nop f ⟨k, w, 0⟩).bind fun p => p.1.bind fun x =>
    (p.2.k.satCount x).map (·.1)

mutual
/-- `count_rec`, dnnf_model_counting.rs 20-39.  The cache, which holds results of `count_rec` itself, is left out. -/
def Formula.dnnfCount : Formula → Option Nat
  | .fls => some 0
  | .tru => some 1
  | .lit _ => some 1
  | .nary .conj fs => dnnfProd fs
  | .nary .disj fs => dnnfSum (Formula.nary .disj fs).varSet.card fs
  | _ => none
/-- The product in line 28. -/
def dnnfProd : List Formula → Option Nat
  | [] => some 1
  | f :: fs => (f.dnnfCount).bind fun a => (dnnfProd fs).map fun b => a * b
/-- The sum in line 31 with `handle_or_op`, lines 41-46. -/
def dnnfSum (n : Nat) : List Formula → Option Nat
  | [] => some 0
  | f :: fs => (f.dnnfCount).bind fun a => (dnnfSum n fs).map fun b => 2 ^ (n - f.varSet.card) * a + b
end

/-- `count`, dnnf_model_counting.rs 12-18. -/
def dnnfCountOver (orig : Finset Var) (f : Formula) : Option Nat := f.dnnfCount.map fun n => n * 2 ^ (orig \ f.varSet).card

/-! ### Preliminaries -/

theorem mem_varSet {f : Formula} {v : Var} : v ∈ f.varSet ↔ Occ v f := by
  unfold Formula.varSet; rw [List.mem_toFinset]; exact (vars_val f).1 v

theorem dep_varSet (f : Formula) : DepOn f.varSet f.eval := fun σ τ h => Formula.eval_congr fun v hv => h v (mem_varSet.2 hv)

theorem mem_varsOf {fs : List Formula} : ∀ {b : Finset Var} {v}, v ∈ varsOf fs b ↔ v ∈ b ∨ ∃ f ∈ fs, Occ v f := by
  unfold varsOf
  induction fs with
  | nil => simp
  | cons f fs ih => intro b v; rw [List.foldl_cons, ih]; simp [mem_varSet, or_assoc]

theorem pow2_some {k : Nat} (h : k < 2 ^ 32) : pow2 k = some (2 ^ k) := if_pos h

/-! ### Counting d-DNNFs -/

/-- Deterministic decomposable negation normal form (specification). -/
inductive Ddnnf : Formula → Prop
  | tru : Ddnnf .tru
  | fls : Ddnnf .fls
  | lit (l) : Ddnnf (.lit l)
  | and {fs} : (∀ f ∈ fs, Ddnnf f) → fs.Pairwise (fun f g => ∀ v, ¬ (Occ v f ∧ Occ v g)) → Ddnnf (.nary .conj fs)
  | or {fs} : (∀ f ∈ fs, Ddnnf f) → fs.Pairwise (fun f g => ∀ σ, ¬ (f.eval σ = true ∧ g.eval σ = true)) → Ddnnf (.nary .disj fs)

theorem dnnfProd_ok {fs : List Formula} (h : ∀ f ∈ fs, f.dnnfCount = some (modelsOver f.varSet f).card)
    (hd : fs.Pairwise (fun f g => ∀ v, ¬ (Occ v f ∧ Occ v g))) :
    dnnfProd fs = some (satOver (varsOf fs ∅) fun σ => fs.all fun f => f.eval σ).card := by
  induction fs with
  | nil => simp [dnnfProd, varsOf, satOver]
  | cons f fs ih =>
    rw [List.pairwise_cons] at hd
    have hu : varsOf (f :: fs) ∅ = f.varSet ∪ varsOf fs ∅ := by ext v; simp [mem_varsOf, mem_varSet]
    have e := card_satOver_and (V := f.varSet) (W := varsOf fs ∅) (P := f.eval) (Q := fun σ => fs.all fun f => f.eval σ) (dep_varSet f)
      (fun σ τ h => by
        rw [Bool.eq_iff_iff, List.all_eq_true, List.all_eq_true]
        refine forall_congr' fun g => forall_congr' fun hg => ?_
        rw [Formula.eval_congr fun v hv => h v (mem_varsOf.2 (.inr ⟨g, hg, hv⟩))])
      (by
        rw [Finset.disjoint_left]
        intro v hv hw
        rcases mem_varsOf.1 hw with hw | ⟨g, hg, hw⟩
        · simp at hw
        · exact hd.1 g hg v ⟨mem_varSet.1 hv, hw⟩)
    simp only [dnnfProd, h f (by simp), ih (fun g hg => h g (by simp [hg])) hd.2, Option.bind_some, Option.map_some, Option.some.injEq]
    rw [hu]
    simp only [List.all_cons]
    rw [e, modelsOver_eq]

theorem dnnfSum_ok {V : Finset Var} {fs : List Formula} (h : ∀ f ∈ fs, f.dnnfCount = some (modelsOver f.varSet f).card)
    (hV : ∀ f ∈ fs, f.varSet ⊆ V) (hd : fs.Pairwise (fun f g => ∀ σ, ¬ (f.eval σ = true ∧ g.eval σ = true))) :
    dnnfSum V.card fs = some (satOver V fun σ => fs.any fun f => f.eval σ).card := by
  induction fs with
  | nil => simp [dnnfSum, satOver]
  | cons f fs ih =>
    rw [List.pairwise_cons] at hd
    have e := card_satOver_or (V := V) (P := f.eval) (Q := fun σ => fs.any fun f => f.eval σ) (fun σ ⟨h1, h2⟩ => by
      obtain ⟨g, hg, h2⟩ := List.any_eq_true.1 h2
      exact hd.1 g hg σ ⟨h1, h2⟩)
    simp only [dnnfSum, h f (by simp), ih (fun g hg => h g (by simp [hg])) (fun g hg => hV g (by simp [hg])) hd.2, Option.bind_some,
      Option.map_some, Option.some.injEq, List.any_cons]
    rw [e, card_satOver_free (dep_varSet f) (hV f (by simp)), modelsOver_eq, Finset.card_sdiff_of_subset (hV f (by simp)), Nat.mul_comm]

theorem dnnfCount_ok {f : Formula} (h : Ddnnf f) : f.dnnfCount = some (modelsOver f.varSet f).card := by
  have he : ∀ f : Formula, (∀ v, ¬ Occ v f) → f.varSet = ∅ := fun f h => by
    ext v; simp [mem_varSet, h v]
  induction h with
  | tru => simp only [Formula.dnnfCount, modelsOver_eq]; rw [he _ (by simp), card_satOver_true _ (by simp)]
  | fls => simp only [Formula.dnnfCount, modelsOver_eq]; rw [satOver_false (by simp)]; rfl
  | lit l =>
    simp only [Formula.dnnfCount, modelsOver_eq, Option.some.injEq]
    have e : (Formula.lit l).varSet = {l.v} := by ext v; simp [mem_varSet, eq_comm]
    rw [e]
    have : satOver {l.v} (Formula.lit l).eval = {if l.pos then {l.v} else ∅} := by
      ext A
      rw [mem_satOver, Finset.subset_singleton_iff, Finset.mem_singleton, Formula.eval_lit]
      rcases l with ⟨v, p⟩
      cases p
      · simp only [Lit.eval]
        constructor
        · rintro ⟨rfl | rfl, h⟩ <;> simp_all
        · simp +contextual
      · simp only [Lit.eval]
        constructor
        · rintro ⟨rfl | rfl, h⟩ <;> simp_all
        · simp +contextual
    rw [this, Finset.card_singleton]
  | @and fs _ hd ih =>
    simp only [Formula.dnnfCount]
    rw [dnnfProd_ok ih hd]
    have : varsOf fs ∅ = (Formula.nary .conj fs).varSet := by ext v; rw [mem_varsOf, mem_varSet, Formula.occ_nary]; simp
    rw [this, modelsOver_eq]
    congr 2
    refine satOver_congr fun σ => ?_
    rw [Formula.eval_nary]; rfl
  | @or fs _ hd ih =>
    simp only [Formula.dnnfCount]
    rw [dnnfSum_ok ih (fun f hf v hv => mem_varSet.2 ((Formula.occ_nary ..).2 ⟨f, hf, mem_varSet.1 hv⟩)) hd]
    rw [modelsOver_eq]
    congr 2
    refine satOver_congr fun σ => ?_
    rw [Formula.eval_nary]; rfl

end Verif
