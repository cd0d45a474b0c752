import Verif.F.PbSmall
import Verif.F.Leaves
import Verif.F.Funcs
import Verif.Enc.PbMerge2
import Verif.Props.Card
/-
Model of src/pseudo_booleans/pb_encoder.rs and of the cached `encode` functions of
constraints, src/formulas/pbc_cc.rs.
-/
namespace Verif
open ER

/-- `PbAlgorithm`, src/pseudo_booleans/pb_config.rs:3-18. -/
inductive PbAlg | swc | binaryMerge | adder | best
  deriving DecidableEq, Repr

/-- `PbConfig`, src/pseudo_booleans/pb_config.rs:20-40. -/
structure PbCfg where
  alg : PbAlg
  bm : BmCfg

/-- The parts of `FormulaFactoryConfig` and `CacheConfig` (src/formulas/cache_config.rs:10-60)
the modelled operations read. -/
structure FCfg where
  cc : CcCfg
  pb : PbCfg
  cCc : Bool
  cPbc : Bool
  cNnf : Bool
  cIsNnf : Bool
  cIsDnf : Bool
  cCnf : Bool
  cDnf : Bool

/-- The mutable parts of the factory the modelled operations use: the counters of auxiliary
variables and the operation caches `cc_encoding`, `pbc_encoding`, `nnf`, `is_nnf`, `is_dnf`,
`factorization_cnf`, `factorization_dnf` (src/formulas/formula_factory_caches).  Encoded
constraints are kept as clause lists (the clause formulas are `mkClause`; the falsum returned
for unsatisfiable constraints is the empty clause). -/
structure World where
  cnt : AuxTy → Nat
  ccEnc : CC → Option (List Clause)
  pbcEnc : PBC → Option (List Clause)
  nnf : Memo Formula
  isNnf : Memo Bool
  isDnf : Memo Bool
  cnfF : Memo Formula
  dnfF : Memo Formula

/-- An encoding result without clauses, with the given counters. -/
def cER (c : AuxTy → Nat) : ER := ⟨c, []⟩

/-- `insert` of the encoding caches: an existing entry is kept. -/
def insKeep {α β} [DecidableEq α] (m : α → Option β) (a : α) (b : β) : α → Option β :=
  fun x => if x = a then some ((m a).getD b) else m x

/-- `encode_internal`, pb_encoder.rs:54-83. -/
def encodeInternal (cfg : PbCfg) (ts : List (Lit × Int)) (rhs : Int) (s : ER) : Option ER :=
  if rhs < 0 then some (s.addClauses [[]])
  else if rhs = 0 then some (s.addClauses (ts.map fun t => [t.1.neg]))
  else
    let keep := ts.filter fun t => decide (t.2 ≤ rhs)
    let s := s.addClauses ((ts.filter fun t => !decide (t.2 ≤ rhs)).map fun t => [t.1.neg])
    if keep.length > 1 then
      let us := keep.map fun t => (t.1, t.2.toNat)
      match cfg.alg with
      | .best | .swc => encodeSwc us rhs.toNat s
      | .binaryMerge => encodeBinaryMerge cfg.bm us rhs.toNat s
      | .adder => encodeAdder us rhs.toNat s
    else some s

/-- `CardinalityConstraint::encode`, pbc_cc.rs:260-270, with `CcEncoder::encode`,
src/cardinality_constraints/cc_encoder.rs:33-47. -/
def encodeCc (cfg : FCfg) (c : CC) (w : World) : Option (List Clause × World) :=
  match w.ccEnc c with
  | some L => some (L, w)
  | none =>
    match encodeConstraint cfg.cc (c.vars.length + 1) c (cER w.cnt) with
    | .ok s => some (s.clauses, { w with cnt := s.cnt, ccEnc := if cfg.cCc then insKeep w.ccEnc c s.clauses else w.ccEnc })
    | _ => none

/-- The loop over the operands of a conjunction, pb_encoder.rs:33-43; `r` is the recursive
call. -/
def encodeOps (cfg : FCfg) (r : PBC → World → Option (List Clause × World)) :
    List Formula → World → Option (List Clause × World)
  | [], w => some ([], w)
  | f :: fs, w =>
    match (match f with
      | .pbc p => r p w
      | .cc c => encodeCc cfg c w
      | _ => none) with
    | none => none
    | some (L, w) =>
      match encodeOps cfg r fs w with
      | none => none
      | some (L', w) => some (L ++ L', w)

/-- `PbEncoder::encode`, pb_encoder.rs:24-52; `none` is a panic (or fuel exhausted). -/
def encodePb (C : Canon) (cfg : FCfg) : Nat → PBC → World → Option (List Clause × World)
  | 0, _, _ => none
  | n + 1, p, w =>
    match p.normalize C with
    | some (.pbc q) => (encodeInternal cfg.pb q.terms q.rhs (cER w.cnt)).map fun s => (s.clauses, { w with cnt := s.cnt })
    | some (.cc c) => encodeCc cfg c w
    | some (.nary .conj fs) => encodeOps cfg (encodePb C cfg n) fs w
    | some .tru => some ([], w)
    | some .fls => some ([[]], w)
    | _ => none

/-- `PbConstraint::encode`, pbc_cc.rs:407-417. -/
def encodePbc (C : Canon) (cfg : FCfg) (p : PBC) (w : World) : Option (List Clause × World) :=
  match w.pbcEnc p with
  | some L => some (L, w)
  | none =>
    match encodePb C cfg 2 p w with
    | none => none
    | some (L, w) => some (L, { w with pbcEnc := if cfg.cPbc then insKeep w.pbcEnc p L else w.pbcEnc })

/-! ### `encode_internal` -/

theorem lhs_nonneg {σ : Asg} {ts : List (Lit × Int)} (hp : ∀ t ∈ ts, 0 < t.2) : 0 ≤ PBC.lhs σ ts := by
  induction ts with
  | nil => simp [PBC.lhs]
  | cons t ts ih =>
    have := ih fun u hu => hp u (by simp [hu])
    have := hp t (by simp)
    simp only [PBC.lhs]; split <;> omega

theorem coef_le_lhs {σ : Asg} {ts : List (Lit × Int)} (hp : ∀ t ∈ ts, 0 < t.2) {t} (ht : t ∈ ts) (he : t.1.eval σ = true) :
    t.2 ≤ PBC.lhs σ ts := by
  induction ts with
  | nil => simp at ht
  | cons u ts ih =>
    have h0 : 0 ≤ PBC.lhs σ ts := lhs_nonneg fun v hv => hp v (by simp [hv])
    have := hp u (by simp)
    simp only [PBC.lhs]
    rcases List.mem_cons.1 ht with rfl | ht
    · rw [if_pos he]; omega
    · have := ih (fun v hv => hp v (by simp [hv])) ht
      split <;> omega

theorem lhs_keep {σ : Asg} {ts : List (Lit × Int)} {rhs : Int} (hp : ∀ t ∈ ts, 0 < t.2)
    (h : ∀ t ∈ ts, ¬ t.2 ≤ rhs → t.1.eval σ = false) :
    PBC.lhs σ ts = wsum σ ((ts.filter fun t => decide (t.2 ≤ rhs)).map fun t => (t.1, t.2.toNat)) := by
  induction ts with
  | nil => simp [PBC.lhs]
  | cons t ts ih =>
    have e := ih (fun u hu => hp u (by simp [hu])) (fun u hu => h u (by simp [hu]))
    have := hp t (by simp)
    simp only [PBC.lhs, List.filter_cons, e]
    by_cases ht : t.2 ≤ rhs
    · simp only [ht, decide_true, if_true, List.map_cons, wsum_cons]
      split <;> omega
    · simp only [ht, decide_false, Bool.false_eq_true, if_false]
      rw [if_neg (by rw [h t (by simp) ht]; simp)]; omega

theorem lhs_zero_iff {σ : Asg} {ts : List (Lit × Int)} (hp : ∀ t ∈ ts, 0 < t.2) :
    PBC.lhs σ ts ≤ 0 ↔ ∀ t ∈ ts, t.1.eval σ = false := by
  constructor
  · intro h t ht
    cases he : t.1.eval σ with
    | false => rfl
    | true => have := coef_le_lhs hp ht he; have := hp t ht; omega
  · intro h
    have := lhs_keep (rhs := -1) hp (fun t ht _ => h t ht)
    rw [this, List.filter_eq_nil_iff.2]
    · simp
    · intro t ht; have := hp t ht; simp; omega

theorem sat_negs {σ : Asg} {us : List (Lit × Int)} :
    (∀ c ∈ us.map (fun t => [t.1.neg]), Clause.Sat σ c) ↔ ∀ t ∈ us, t.1.eval σ = false := by
  constructor
  · intro h t ht
    have := h _ (List.mem_map.2 ⟨t, ht, rfl⟩)
    simpa using this
  · intro h c hc
    obtain ⟨t, ht, rfl⟩ := List.mem_map.1 hc
    simpa using h t ht

theorem encodeInternal_encodes (cfg : PbCfg) {ts : List (Lit × Int)} {rhs : Int} {s : ER} (hw : Wf s)
    (ho : ∀ t ∈ ts, s.Old t.1.v) (hp : ∀ t ∈ ts, 0 < t.2) (hd : (ts.map fun t => t.1.v).Nodup)
    (hl : ts.length + 1 < 2 ^ 30) :
    ∃ s', encodeInternal cfg ts rhs s = some s' ∧ Encodes s s' (fun σ => PBC.lhs σ ts ≤ rhs) := by
  unfold encodeInternal
  split
  · rename_i hr
    refine ⟨_, rfl, (empty_encodes hw).congr fun σ => ?_⟩
    have := lhs_nonneg (σ := σ) hp
    simp; omega
  split
  · rename_i _ hr
    subst hr
    refine ⟨_, rfl, (addClauses_encodes hw ?_).congr fun σ => ?_⟩
    · intro c hc l hl
      obtain ⟨t, ht, rfl⟩ := List.mem_map.1 hc
      rw [List.mem_singleton.1 hl]; exact ho t ht
    · rw [lhs_zero_iff hp, sat_negs]
  rename_i hr0 hr1
  have hr : 0 < rhs := by omega
  have hrm : ∀ t ∈ ts.filter (fun t => !decide (t.2 ≤ rhs)), t ∈ ts ∧ ¬ t.2 ≤ rhs := by
    intro t ht
    have := List.mem_filter.1 ht
    exact ⟨this.1, by simpa using this.2⟩
  have E1 : Encodes s (s.addClauses ((ts.filter fun t => !decide (t.2 ≤ rhs)).map fun t => [t.1.neg]))
      (fun σ => ∀ t ∈ ts, ¬ t.2 ≤ rhs → t.1.eval σ = false) := by
    refine (addClauses_encodes hw ?_).congr fun σ => ?_
    · intro c hc l hl
      obtain ⟨t, ht, rfl⟩ := List.mem_map.1 hc
      rw [List.mem_singleton.1 hl]; exact ho t (hrm t ht).1
    · rw [sat_negs]
      exact ⟨fun h t ht hn => h t (List.mem_filter.2 ⟨ht, by simpa using hn⟩), fun h t ht => h t (hrm t ht).1 (hrm t ht).2⟩
  generalize s.addClauses ((ts.filter fun t => !decide (t.2 ≤ rhs)).map fun t => [t.1.neg]) = s1 at E1
  have hkm : ∀ t ∈ ts.filter (fun t => decide (t.2 ≤ rhs)), t ∈ ts ∧ t.2 ≤ rhs := by
    intro t ht
    have := List.mem_filter.1 ht
    exact ⟨this.1, by simpa using this.2⟩
  have fin : ∀ s', Encodes s1 s' (fun σ => wsum σ ((ts.filter fun t => decide (t.2 ≤ rhs)).map fun t => (t.1, t.2.toNat)) ≤ rhs.toNat) →
      Encodes s s' (fun σ => PBC.lhs σ ts ≤ rhs) := by
    intro s' E2
    refine (E1.trans E2 ?_).congr fun σ => ?_
    · intro σ σ' ag h
      rw [← ER.Agree.wsum ag]
      · exact h
      · intro t ht
        obtain ⟨u, hu, rfl⟩ := List.mem_map.1 ht
        exact ho u (hkm u hu).1
    · constructor
      · rintro ⟨h1, h2⟩
        rw [lhs_keep hp h1]; omega
      · intro h
        have h1 : ∀ t ∈ ts, ¬ t.2 ≤ rhs → t.1.eval σ = false := by
          intro t ht hn
          cases he : t.1.eval σ with
          | false => rfl
          | true => have := coef_le_lhs hp ht he; omega
        refine ⟨h1, ?_⟩
        rw [lhs_keep hp h1] at h; omega
  have hpos : ∀ t ∈ (ts.filter fun t => decide (t.2 ≤ rhs)).map (fun t => (t.1, t.2.toNat)), 0 < t.2 := by
    intro t ht
    obtain ⟨u, hu, rfl⟩ := List.mem_map.1 ht
    have := hp u (hkm u hu).1; simp only; omega
  have hle : ∀ t ∈ (ts.filter fun t => decide (t.2 ≤ rhs)).map (fun t => (t.1, t.2.toNat)), t.2 ≤ rhs.toNat := by
    intro t ht
    obtain ⟨u, hu, rfl⟩ := List.mem_map.1 ht
    have := (hkm u hu).2; simp only; omega
  have hold : TermsOld s1 ((ts.filter fun t => decide (t.2 ≤ rhs)).map fun t => (t.1, t.2.toNat)) := by
    intro t ht
    obtain ⟨u, hu, rfl⟩ := List.mem_map.1 ht
    exact E1.le.old (ho u (hkm u hu).1)
  have hlen : (ts.filter fun t => decide (t.2 ≤ rhs)).length ≤ ts.length := List.length_filter_le ..
  simp only
  split
  · rename_i hk
    have hnd : (((ts.filter fun t => decide (t.2 ≤ rhs)).map fun t => (t.1, t.2.toNat)).map (·.1)).Nodup := by
      have h1 : ((ts.filter fun t => decide (t.2 ≤ rhs)).map fun t => t.1.v).Nodup :=
        hd.sublist (List.Sublist.map _ List.filter_sublist)
      rw [List.map_map]
      have h2 : ((ts.filter fun t => decide (t.2 ≤ rhs)).map fun t => t.1.v) =
          ((ts.filter fun t => decide (t.2 ≤ rhs)).map ((fun x => x.1) ∘ fun t => (t.1, t.2.toNat))).map (fun l => l.v) := by
        simp [List.map_map, Function.comp_def]
      rw [h2] at h1
      exact List.Pairwise.of_map (fun l => l.v) (fun a b h e => h (by rw [e])) h1
    split
    · obtain ⟨s', e, E⟩ := encodeSwc_encodes E1.wf hold hpos hle; exact ⟨s', e, fin _ E⟩
    · obtain ⟨s', e, E⟩ := encodeSwc_encodes E1.wf hold hpos hle; exact ⟨s', e, fin _ E⟩
    · obtain ⟨s', e, E⟩ := encodeBinaryMerge_encodes cfg.bm E1.wf ⟨hold, hpos, hle, hnd, by simp only [List.length_map]; omega⟩
        (by simp only [List.length_map]; omega)
      exact ⟨s', e, fin _ E⟩
    · obtain ⟨s', e, E⟩ := encodeAdder_encodes E1.wf hold hle; exact ⟨s', e, fin _ E⟩
  · rename_i hk
    refine ⟨_, rfl, fin _ ((Encodes.id E1.wf).congr fun σ => ?_)⟩
    simp only [true_iff]
    generalize ts.filter (fun t => decide (t.2 ≤ rhs)) = K at hk hle
    rcases K with _ | ⟨t, _ | ⟨u, K⟩⟩
    · simp
    · have := hle (t.1, t.2.toNat) (by simp)
      simp only [List.map_cons, List.map_nil, wsum_cons, wsum_nil]
      simp only at this
      split <;> omega
    · simp at hk

end Verif
