import Verif.F.WorldEnc
import Mathlib.Data.List.Forall2
/-
C26: encodings of pseudo-Boolean constraints.

`Encodes s s' C` (Verif/Enc/Base.lean) is the specification: the clauses of `s'` extend those of
`s`, and a model of the clauses of `s` can be changed at fresh variables into a model of the
clauses of `s'` iff it satisfies `C`.
-/
namespace Verif
open ER

/-- C26, sequential weight counter: for every list of weighted literals with weights in `1..rhs`
the clauses added encode exactly `sum <= rhs`, and the encoder does not panic. -/
theorem C26_swc {ts : List (Lit × Nat)} {rhs : Nat} {s : ER} (hw : Wf s) (ho : ∀ t ∈ ts, s.Old t.1.v)
    (hpos : ∀ t ∈ ts, 0 < t.2) (hle : ∀ t ∈ ts, t.2 ≤ rhs) :
    ∃ s', encodeSwc ts rhs s = some s' ∧
      Encodes s s' (fun σ => (ts.map fun t => if t.1.eval σ then t.2 else 0).sum ≤ rhs) :=
  encodeSwc_encodes hw ho hpos hle

/-- C26, adder networks. -/
theorem C26_adder {ts : List (Lit × Nat)} {rhs : Nat} {s : ER} (hw : Wf s) (ho : ∀ t ∈ ts, s.Old t.1.v)
    (hle : ∀ t ∈ ts, t.2 ≤ rhs) :
    ∃ s', encodeAdder ts rhs s = some s' ∧
      Encodes s s' (fun σ => (ts.map fun t => if t.1.eval σ then t.2 else 0).sum ≤ rhs) :=
  encodeAdder_encodes hw ho hle

/-- C26, binary merge, for all eight combinations of its options. -/
theorem C26_binary_merge (cfg : BmCfg) {ts : List (Lit × Nat)} {rhs : Nat} {s : ER} (hw : Wf s) (ho : ∀ t ∈ ts, s.Old t.1.v)
    (hpos : ∀ t ∈ ts, 0 < t.2) (hle : ∀ t ∈ ts, t.2 ≤ rhs) (hnd : (ts.map (·.1)).Nodup) (hn : 2 ≤ ts.length)
    (hbig : ts.length + 1 < 2 ^ 30) :
    ∃ s', encodeBinaryMerge cfg ts rhs s = some s' ∧
      Encodes s s' (fun σ => (ts.map fun t => if t.1.eval σ then t.2 else 0).sum ≤ rhs) :=
  encodeBinaryMerge_encodes cfg hw ⟨ho, hpos, hle, hnd, hbig⟩ hn

/-- C26, the dispatcher `encode_internal`: trivial cases, unit clauses for weights above the
right-hand side, and the chosen algorithm. -/
theorem C26_encode_internal (cfg : PbCfg) {ts : List (Lit × Int)} {rhs : Int} {s : ER} (hw : Wf s)
    (ho : ∀ t ∈ ts, s.Old t.1.v) (hp : ∀ t ∈ ts, 0 < t.2) (hd : (ts.map fun t => t.1.v).Nodup)
    (hl : ts.length + 1 < 2 ^ 30) :
    ∃ s', encodeInternal cfg ts rhs s = some s' ∧ Encodes s s' (fun σ => PBC.lhs σ ts ≤ rhs) :=
  encodeInternal_encodes cfg hw ho hp hd hl

/-- A constraint of one of the two kinds. -/
inductive Con
  | cc (c : CC)
  | pbc (p : PBC)

/-- Its truth value. -/
def Con.eval (σ : Asg) : Con → Bool
  | .cc c => c.eval σ
  | .pbc p => p.eval σ

/-- `encode` of `CardinalityConstraint` or `PbConstraint`. -/
def Con.encode (C : Canon) (cfg : FCfg) : Con → World → Option (List Clause × World)
  | .cc c, w => encodeCc cfg c w
  | .pbc p, w => encodePbc C cfg p w

/-- Any number of constraints encoded one after the other. -/
def encodeAll (C : Canon) (cfg : FCfg) : List Con → World → Option (List (List Clause) × World)
  | [], w => some ([], w)
  | x :: xs, w =>
    match x.encode C cfg w with
    | none => none
    | some (L, w) =>
      match encodeAll C cfg xs w with
      | none => none
      | some (Ls, w) => some (L :: Ls, w)

/-- A constraint as the factory can build it, over variables existing in `c`, whose numbers stay
below the limits of the machine integers used by the encoders. -/
def Con.Good (cfg : FCfg) (c : AuxTy → Nat) : Con → Prop
  | .cc k => k.Ok ∧ k.vars.length + 1 < 2 ^ 30 ∧ (cfg.cc.CardNet → k.vars.Nodup) ∧ ∀ v ∈ k.vars, (cER c).Old v
  | .pbc p => p.terms.length + 1 < 2 ^ 30 ∧ absSum p.terms + (if p.rhs ≥ 0 then p.rhs else -p.rhs) < 2 ^ 62 ∧
      ∀ t ∈ p.terms, (cER c).Old t.1.v

/-- A factory with empty operation caches. -/
def World.fresh (c : AuxTy → Nat) : World :=
  ⟨c, fun _ => none, fun _ => none, fun _ => none, fun _ => none, fun _ => none, fun _ => none, fun _ => none⟩

theorem WInv.fresh (c : AuxTy → Nat) : WInv c (World.fresh c) [] := by
  refine ⟨EInv.init c, ?_, ?_, ?_, ?_, ?_, ?_, ?_, ⟨fun _ => Nat.zero_le _, ?_, ?_⟩⟩ <;> intro f g h <;> simp [World.fresh] at h

theorem Con.encode_ok {C : Canon} {cfg : FCfg} (hcfg : cfg.cc.Good) {c0 w E} (h : WInv c0 w E) {x : Con} (hx : x.Good cfg w.cnt) :
    EncStep c0 w E (fun σ => x.eval σ = true) (x.encode C cfg w) := by
  cases x with
  | cc c => exact encodeCc_ok hcfg h hx.1 hx.2.1 hx.2.2.1 hx.2.2.2
  | pbc p => exact encodePbc_ok hcfg h hx.1 hx.2.1 hx.2.2

theorem Con.Good.mono {cfg : FCfg} {c E c' E'} {x : Con} (h : x.Good cfg c) (hx : GExt c E c' E') : x.Good cfg c' := by
  cases x with
  | cc k => exact ⟨h.1, h.2.1, h.2.2.1, fun v hv => hx.old (h.2.2.2 v hv)⟩
  | pbc p => exact ⟨h.1, h.2.1, fun t ht => hx.old (h.2.2 t ht)⟩

theorem encodeAll_ok {C : Canon} {cfg : FCfg} (hcfg : cfg.cc.Good) {c0} (xs : List Con) :
    ∀ {w E}, WInv c0 w E → (∀ x ∈ xs, x.Good cfg w.cnt) → ∃ Ls w' E', encodeAll C cfg xs w = some (Ls, w') ∧ WInv c0 w' E' ∧
      GExt w.cnt E w'.cnt E' ∧ List.Forall₂ (fun x L => EncOf E' w'.cnt (fun σ => Con.eval σ x = true) L) xs Ls := by
  induction xs with
  | nil => intro w E h _; exact ⟨[], w, E, rfl, h, GExt.refl _ _, .nil⟩
  | cons x xs ih =>
    intro w E h hx
    obtain ⟨L, w1, E1, e1, h1, x1, o1⟩ := Con.encode_ok (C := C) hcfg h (hx x (by simp))
    obtain ⟨Ls, w2, E2, e2, h2, x2, o2⟩ := ih h1 fun y hy => (hx y (by simp [hy])).mono x1
    exact ⟨L :: Ls, w2, E2, by simp [encodeAll, e1, e2], h2, x1.trans x2, .cons (o1.mono x2) o2⟩

/-- C26 (full): encode any list of cardinality and pseudo-Boolean constraints one after the
other, with any configuration of algorithms and caches, in a factory with any counters of
auxiliary variables.  No encoding panics; a model of the clauses returned for a constraint
satisfies the constraint; and every assignment can be changed, at variables not existing at the
start only, such that for each constraint the clauses returned for it hold exactly if the
constraint does.  In particular encodings never share or reuse auxiliary variables wrongly. -/
theorem C26_encode (C : Canon) (cfg : FCfg) (hcfg : cfg.cc.Good) (c : AuxTy → Nat) (xs : List Con) (hx : ∀ x ∈ xs, x.Good cfg c) :
    ∃ Ls w', encodeAll C cfg xs (World.fresh c) = some (Ls, w') ∧ Ls.length = xs.length ∧
      (∀ (i : Nat) (x : Con) (L : List Clause), xs[i]? = some x → Ls[i]? = some L → ∀ σ, (∀ cl ∈ L, ∃ l ∈ cl, l.eval σ = true) → x.eval σ = true) ∧
      (∀ σ : Asg, ∃ σ' : Asg, (∀ n, σ' (.named n) = σ (.named n)) ∧ (∀ t n, t ≠ .tmp → n < c t → σ' (.aux t n) = σ (.aux t n)) ∧
        ∀ (i : Nat) (x : Con) (L : List Clause), xs[i]? = some x → Ls[i]? = some L → ((∀ cl ∈ L, ∃ l ∈ cl, l.eval σ' = true) ↔ x.eval σ = true)) := by
  obtain ⟨Ls, w', E', e, h, hg, hf⟩ := encodeAll_ok (C := C) hcfg xs (WInv.fresh c) hx
  have hlen : Ls.length = xs.length := hf.length_eq.symm
  have hget : ∀ (i : Nat) (x : Con) (L : List Clause), xs[i]? = some x → Ls[i]? = some L → EncOf E' w'.cnt (fun σ => Con.eval σ x = true) L := by
    intro i x L h1 h2
    obtain ⟨i1, rfl⟩ := List.getElem?_eq_some_iff.1 h1
    obtain ⟨i2, rfl⟩ := List.getElem?_eq_some_iff.1 h2
    exact hf.get i1 i2
  have hs : ∀ (i : Nat) (x : Con) (L : List Clause), xs[i]? = some x → Ls[i]? = some L → ∀ σ, (∀ cl ∈ L, ∃ l ∈ cl, l.eval σ = true) → x.eval σ = true :=
    fun i x L h1 h2 σ hs => h.base.sound _ (hget i x L h1 h2).mem σ hs
  refine ⟨Ls, w', e, hlen, hs, fun σ => ?_⟩
  obtain ⟨σ', a, ok⟩ := h.base.ext σ
  have hev : ∀ x ∈ xs, x.eval σ' = x.eval σ := by
    intro x hxs
    have hgd := hx x hxs
    cases x with
    | cc k => exact Formula.eval_congr (f := .cc k) fun v hv => (a v (hgd.2.2.2 v ((Formula.occ_cc ..).1 hv))).symm
    | pbc p =>
      refine Formula.eval_congr (f := .pbc p) fun v hv => ?_
      obtain ⟨t, ht, rfl⟩ := (Formula.occ_pbc ..).1 hv
      exact (a _ (hgd.2.2 t ht)).symm
  refine ⟨σ', fun n => (a (.named n) trivial).symm, fun t n ht hn => (a (.aux t n) (by cases t <;> first | exact absurd rfl ht | exact hn)).symm, fun i x L h1 h2 => ?_⟩
  have hmem : x ∈ xs := List.mem_of_getElem? h1
  rw [← hev x hmem]
  exact ⟨hs i x L h1 h2 σ', fun hx => ok _ (hget i x L h1 h2).mem hx⟩

/-- Two weighted sums and a cardinality constraint over five named variables. -/
def exCons : List Con :=
  [.pbc ⟨[(⟨.named 0, true⟩, 3), (⟨.named 1, false⟩, -2), (⟨.named 2, true⟩, 4)], .eq, 2⟩,
   .cc ⟨[.named 0, .named 1, .named 4], .ge, 2⟩,
   .pbc ⟨[(⟨.named 0, true⟩, 3), (⟨.named 1, true⟩, 2), (⟨.named 3, true⟩, 2)], .gt, 4⟩]

def exFCfg (alg : PbAlg) (b : Bool) : FCfg :=
  ⟨⟨.best, .best, .cardNet, .best⟩, ⟨alg, ⟨true, true, true⟩⟩, b, b, b, b, b, b, b⟩

/-- The hypotheses of `C26_encode` are met by non-trivial constraints. -/
example : (∀ x ∈ exCons, x.Good (exFCfg .adder true) fun _ => 7) ∧ (exFCfg .adder true).cc.Good := by
  refine ⟨?_, trivial⟩
  intro x hx
  simp only [exCons, List.mem_cons, List.not_mem_nil, or_false] at hx
  rcases hx with rfl | rfl | rfl
  · refine ⟨by decide, by decide, ?_⟩
    intro t ht; simp only [List.mem_cons, List.not_mem_nil, or_false] at ht; rcases ht with rfl | rfl | rfl <;> trivial
  · refine ⟨⟨by decide, by decide, by decide⟩, by decide, fun _ => by decide, ?_⟩
    intro v hv; simp only [List.mem_cons, List.not_mem_nil, or_false] at hv; rcases hv with rfl | rfl | rfl <;> trivial
  · refine ⟨by decide, by decide, ?_⟩
    intro t ht; simp only [List.mem_cons, List.not_mem_nil, or_false] at ht; rcases ht with rfl | rfl | rfl <;> trivial

/-- Test: all three algorithms produce clauses for these constraints. -/
example : ([PbAlg.swc, .binaryMerge, .adder].map fun a =>
    match encodeAll canon0 (exFCfg a true) exCons (World.fresh fun _ => 7) with
    | some (Ls, _) => Ls.map fun L => decide (L.length ≥ 4)
    | none => []) = [[true, true, true], [true, true, true], [true, true, true]] := by decide +kernel

end Verif
