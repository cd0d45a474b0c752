import Verif.Enc.UpPbm2
import Verif.Enc.UpPba
import Verif.F.PbEncode
import Verif.Props.Up

/-
C75: which encodings of pseudo-Boolean constraints decide by unit propagation alone.
`UP cs A l` (Verif/Enc/Up.lean): unit propagation on the clauses `cs` derives `l` from the
assumed literals `A`.  The constraint of the terms `ts` and the bound `rhs` says that the
coefficients of the true literals sum up to at most `rhs`.
-/
namespace Verif
open ER Prop1

open Classical in
/-- The sum of the coefficients of the assumed literals. -/
noncomputable def assumedWeight (A : Lit → Prop) (ts : List (Lit × Int)) : Int := (ts.map fun t => if A t.1 then t.2 else 0).sum

/-- Unit propagation sees as soon as the assumed literals exceed the bound. -/
def PbDetects (cs : List Clause) (ts : List (Lit × Int)) (rhs : Int) : Prop := ∀ A : Lit → Prop,
  rhs < assumedWeight A ts → UP.Conflict cs A

/-- Unit propagation falsifies a literal as soon as there is no more room for it. -/
def PbForces (cs : List Clause) (ts : List (Lit × Int)) (rhs : Int) (t : Lit × Int) : Prop := ∀ A : Lit → Prop,
  ¬ A t.1 → rhs < assumedWeight A ts + t.2 → UP.Conflict cs A ∨ UP cs A t.1.neg

/-- Unit propagation decides the constraint: it sees contradictions and finds all forced literals. -/
def PbComplete (cs : List Clause) (ts : List (Lit × Int)) (rhs : Int) : Prop :=
  PbDetects cs ts rhs ∧ ∀ t ∈ ts, PbForces cs ts rhs t

/-- The terms which are given to the encodings. -/
private abbrev kept (ts : List (Lit × Int)) (rhs : Int) : List (Lit × Nat) := (ts.filter fun t => decide (t.2 ≤ rhs)).map fun t => (t.1, t.2.toNat)

open Classical in
private theorem weight_kept {S : Lit → Prop} {ts : List (Lit × Int)} {rhs : Int} (hpos : ∀ t ∈ ts, 0 < t.2)
    (h : ∀ t ∈ ts, ¬ t.2 ≤ rhs → ¬ S t.1) : assumedWeight S ts = wS S (kept ts rhs) := by
  induction ts with
  | nil => rfl
  | cons t ts ih =>
    have ih := ih (fun u hu => hpos u (by simp [hu])) (fun u hu => h u (by simp [hu]))
    have h0 := hpos t (by simp)
    simp only [assumedWeight, kept, List.map_cons, List.sum_cons, List.filter_cons] at ih ⊢
    by_cases ht : t.2 ≤ rhs
    · rw [if_pos (show decide (t.2 ≤ rhs) = true by simpa using ht), List.map_cons, wS_cons, ih]
      by_cases hS : S t.1
      · rw [if_pos hS, if_pos hS]; push_cast; omega
      · rw [if_neg hS, if_neg hS]; push_cast; omega
    · rw [if_neg (show ¬ decide (t.2 ≤ rhs) = true by simpa using ht), if_neg (h t (by simp) ht), ih]; omega

private theorem confl_up {cs : List Clause} {A : Lit → Prop} (h : Confl (UP cs A)) : UP.Conflict cs A :=
  let ⟨o, h1, h2⟩ := h; .inr ⟨o, h1, h2⟩

private theorem ass_weight {cs : List Clause} {A : Lit → Prop} {ts : List (Lit × Int)} (hpos : ∀ t ∈ ts, 0 < t.2) :
    assumedWeight A ts ≤ assumedWeight (UP cs A) ts := by
  induction ts with
  | nil => simp [assumedWeight]
  | cons t ts ih =>
    have ih := ih fun u hu => hpos u (by simp [hu])
    have := hpos t (by simp)
    simp only [assumedWeight, List.map_cons, List.sum_cons] at ih ⊢
    by_cases h : A t.1
    · rw [if_pos h, if_pos (UP.ass h)]; omega
    · rw [if_neg h]; split <;> omega

/-- From unit clauses for the too large terms and what the kept terms give. -/
private theorem split_kept {cs : List Clause} {A : Lit → Prop} {ts : List (Lit × Int)} {rhs : Int} (hpos : ∀ t ∈ ts, 0 < t.2)
    (hu : ∀ t ∈ ts, ¬ t.2 ≤ rhs → [t.1.neg] ∈ cs) :
    UP.Conflict cs A ∨ (assumedWeight (UP cs A) ts = wS (UP cs A) (kept ts rhs) ∧ ∀ t ∈ ts, ¬ t.2 ≤ rhs → UP cs A t.1.neg) := by
  by_cases hc : UP.Conflict cs A
  · exact .inl hc
  refine .inr ⟨weight_kept hpos fun t ht hn hS => hc (.inr ⟨t.1, hS, (UP.clN cs A).one (hu t ht hn)⟩), fun t ht hn => (UP.clN cs A).one (hu t ht hn)⟩

private theorem mem_kept {ts : List (Lit × Int)} {rhs : Int} {t : Lit × Int} (ht : t ∈ ts) (h : t.2 ≤ rhs) : (t.1, t.2.toNat) ∈ kept ts rhs :=
  List.mem_map.2 ⟨t, List.mem_filter.2 ⟨ht, by simpa using h⟩, rfl⟩

/-- What a set of literals closed under the clauses shall have: `Q` selects terms. -/
private structure Parts (S : Lit → Prop) (us : List (Lit × Nat)) (rhs : Nat) (Q : Nat → Prop) : Prop where
  det : rhs < wS S us → Confl S
  force : ∀ t ∈ us, Q t.2 → ¬ S t.1 → rhs < wS S us + t.2 → Confl S ∨ S t.1.neg

open Classical in
private theorem Parts.of_pbS {S : Lit → Prop} {us : List (Lit × Nat)} {rhs : Nat} {Q : Nat → Prop} (h : PbS S us rhs) : Parts S us rhs Q := by
  refine ⟨fun hlt => ?_, fun t ht _ hn hlt => ?_⟩
  · obtain ⟨t, ht, hS⟩ := wS_pos (S := S) (ts := us) (by omega)
    obtain ⟨pre, post, e⟩ := List.append_of_mem ht
    have hw : wS S us = wS S pre + t.2 + wS S post := by rw [e, wS_append, wS_cons, if_pos hS]; omega
    rcases h pre t post e (by omega) with h | h
    · exact h
    · exact ⟨_, hS, h⟩
  · obtain ⟨pre, post, e⟩ := List.append_of_mem ht
    have hw : wS S us = wS S pre + wS S post := by rw [e, wS_append, wS_cons, if_neg hn]; omega
    exact h pre t post e (by omega)

open Classical in
private theorem parts_of {cs : List Clause} {ts : List (Lit × Int)} {rhs : Int} {Q : Nat → Prop} (h0 : 0 ≤ rhs) (hpos : ∀ t ∈ ts, 0 < t.2)
    (hu : ∀ t ∈ ts, ¬ t.2 ≤ rhs → [t.1.neg] ∈ cs) (hP : ∀ S, ClN S cs → Parts S (kept ts rhs) rhs.toNat Q) :
    PbDetects cs ts rhs ∧ ∀ t ∈ ts, Q t.2.toNat → PbForces cs ts rhs t := by
  have det : ∀ A, rhs < assumedWeight (UP cs A) ts → UP.Conflict cs A := by
    intro A hA
    rcases split_kept (A := A) hpos hu with h | ⟨h, _⟩
    · exact h
    · rw [h] at hA
      exact confl_up ((hP _ (UP.clN cs A)).det (by omega))
  refine ⟨fun A hA => det A (Int.lt_of_lt_of_le hA (ass_weight hpos)), fun t ht hQ A hn hA => ?_⟩
  rcases split_kept (A := A) hpos hu with h | ⟨h, hneg⟩
  · exact .inl h
  by_cases hle : t.2 ≤ rhs
  · by_cases hS : UP cs A t.1
    · left
      -- the weight of the derived literals contains the weight of the term
      have hlt : assumedWeight A ts + t.2 ≤ assumedWeight (UP cs A) ts := by
        clear hA h hneg hP hu det
        induction ts with
        | nil => simp at ht
        | cons u us ih =>
          have hp := hpos u (by simp)
          have hm := ass_weight (cs := cs) (A := A) (ts := us) fun v hv => hpos v (by simp [hv])
          simp only [assumedWeight, List.map_cons, List.sum_cons] at ih hm ⊢
          rcases List.mem_cons.1 ht with rfl | ht
          · rw [if_neg hn, if_pos hS]; omega
          · have := ih (fun v hv => hpos v (by simp [hv])) ht
            by_cases ha : A u.1
            · rw [if_pos ha, if_pos (UP.ass ha)]; omega
            · rw [if_neg ha]; split <;> omega
      exact det A (by omega)
    · have := ass_weight (cs := cs) (A := A) hpos
      have := hpos t ht
      exact ((hP _ (UP.clN cs A)).force _ (mem_kept ht hle) hQ hS (by simp only; omega)).imp confl_up id
  · exact .inr (hneg t ht hle)

/-- One term alone which is not too large is never forced. -/
private theorem pbS_short {S : Lit → Prop} {ts : List (Lit × Int)} {rhs : Int} (h : ¬ (ts.filter fun t => decide (t.2 ≤ rhs)).length > 1) :
    PbS S (kept ts rhs) rhs.toNat := by
  intro pre t post e hlt
  have hl : (kept ts rhs).length ≤ 1 := by simpa [kept] using h
  have ht : t ∈ kept ts rhs := by rw [e]; simp
  rw [e] at hl
  simp only [List.length_append, List.length_cons] at hl
  have h1 : pre = [] := List.length_eq_zero_iff.1 (by omega)
  have h2 : post = [] := List.length_eq_zero_iff.1 (by omega)
  obtain ⟨u, hu, rfl⟩ := List.mem_map.1 ht
  have := (List.mem_filter.1 hu).2
  simp only [decide_eq_true_eq] at this
  rw [h1, h2, wS_nil] at hlt
  simp only at hlt
  omega

private theorem kept_pos {ts : List (Lit × Int)} {rhs : Int} (hpos : ∀ t ∈ ts, 0 < t.2) : ∀ t ∈ kept ts rhs, 0 < t.2 := by
  intro t ht
  obtain ⟨u, hu, rfl⟩ := List.mem_map.1 ht
  have := hpos u (List.mem_filter.1 hu).1
  simp only; omega

private theorem kept_le {ts : List (Lit × Int)} {rhs : Int} : ∀ t ∈ kept ts rhs, t.2 ≤ rhs.toNat := by
  intro t ht
  obtain ⟨u, hu, rfl⟩ := List.mem_map.1 ht
  have := (List.mem_filter.1 hu).2
  simp only [decide_eq_true_eq] at this
  simp only; omega

/-- The part of `encode_internal` common to the encodings. -/
private theorem internal_parts {cfg : PbCfg} {Q : Nat → Prop} {ts : List (Lit × Int)} {rhs : Int} (hpos : ∀ t ∈ ts, 0 < t.2) {s s' : ER}
    (h : encodeInternal cfg ts rhs s = some s')
    (body : ∀ s1, (match cfg.alg with
      | .best | .swc => encodeSwc (kept ts rhs) rhs.toNat s1
      | .binaryMerge => encodeBinaryMerge cfg.bm (kept ts rhs) rhs.toNat s1
      | .adder => encodeAdder (kept ts rhs) rhs.toNat s1) = some s' →
      (∀ c ∈ s1.clauses, c ∈ s'.clauses) ∧ ∀ S, ClN S s'.clauses → Parts S (kept ts rhs) rhs.toNat Q) :
    PbDetects s'.clauses ts rhs ∧ ∀ t ∈ ts, Q t.2.toNat → PbForces s'.clauses ts rhs t := by
  unfold encodeInternal at h
  by_cases h1 : rhs < 0
  · rw [if_pos h1] at h
    simp only [Option.some.injEq] at h
    subst h
    have he : [] ∈ (s.addClauses [[]]).clauses := mem_addClauses.2 (.inr (by simp))
    exact ⟨fun _ _ => .inl he, fun _ _ _ _ _ _ => .inl (.inl he)⟩
  rw [if_neg h1] at h
  by_cases h2 : rhs = 0
  · rw [if_pos h2] at h
    simp only [Option.some.injEq] at h
    subst h
    have hk : kept ts rhs = [] := by
      unfold kept
      rw [List.filter_eq_nil_iff.2 fun t ht => by have := hpos t ht; simp; omega]; rfl
    refine parts_of (by omega) hpos (fun t ht _ => mem_addClauses.2 (.inr (List.mem_map.2 ⟨t, ht, rfl⟩))) fun S _ => .of_pbS ?_
    rw [hk]
    intro pre t post e
    simp at e
  rw [if_neg h2] at h
  simp only at h
  generalize hs : s.addClauses ((ts.filter fun t => !decide (t.2 ≤ rhs)).map fun t => [t.1.neg]) = s1 at h
  have hun : ∀ t ∈ ts, ¬ t.2 ≤ rhs → [t.1.neg] ∈ s1.clauses := fun t ht hn => by
    subst hs
    exact mem_addClauses.2 (.inr (List.mem_map.2 ⟨t, List.mem_filter.2 ⟨ht, by simpa using hn⟩, rfl⟩))
  by_cases h3 : (ts.filter fun t => decide (t.2 ≤ rhs)).length > 1
  · rw [if_pos h3] at h
    obtain ⟨m, P⟩ := body s1 h
    exact parts_of (by omega) hpos (fun t ht hn => m _ (hun t ht hn)) P
  · rw [if_neg h3] at h
    simp only [Option.some.injEq] at h
    subst h
    exact parts_of (by omega) hpos hun fun S _ => .of_pbS (pbS_short h3)

/-- **C75, sequential weight counter (the default) and binary merge with its `gac` option.**
Unit propagation on the clauses of `encode_internal` decides the constraint: whenever the
assumed literals weigh more than the bound, it meets a contradiction, and every literal which
has no more room is derived to be false. -/
theorem C75_complete (cfg : PbCfg) (hcfg : cfg.alg = .swc ∨ cfg.alg = .best ∨ (cfg.alg = .binaryMerge ∧ cfg.bm.gac = true))
    (ts : List (Lit × Int)) (rhs : Int) (hpos : ∀ t ∈ ts, 0 < t.2) (s s' : ER) (h : encodeInternal cfg ts rhs s = some s') :
    PbComplete s'.clauses ts rhs := by
  have := internal_parts (Q := fun _ => True) hpos h fun s1 h => ?_
  · exact ⟨this.1, fun t ht => this.2 t ht trivial⟩
  · rcases hcfg with hc | hc | ⟨hc, hg⟩
    · rw [hc] at h; exact ⟨encodeSwc_mono h, fun S hS => .of_pbS (encodeSwc_up h (kept_pos hpos) hS)⟩
    · rw [hc] at h; exact ⟨encodeSwc_mono h, fun S hS => .of_pbS (encodeSwc_up h (kept_pos hpos) hS)⟩
    · rw [hc] at h
      exact ⟨(encodeBinaryMerge_up hg h (kept_pos hpos) kept_le (S := fun _ => True) fun _ _ _ _ _ => trivial).1,
        fun S hS => .of_pbS (encodeBinaryMerge_up hg h (kept_pos hpos) kept_le hS).2⟩

/-- **C75, binary merge without `gac`**: unit propagation still sees every contradiction, and
it forces the literals whose coefficient is a power of two. -/
theorem C75_binary_merge_partial (cfg : PbCfg) (hcfg : cfg.alg = .binaryMerge) (ts : List (Lit × Int)) (rhs : Int) (hpos : ∀ t ∈ ts, 0 < t.2)
    (s s' : ER) (h : encodeInternal cfg ts rhs s = some s') :
    PbDetects s'.clauses ts rhs ∧ ∀ t ∈ ts, (∃ j, t.2 = 2 ^ j) → PbForces s'.clauses ts rhs t := by
  by_cases hg : cfg.bm.gac = true
  · have := C75_complete cfg (.inr (.inr ⟨hcfg, hg⟩)) ts rhs hpos s s' h
    exact ⟨this.1, fun t ht _ => this.2 t ht⟩
  · have hg : cfg.bm.gac = false := by simpa using hg
    have := internal_parts (Q := fun n => isPow2 n = true) hpos h fun s1 h => ?_
    · refine ⟨this.1, fun t ht ⟨j, hj⟩ => this.2 t ht ?_⟩
      have : t.2.toNat = 2 ^ j := by rw [hj]; exact_mod_cast Int.toNat_natCast (2 ^ j)
      rw [this]
      simp [isPow2, Nat.log2_two_pow]
    · rw [hcfg] at h
      refine ⟨(encodeBinaryMerge_weak hg h (kept_pos hpos) (S := fun _ => True) fun _ _ _ _ _ => trivial).1, fun S hS => ?_⟩
      have B := (encodeBinaryMerge_weak hg h (kept_pos hpos) hS).2
      exact ⟨B.fwd, B.single trivial⟩

open Classical in
private theorem wsum_dec {S : Lit → Prop} {σ : Asg} {us : List (Lit × Nat)} (h : ∀ t ∈ us, (t.1.eval σ = true ↔ S t.1)) : wsum σ us = wS S us := by
  induction us with
  | nil => rfl
  | cons t us ih =>
    rw [wsum_cons, wS_cons, ih fun u hu => h u (by simp [hu])]
    have := h t (by simp)
    by_cases hS : S t.1
    · rw [if_pos hS, if_pos (this.2 hS)]
    · rw [if_neg hS, if_neg (fun h => hS (this.1 h))]

/-- **C75, adder networks**: unit propagation sees every contradiction once all literals of the
constraint are set.  The encoder starts without clauses, as `PbEncoder::encode` does. -/
theorem C75_adder_partial (cfg : PbCfg) (hcfg : cfg.alg = .adder) (ts : List (Lit × Int)) (rhs : Int) (hpos : ∀ t ∈ ts, 0 < t.2)
    (s s' : ER) (hs : s.clauses = []) (ho : ∀ t ∈ ts, s.Old t.1.v) (h : encodeInternal cfg ts rhs s = some s') (A : Lit → Prop)
    (hall : ∀ t ∈ ts, A t.1 ∨ A t.1.neg) (hA : rhs < assumedWeight A ts) : UP.Conflict s'.clauses A := by
  by_cases hm : 0 < rhs ∧ (ts.filter fun t => decide (t.2 ≤ rhs)).length > 1
  · obtain ⟨h0, h3⟩ := hm
    unfold encodeInternal at h
    rw [if_neg (by omega), if_neg (by omega)] at h
    simp only [hcfg] at h
    rw [if_pos h3] at h
    generalize hs1 : s.addClauses ((ts.filter fun t => !decide (t.2 ≤ rhs)).map fun t => [t.1.neg]) = s1 at h
    have hcl1 : ∀ c, c ∈ s1.clauses ↔ ∃ t ∈ ts, ¬ t.2 ≤ rhs ∧ c = [t.1.neg] := fun c => by
      rw [← hs1, mem_addClauses, hs]
      simp only [List.not_mem_nil, false_or, List.mem_map, List.mem_filter, Bool.not_eq_true', decide_eq_false_iff_not]
      exact ⟨fun ⟨t, ⟨h1, h2⟩, h3⟩ => ⟨t, h1, h2, h3.symm⟩, fun ⟨t, h1, h2, h3⟩ => ⟨t, ⟨h1, h2⟩, h3.symm⟩⟩
    have hmono := encodeAdder_mono h
    have hu : ∀ t ∈ ts, ¬ t.2 ≤ rhs → [t.1.neg] ∈ s'.clauses := fun t ht hn => hmono _ ((hcl1 _).2 ⟨t, ht, hn, rfl⟩)
    refine Classical.byContradiction fun hc => ?_
    rcases split_kept (A := A) hpos hu with hx | ⟨hw, hneg⟩
    · exact hc hx
    have hS := UP.clN s'.clauses A
    have hdts : ∀ t ∈ ts, Dec (UP s'.clauses A) t.1 := fun t ht => (hall t ht).imp .ass .ass
    have hdk : ∀ t ∈ kept ts rhs, Dec (UP s'.clauses A) t.1 := fun t ht => by
      obtain ⟨u, hu, rfl⟩ := List.mem_map.1 ht
      exact hdts u (List.mem_filter.1 hu).1
    have hN := encodeAdder_dec h hS hdk
    obtain ⟨σ, hσ, hv⟩ := decided_model hS (fun ⟨o, h1, h2⟩ => hc (.inr ⟨o, h1, h2⟩)) (fun he => hc (.inl he)) (by
      intro c hcc l hl
      rcases hN.2 c hcc with hc1 | hd
      · obtain ⟨t, ht, _, rfl⟩ := (hcl1 c).1 hc1
        rw [List.mem_singleton.1 hl]; exact (hdts t ht).neg
      · exact hd l hl)
    have hwf : Wf s1 := fun c hc l hl => by
      obtain ⟨t, ht, _, rfl⟩ := (hcl1 c).1 hc
      rw [List.mem_singleton.1 hl, ← hs1]
      exact (addClauses_old _ _ _).2 (ho t ht)
    have hold : TermsOld s1 (kept ts rhs) := fun t ht => by
      obtain ⟨u, hu, rfl⟩ := List.mem_map.1 ht
      rw [← hs1]
      exact (addClauses_old _ _ _).2 (ho u (List.mem_filter.1 hu).1)
    obtain ⟨s2, e2, E⟩ := encodeAdder_encodes hwf hold (rhs := rhs.toNat) kept_le
    have : s2 = s' := by rw [e2] at h; exact Option.some.inj h
    subst this
    have hle := ((E.iff σ).1 ⟨σ, Agree.refl _ _, hσ⟩).2
    rw [wsum_dec fun t ht => hv t.1 (hdk t ht)] at hle
    have := ass_weight (cs := s2.clauses) (A := A) hpos
    omega
  · refine (C75_complete { cfg with alg := .swc } (.inl rfl) ts rhs hpos s s' ?_).1 A hA
    rw [← h]
    unfold encodeInternal
    by_cases h1 : rhs < 0
    · rw [if_pos h1, if_pos h1]
    rw [if_neg h1, if_neg h1]
    by_cases h2 : rhs = 0
    · rw [if_pos h2, if_pos h2]
    rw [if_neg h2, if_neg h2]
    have h3 : ¬ (ts.filter fun t => decide (t.2 ≤ rhs)).length > 1 := fun h3 => hm ⟨by omega, h3⟩
    simp only [if_neg h3]

/-! ### Cases and counterexamples -/

private abbrev pa : Lit := (Var.named 0).p
private abbrev pb : Lit := (Var.named 1).p
private abbrev pc : Lit := (Var.named 2).p
private abbrev pd : Lit := (Var.named 3).p
private abbrev e0 : ER := ⟨fun _ => 0, []⟩

/-- Case: 3a + 2b + 2c ≤ 4 by the sequential weight counter: from b follows that a is false. -/
example : ∃ s', encodeInternal ⟨.swc, ⟨true, true, true⟩⟩ [(pa, 3), (pb, 2), (pc, 2)] 4 e0 = some s' ∧
    (UP.Conflict s'.clauses (· = pb) ∨ UP s'.clauses (· = pb) pa.neg) := by
  refine ⟨_, rfl, ?_⟩
  refine (C75_complete ⟨.swc, ⟨true, true, true⟩⟩ (.inl rfl) [(pa, 3), (pb, 2), (pc, 2)] 4 (by decide) e0 _ rfl).2 (pa, 3) (by simp) (· = pb) (by decide) ?_
  have : assumedWeight (· = pb) [(pa, 3), (pb, 2), (pc, 2)] = 2 := by simp [assumedWeight, Var.p]
  rw [this]; decide

/-- Case: the same by binary merge with `gac`. -/
example : ∃ s', encodeInternal ⟨.binaryMerge, ⟨true, true, true⟩⟩ [(pa, 3), (pb, 2), (pc, 2)] 4 e0 = some s' ∧
    (UP.Conflict s'.clauses (· = pb) ∨ UP s'.clauses (· = pb) pa.neg) := by
  refine ⟨_, rfl, ?_⟩
  refine (C75_complete ⟨.binaryMerge, ⟨true, true, true⟩⟩ (.inr (.inr ⟨rfl, rfl⟩)) [(pa, 3), (pb, 2), (pc, 2)] 4 (by decide) e0 _ rfl).2 (pa, 3) (by simp) (· = pb) (by decide) ?_
  have : assumedWeight (· = pb) [(pa, 3), (pb, 2), (pc, 2)] = 2 := by simp [assumedWeight, Var.p]
  rw [this]; decide

/-- Case: without `gac`, 3a + 2b + 2c ≤ 4 and a: b is false since 2 is a power of two. -/
example : ∃ s', encodeInternal ⟨.binaryMerge, ⟨false, true, true⟩⟩ [(pa, 3), (pb, 2), (pc, 2)] 4 e0 = some s' ∧
    (UP.Conflict s'.clauses (· = pa) ∨ UP s'.clauses (· = pa) pb.neg) := by
  refine ⟨_, rfl, ?_⟩
  refine (C75_binary_merge_partial ⟨.binaryMerge, ⟨false, true, true⟩⟩ rfl [(pa, 3), (pb, 2), (pc, 2)] 4 (by decide) e0 _ rfl).2 (pb, 2) (by simp) ⟨1, rfl⟩ (· = pa) (by decide) ?_
  have : assumedWeight (· = pa) [(pa, 3), (pb, 2), (pc, 2)] = 3 := by simp [assumedWeight, Var.p]
  rw [this]; decide

/-- Case: 3a + 2b + 2c ≤ 4 by an adder network, a and b true, c false. -/
example : ∃ s', encodeInternal ⟨.adder, ⟨true, true, true⟩⟩ [(pa, 3), (pb, 2), (pc, 2)] 4 e0 = some s' ∧
    UP.Conflict s'.clauses (· ∈ [pa, pb, pc.neg]) := by
  refine ⟨_, rfl, ?_⟩
  refine C75_adder_partial ⟨.adder, ⟨true, true, true⟩⟩ rfl [(pa, 3), (pb, 2), (pc, 2)] 4 (by decide) e0 _ rfl ?_ rfl _ (by decide) ?_
  · intro t ht; simp only [List.mem_cons, List.not_mem_nil, or_false] at ht; rcases ht with rfl | rfl | rfl <;> trivial
  · have : assumedWeight (· ∈ [pa, pb, pc.neg]) [(pa, 3), (pb, 2), (pc, 2)] = 5 := by simp [assumedWeight, Var.p, Lit.neg]
    rw [this]; decide

private def bmCx : List Clause := match encodeInternal ⟨.binaryMerge, ⟨false, true, true⟩⟩ [(pa, 3), (pb, 1)] 3 e0 with | some s => s.clauses | none => []
private abbrev bmT : List Lit := [(Var.aux .pb 4).n, (Var.aux .pb 1).p, (Var.aux .pb 0).p, pb]

/-- **C75 fails for binary merge without `gac`**: 3a + b ≤ 3 and b force a to be false; unit
propagation does not find it. -/
theorem C75_binary_merge_counterexample : ∃ s', encodeInternal ⟨.binaryMerge, ⟨false, true, true⟩⟩ [(pa, 3), (pb, 1)] 3 e0 = some s' ∧
    ¬ UP.Conflict s'.clauses (· = pb) ∧ ¬ UP s'.clauses (· = pb) pa.neg ∧ ¬ PbComplete s'.clauses [(pa, 3), (pb, 1)] 3 := by
  refine ⟨_, rfl, ?_⟩
  show ¬ UP.Conflict bmCx (· = pb) ∧ ¬ UP bmCx (· = pb) pa.neg ∧ ¬ PbComplete bmCx [(pa, 3), (pb, 1)] 3
  have key : ∀ l, UP bmCx (· = pb) l → l ∈ bmT := fun l hl => UP.of_closed (t := bmT) (fun _ h => by subst h; decide) (by decide) hl
  have h1 : ¬ UP.Conflict bmCx (· = pb) := by
    rintro (h | ⟨l, h1, h2⟩)
    · revert h; decide
    · have h1 := key l h1
      have h2 := key _ h2
      revert h1 h2
      simp only [List.mem_cons, List.not_mem_nil, or_false]
      rintro (rfl | rfl | rfl | rfl) <;> decide
  have h2 : ¬ UP bmCx (· = pb) pa.neg := fun h => by have := key _ h; revert this; decide
  refine ⟨h1, h2, fun h => ?_⟩
  have : assumedWeight (· = pb) [(pa, 3), (pb, 1)] = 1 := by simp [assumedWeight, Var.p]
  exact (h.2 (pa, 3) (by simp) (· = pb) (by decide) (by rw [this]; decide)).elim h1 h2

private abbrev adTs : List (Lit × Int) := [(pa, 3), (pb, 3), (pc, 1), (pd, 1)]
private def adCx : List Clause := match encodeInternal ⟨.adder, ⟨true, true, true⟩⟩ adTs 5 e0 with | some s => s.clauses | none => []
private abbrev adT : List Lit :=
  [(Var.aux .pb 6).n, (Var.aux .pb 8).p, (Var.aux .pb 7).n, (Var.aux .pb 9).n, (Var.aux .pb 5).p, pb, pa]

/-- **C75 fails for adder networks**, even for contradictions: 3a + 3b + c + d ≤ 5 excludes that
a and b are both true; unit propagation does not see it. -/
theorem C75_adder_counterexample : ∃ s', encodeInternal ⟨.adder, ⟨true, true, true⟩⟩ adTs 5 e0 = some s' ∧
    assumedWeight (fun l => l = pa ∨ l = pb) adTs = 6 ∧ ¬ UP.Conflict s'.clauses (fun l => l = pa ∨ l = pb) ∧ ¬ PbDetects s'.clauses adTs 5 := by
  refine ⟨_, rfl, ?_⟩
  show _ ∧ ¬ UP.Conflict adCx (fun l => l = pa ∨ l = pb) ∧ ¬ PbDetects adCx adTs 5
  have key : ∀ l, UP adCx (fun l => l = pa ∨ l = pb) l → l ∈ adT := fun l hl =>
    UP.of_closed (t := adT) (fun _ h => by rcases h with h | h <;> subst h <;> decide) (by decide) hl
  have h1 : ¬ UP.Conflict adCx (fun l => l = pa ∨ l = pb) := by
    rintro (h | ⟨l, h1, h2⟩)
    · revert h; decide
    · have h1 := key l h1
      have h2 := key _ h2
      revert h1 h2
      simp only [List.mem_cons, List.not_mem_nil, or_false]
      rintro (rfl | rfl | rfl | rfl | rfl | rfl | rfl) <;> decide
  have hw : assumedWeight (fun l => l = pa ∨ l = pb) adTs = 6 := by simp [assumedWeight, Var.p]
  exact ⟨hw, h1, fun h => h1 (h _ (by rw [hw]; decide))⟩

end Verif
