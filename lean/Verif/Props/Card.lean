import Verif.Props.Amo
import Verif.Enc.CcEncoder
/-
C22-C25: cardinality constraints.  `ER.Encodes s s' C` (Verif/Enc/Base.lean): an assignment
extends to the auxiliary variables allocated between `s` and `s'` so that all clauses of `s'`
hold iff it satisfied the clauses of `s` and has property `C`.
-/
namespace Verif
open ER

/-- Meaning of a cardinality constraint: compare the number of true variables with the
right-hand side. -/
def CC.Holds (cc : CC) (σ : Asg) : Prop :=
  match cc.cmp with
  | .eq => cntV σ cc.vars = cc.rhs
  | .le => cntV σ cc.vars ≤ cc.rhs
  | .lt => cntV σ cc.vars < cc.rhs
  | .ge => cc.rhs ≤ cntV σ cc.vars
  | .gt => cc.rhs < cntV σ cc.vars

/-- **C22 (at most k).** The totalizer, for every list of variables. -/
theorem C22_totalizer_amk (vars : List Var) (rhs : Nat) (inc : Bool) (s : ER) (hbig : vars.length < 2 ^ 30) (hw : Wf s)
    (hv : ∀ v ∈ vars, s.Old v) :
    ∃ d s', ccAmk .totalizer vars rhs inc s = .ok (d, s') ∧ Encodes s s' (fun σ => cntV σ vars ≤ rhs) :=
  ccAmk_encodes .totalizer inc hbig hw hv (by simp)

/-- **C22 (at least k).** -/
theorem C22_totalizer_alk (vars : List Var) (rhs : Nat) (inc : Bool) (s : ER) (hbig : vars.length < 2 ^ 30) (hw : Wf s)
    (hv : ∀ v ∈ vars, s.Old v) :
    ∃ d s', ccAlk .totalizer vars rhs inc s = .ok (d, s') ∧ Encodes s s' (fun σ => rhs ≤ cntV σ vars) :=
  ccAlk_encodes .totalizer inc hbig hw hv (by simp)

theorem ccExk_encodes (cfg : ExkEnc) (vars : List Var) (rhs : Nat) (s : ER) (hbig : vars.length < 2 ^ 30) (hw : Wf s)
    (hv : ∀ v ∈ vars, s.Old v) (hn : cfg = .cardNet → vars.Nodup) :
    ∃ s', ccExk cfg vars rhs s = .ok s' ∧ Encodes s s' (fun σ => cntV σ vars = rhs) := by
  have hle : ∀ σ, cntV σ vars ≤ vars.length := fun σ => List.countP_le_length
  unfold ccExk
  by_cases h1 : rhs > vars.length
  · rw [if_pos h1]
    exact ⟨_, rfl, (empty_encodes hw).congr fun σ => by have := hle σ; simp; omega⟩
  rw [if_neg h1]
  by_cases h0 : rhs = 0
  · rw [if_pos h0]
    refine ⟨_, rfl, ?_⟩
    have E := units_encodes hw (map_n_old hv)
    rw [List.map_map] at E
    refine E.congr fun σ => ?_
    have := cntL_map_n σ vars
    simp; omega
  rw [if_neg h0]
  by_cases h2 : rhs = vars.length
  · rw [if_pos h2]
    refine ⟨_, rfl, ?_⟩
    have E := units_encodes hw (map_p_old hv)
    rw [List.map_map] at E
    refine E.congr fun σ => ?_
    rw [cntL_map_p]
    simp; omega
  rw [if_neg h2]
  cases cfg with
  | totalizer => exact ⟨_, rfl, totExk_encodes (by omega) (by omega) hw hv⟩
  | best => exact ⟨_, rfl, totExk_encodes (by omega) (by omega) hw hv⟩
  | cardNet => exact cnExk_encodes (by omega) (by omega) hbig hw hv (hn rfl)

/-- **C22 (exactly k).** -/
theorem C22_totalizer_exk (vars : List Var) (rhs : Nat) (s : ER) (hbig : vars.length < 2 ^ 30) (hw : Wf s)
    (hv : ∀ v ∈ vars, s.Old v) :
    ∃ s', ccExk .totalizer vars rhs s = .ok s' ∧ Encodes s s' (fun σ => cntV σ vars = rhs) :=
  ccExk_encodes .totalizer vars rhs s hbig hw hv (by simp)

/-- **C23.** The modular totalizer (also the default `Best`). -/
theorem C23_modular_amk (cfg : AmkEnc) (hc : cfg = .modular ∨ cfg = .best) (vars : List Var) (rhs : Nat) (inc : Bool) (s : ER)
    (hbig : vars.length < 2 ^ 30) (hw : Wf s) (hv : ∀ v ∈ vars, s.Old v) :
    ∃ d s', ccAmk cfg vars rhs inc s = .ok (d, s') ∧ Encodes s s' (fun σ => cntV σ vars ≤ rhs) :=
  ccAmk_encodes cfg inc hbig hw hv (by rcases hc with rfl | rfl <;> simp)

theorem C23_modular_alk (cfg : AmkEnc) (hc : cfg = .modular ∨ cfg = .best) (vars : List Var) (rhs : Nat) (inc : Bool) (s : ER)
    (hbig : vars.length < 2 ^ 30) (hw : Wf s) (hv : ∀ v ∈ vars, s.Old v) :
    ∃ d s', ccAlk cfg vars rhs inc s = .ok (d, s') ∧ Encodes s s' (fun σ => rhs ≤ cntV σ vars) :=
  ccAlk_encodes cfg inc hbig hw hv (by rcases hc with rfl | rfl <;> simp)

/-- **C24.** Cardinality networks: at most, at least and exactly k, for distinct variables. -/
theorem C24_card_network (vars : List Var) (rhs : Nat) (inc : Bool) (s : ER) (hbig : vars.length < 2 ^ 30) (hw : Wf s)
    (hv : ∀ v ∈ vars, s.Old v) (hn : vars.Nodup) :
    (∃ d s', ccAmk .cardNet vars rhs inc s = .ok (d, s') ∧ Encodes s s' (fun σ => cntV σ vars ≤ rhs)) ∧
    (∃ d s', ccAlk .cardNet vars rhs inc s = .ok (d, s') ∧ Encodes s s' (fun σ => rhs ≤ cntV σ vars)) ∧
    (∃ s', ccExk .cardNet vars rhs s = .ok s' ∧ Encodes s s' (fun σ => cntV σ vars = rhs)) :=
  ⟨ccAmk_encodes .cardNet inc hbig hw hv (fun _ => hn), ccAlk_encodes .cardNet inc hbig hw hv (fun _ => hn),
   ccExk_encodes .cardNet vars rhs s hbig hw hv (fun _ => hn)⟩

/-- **C24.** The sorting network itself, for every direction and every number `m` of sorted
outputs wanted: the k-th output is implied by (direction input-to-output) resp. implies
(output-to-input) that more than `k` inputs are true, and nothing is said about the inputs. -/
theorem C24_sorter (m : Nat) (x : List Lit) (d : Dir) (s : ER) (hbig : x.length < 2 ^ 30) (hw : Wf s)
    (hx : ∀ l ∈ x, s.Old l.v) (hn : x.Nodup) (hm : d = .i2o → 3 ≤ x.length → 2 ≤ m) :
    ∃ out s', ccSort (x.length + 1) m x d s = some (out, s') ∧ out.length = min m x.length ∧
      Encodes s s' (fun _ => True) ∧
      ∀ σ, Sat σ s' → ∀ k, k < out.length →
        (d ≠ .o2i → k < cntL σ x → (out.nth k).eval σ = true) ∧ (d ≠ .i2o → (out.nth k).eval σ = true → k < cntL σ x) := by
  obtain ⟨out, s', e, S⟩ := ccSort_spec (x.length + 1) m x d s (by omega) hbig hw hx hn hm
  refine ⟨out, s', e, S.len, Encodes.mk' S.le hw S.wf (fun _ _ _ _ => trivial) (fun _ _ => trivial) ?_, ?_⟩
  · intro σ hs _
    obtain ⟨σ', ag, hs', _⟩ := S.compl σ hs
    exact ⟨σ', ag, hs'⟩
  · intro σ hs k hk
    exact ⟨fun h1 h2 => S.up h1 σ hs k hk h2, fun h1 h2 => S.dn h1 σ hs k hk h2⟩

/-- A configuration whose at-most-one encoder terminates. -/
def CcCfg.Good (cfg : CcCfg) : Prop := cfg.amo.Good

theorem ccExo_encodes (cfg : AmoCfg) (hcfg : cfg.Good) (vars : List Var) (s : ER) (fuel : Nat) (hf : vars.length < fuel) (hw : Wf s)
    (hv : ∀ v ∈ vars, s.Old v) : ∃ s', ccExo cfg fuel vars s = .ok s' ∧ Encodes s s' (fun σ => cntV σ vars = 1) := by
  unfold ccExo
  match vars, hf, hv with
  | [], _, _ => exact ⟨_, rfl, (empty_encodes hw).congr fun σ => by simp [cntV]⟩
  | [v], _, hv =>
    refine ⟨_, rfl, (addClauses_encodes hw ?_).congr fun σ => ?_⟩
    · intro c hc l hl; simp at hc; subst hc; simp at hl; subst hl; exact hv v (by simp)
    · show (∀ c ∈ [[v.p]], Clause.Sat σ c) ↔ _
      cases h : σ v <;> simp [Clause.Sat, cntV, h]
  | v :: w :: vs, hf, hv =>
    simp only [List.isEmpty_cons, Bool.false_eq_true, if_false]
    rw [if_neg (by simp)]
    obtain ⟨s1, e, E⟩ := C21_amo_correct cfg hcfg (v :: w :: vs) s fuel hf hw hv
    rw [e]
    refine ⟨_, rfl, ?_⟩
    have E2 : Encodes s1 (s1.addClauses [(v :: w :: vs).map Var.p]) (fun σ => 1 ≤ cntV σ (v :: w :: vs)) := by
      refine (addClauses_encodes E.wf ?_).congr fun σ => ?_
      · intro c hc l hl; rw [List.mem_singleton] at hc; subst hc; exact E.le.old (map_p_old hv l hl)
      · unfold cntV
        rw [Nat.succ_le_iff, List.countP_pos_iff]
        simp [Clause.Sat]
    exact (E.trans E2 (fun σ σ' ag h => by rw [← ag.cntV hv]; exact h)).congr fun σ => by omega

/-- Configurations that use cardinality networks. -/
def CcCfg.CardNet (cfg : CcCfg) : Prop := cfg.amk = .cardNet ∨ cfg.alk = .cardNet ∨ cfg.exk = .cardNet

/-- **C21-C24 together.** `encode_constraint` encodes every cardinality constraint correctly,
for every comparator, right-hand side and encoder configuration with terminating parameters.
`LT` with right-hand side 0 is excluded: the factory never builds it (`is_cc`) and the code
panics. -/
theorem C24_encode_constraint (cfg : CcCfg) (hcfg : cfg.Good) (cc : CC) (s : ER) (fuel : Nat) (hf : cc.vars.length < fuel)
    (hbig : cc.vars.length < 2 ^ 30) (hw : Wf s) (hv : ∀ v ∈ cc.vars, s.Old v) (hn : cfg.CardNet → cc.vars.Nodup)
    (hlt : cc.cmp = .lt → 1 ≤ cc.rhs) :
    ∃ s', encodeConstraint cfg fuel cc s = .ok s' ∧ Encodes s s' cc.Holds := by
  obtain ⟨vars, cmp, rhs⟩ := cc
  simp only at *
  have hamk := fun r => ccAmk_encodes cfg.amk false (rhs := r) hbig hw hv (fun h => hn (.inl h))
  have halk := fun r => ccAlk_encodes cfg.alk false (rhs := r) hbig hw hv (fun h => hn (.inr (.inl h)))
  unfold encodeConstraint
  cases cmp with
  | le =>
    simp only
    by_cases h : rhs = 1
    · rw [if_pos h]
      obtain ⟨s', e, E⟩ := C21_amo_correct cfg.amo hcfg vars s fuel hf hw hv
      exact ⟨s', e, E.congr fun σ => by simp [CC.Holds, h]⟩
    · rw [if_neg h]
      obtain ⟨d, s', e, E⟩ := hamk rhs
      rw [e]; exact ⟨s', rfl, E⟩
  | lt =>
    simp only
    have := hlt rfl
    by_cases h : rhs = 2
    · rw [if_pos h]
      obtain ⟨s', e, E⟩ := C21_amo_correct cfg.amo hcfg vars s fuel hf hw hv
      exact ⟨s', e, E.congr fun σ => by simp [CC.Holds, h]; omega⟩
    · rw [if_neg h, if_neg (by omega)]
      obtain ⟨d, s', e, E⟩ := hamk (rhs - 1)
      rw [e]; exact ⟨s', rfl, E.congr fun σ => by simp [CC.Holds]; omega⟩
  | ge =>
    simp only
    obtain ⟨d, s', e, E⟩ := halk rhs
    rw [e]; exact ⟨s', rfl, E⟩
  | gt =>
    simp only
    obtain ⟨d, s', e, E⟩ := halk (rhs + 1)
    rw [e]; exact ⟨s', rfl, E.congr fun σ => by simp [CC.Holds]; omega⟩
  | eq =>
    simp only
    by_cases h : rhs = 1
    · rw [if_pos h]
      obtain ⟨s', e, E⟩ := ccExo_encodes cfg.amo hcfg vars s fuel hf hw hv
      exact ⟨s', e, E.congr fun σ => by simp [CC.Holds, h]⟩
    · rw [if_neg h]
      exact ccExk_encodes cfg.exk vars rhs s hbig hw hv (fun h => hn (.inr (.inr h)))

/-- Apply a sequence of new upper bounds. -/
def newUppers : List Nat → IncData → ER → Out (IncData × ER)
  | [], d, s => .ok (d, s)
  | r :: rs, d, s => (newUpper d r s).bind fun (d, s) => newUppers rs d s

/-- Apply a sequence of new lower bounds. -/
def newLowers : List Nat → IncData → ER → Out (IncData × ER)
  | [], d, s => .ok (d, s)
  | r :: rs, d, s => (newLower d r s).bind fun (d, s) => newLowers rs d s

/-- Every bound is below the one before. -/
def Decreasing : Nat → List Nat → Prop
  | _, [] => True
  | r, r' :: rs => r' < r ∧ Decreasing r' rs

/-- Every bound is above the one before and none exceeds `n`. -/
def IncreasingTo (n : Nat) : Nat → List Nat → Prop
  | _, [] => True
  | r, r' :: rs => r < r' ∧ r' ≤ n ∧ IncreasingTo n r' rs

theorem newUppers_ok {vars : List Var} {s : ER} (bs : List Nat) : ∀ {r : Nat} {d : IncData} {s' : ER}, Decreasing r bs →
    d.UpOK r → IncOK s s' (CUp vars) TUp r (ubClauses d) →
    ∃ d' s'', newUppers bs d s' = .ok (d', s'') ∧ d'.UpOK (bs.getLastD r) ∧
      IncOK s s'' (CUp vars) TUp (bs.getLastD r) (ubClauses d') := by
  induction bs with
  | nil => intro r d s' _ h I; exact ⟨d, s', rfl, h, I⟩
  | cons b bs ih =>
    intro r d s' hd h I
    obtain ⟨e, h', ec⟩ := newUpper_eq (s := s') h hd.1
    have I' := I.step (r' := b) hd.1 (fun r'' h'' => Nat.lt_trans h'' hd.1) (fun σ h => Nat.le_trans h (Nat.le_of_lt hd.1))
    have he : newUppers (b :: bs) d s' = newUppers bs { d with cur := b } (s'.addClauses (ubClauses d b)) := by
      simp only [newUppers]; rw [e]; rfl
    rw [he, List.getLastD_cons]
    exact ih hd.2 h' (by rw [ec]; exact I')

theorem newLowers_ok {vars : List Var} {s : ER} (bs : List Nat) : ∀ {r : Nat} {d : IncData} {s' : ER}, IncreasingTo vars.length r bs →
    d.LoOK vars.length r → IncOK s s' (CLo vars) (TLo vars.length) r (lbClauses d) →
    ∃ d' s'', newLowers bs d s' = .ok (d', s'') ∧ d'.LoOK vars.length (bs.getLastD r) ∧
      IncOK s s'' (CLo vars) (TLo vars.length) (bs.getLastD r) (lbClauses d') := by
  induction bs with
  | nil => intro r d s' _ h I; exact ⟨d, s', rfl, h, I⟩
  | cons b bs ih =>
    intro r d s' hd h I
    obtain ⟨e, h', ec⟩ := newLower_eq (s := s') h hd.1 hd.2.1
    have I' := I.step (r' := b) ⟨hd.1, hd.2.1⟩ (fun r'' h'' => ⟨Nat.lt_trans hd.1 h''.1, h''.2⟩) (fun σ h => Nat.le_trans (Nat.le_of_lt hd.1) h)
    have he : newLowers (b :: bs) d s' = newLowers bs { d with cur := b } (s'.addClauses (lbClauses d b)) := by
      simp only [newLowers]; rw [e]; rfl
    rw [he, List.getLastD_cons]
    exact ih hd.2.2 h' (by rw [ec]; exact I')

/-- **C25 (upper bounds).** Encode `LE rhs` incrementally and then tighten through any
decreasing sequence of bounds: nothing panics, and the clauses together encode exactly the
last bound. -/
theorem C25_incremental_upper (cfg : CcCfg) (vars : List Var) (rhs : Nat) (bs : List Nat) (s : ER) (h1 : 1 ≤ rhs) (h2 : rhs < vars.length)
    (hbig : vars.length < 2 ^ 30) (hw : Wf s) (hv : ∀ v ∈ vars, s.Old v) (hn : vars.Nodup) (hbs : Decreasing rhs bs) :
    ∃ d s1 d' s2, encodeIncremental cfg ⟨vars, .le, rhs⟩ s = .ok (some d, s1) ∧ newUppers bs d s1 = .ok (d', s2) ∧
      Encodes s s1 (fun σ => cntV σ vars ≤ rhs) ∧ Encodes s s2 (fun σ => cntV σ vars ≤ bs.getLastD rhs) := by
  obtain ⟨d, s1, e, U, I⟩ := ccAmk_inc cfg.amk h1 h2 hbig hw hv (fun _ => hn)
  obtain ⟨d', s2, e2, _, I2⟩ := newUppers_ok bs hbs U I
  have hst : ∀ r σ σ', Agree s σ σ' → CUp vars r σ → CUp vars r σ' := by
    intro r σ σ' ag h; show _ ≤ _; rw [← ag.cntV hv]; exact h
  exact ⟨d, s1, d', s2, e, e2, I.encodes hw (hst _), I2.encodes hw (hst _)⟩

/-- **C25 (lower bounds).** The same for `GE rhs` and increasing bounds up to the number of
variables. -/
theorem C25_incremental_lower_partial (cfg : CcCfg) (vars : List Var) (rhs : Nat) (bs : List Nat) (s : ER) (h1 : 2 ≤ rhs) (h2 : rhs < vars.length)
    (hbig : vars.length < 2 ^ 30) (hw : Wf s) (hv : ∀ v ∈ vars, s.Old v) (hn : vars.Nodup) (hbs : IncreasingTo vars.length rhs bs) :
    ∃ d s1 d' s2, encodeIncremental cfg ⟨vars, .ge, rhs⟩ s = .ok (some d, s1) ∧ newLowers bs d s1 = .ok (d', s2) ∧
      Encodes s s1 (fun σ => rhs ≤ cntV σ vars) ∧ Encodes s s2 (fun σ => bs.getLastD rhs ≤ cntV σ vars) := by
  obtain ⟨d, s1, e, U, I⟩ := ccAlk_inc cfg.alk h1 h2 hbig hw hv (fun _ => hn)
  obtain ⟨d', s2, e2, _, I2⟩ := newLowers_ok bs hbs U I
  have hst : ∀ r σ σ', Agree s σ σ' → CLo vars r σ → CLo vars r σ' := by
    intro r σ σ' ag h; show _ ≤ _; rw [← ag.cntV hv]; exact h
  exact ⟨d, s1, d', s2, e, e2, I.encodes hw (hst _), I2.encodes hw (hst _)⟩

/-- **C25, violated.** A lower bound above the number of variables, which nothing can
satisfy, is not made unsatisfiable by the totalizer: it encodes "all variables true".  (With
the other two encoders the code panics on `n_vars - rhs`.) -/
theorem C25_lower_bound_above_n_violated (vars : List Var) (rhs r : Nat) (s : ER) (h1 : 2 ≤ rhs) (h2 : rhs < vars.length)
    (hr : vars.length < r) (hbig : vars.length < 2 ^ 30) (hw : Wf s) (hv : ∀ v ∈ vars, s.Old v) :
    ∃ d s1 d' s2, ccAlk .totalizer vars rhs true s = .ok (some d, s1) ∧ newLower d r s1 = .ok (d', s2) ∧
      Encodes s s2 (fun σ => cntV σ vars = vars.length) ∧ ∀ σ, ¬ (CC.mk vars .ge r).Holds σ := by
  obtain ⟨d, s1, e, U, I⟩ := ccAlk_inc .totalizer h1 h2 hbig hw hv (by simp)
  have hd : d.v1.length ≤ vars.length ∧ d.alk = some .totalizer := by
    unfold ccAlk at e
    rw [if_neg (by omega), if_neg (by omega), if_neg (by omega), if_neg (by omega)] at e
    simp at e
    rw [← e.1]
    refine ⟨?_, rfl⟩
    simp only [List.length_map, totAlk]
    obtain ⟨E, he⟩ := totBuild_spec .lower (vars := vars) (rhs := rhs) (by omega) hw hv
    rw [he]; simp
  obtain ⟨e2, _, _⟩ := newLower_eq (s := s1) (r' := vars.length) U h2 (Nat.le_refl _)
  have I' := I.step (r' := vars.length) ⟨h2, Nat.le_refl _⟩ (fun r'' h'' => ⟨Nat.lt_trans h2 h''.1, h''.2⟩) (fun σ h => Nat.le_trans (Nat.le_of_lt h2) h)
  have E := I'.encodes hw (fun σ σ' ag h => by show _ ≤ _; rw [← ag.cntV hv]; exact h)
  have hle : ∀ σ, cntV σ vars ≤ vars.length := fun σ => List.countP_le_length
  refine ⟨d, s1, { d with cur := r }, _, e, ?_, E.congr fun σ => ?_, fun σ h => ?_⟩
  · unfold newLower
    rw [if_neg (by have := U.1; omega)]
    simp only [hd.2]
    rw [List.take_of_length_le (by omega)]
    unfold lbClauses
    simp only [hd.2]
    rw [List.take_of_length_le hd.1]
  · have := hle σ
    constructor
    · intro h; have h' : vars.length ≤ cntV σ vars := h; omega
    · intro h; show _ ≤ _; omega
  · have h' : r ≤ cntV σ vars := h
    have := hle σ; omega

/-- A bound that does not tighten is refused. -/
theorem C25_no_loosening (d : IncData) (r : Nat) (s : ER) :
    (d.cur ≤ r → newUpper d r s = .panic) ∧ (r ≤ d.cur → newLower d r s = .panic) := by
  constructor <;> intro h
  · unfold newUpper; rw [if_pos (by omega)]
  · unfold newLower; rw [if_pos (by omega)]

/-! Non-vacuity -/

def exVars : List Var := [.named 0, .named 1, .named 2, .named 3, .named 4, .named 5]
def exState : ER := ⟨fun _ => 0, [[(Var.named 0).p, (Var.named 7).n]]⟩

example : Wf exState ∧ (∀ v ∈ exVars, exState.Old v) ∧ exVars.Nodup ∧ exVars.length < 2 ^ 30 ∧ Decreasing 4 [3, 1, 0] ∧
    IncreasingTo exVars.length 2 [4, 5, 6] ∧ (CcCfg.mk .best .best .cardNet .cardNet).Good := by
  refine ⟨?_, ?_, by decide, by decide, by simp [Decreasing], by simp [IncreasingTo, exVars], trivial⟩
  · intro c hc l hl; simp [exState] at hc; subst hc; simp at hl; rcases hl with rfl | rfl <;> trivial
  · intro v hv; simp [exVars] at hv; rcases hv with rfl | rfl | rfl | rfl | rfl | rfl <;> trivial

/-- Test: the encoders produce clauses. -/
example : (match encodeConstraint ⟨.best, .cardNet, .cardNet, .cardNet⟩ 10 ⟨exVars, .eq, 3⟩ exState with
    | .ok s => decide (s.clauses.length > 20) | _ => false) = true := by decide

/-- The restriction to distinct variables in `C24_card_network` is needed: with a repeated
variable the comparator's assertion fails. -/
theorem C24_repeated_variable_panics :
    encodeConstraint ⟨.best, .cardNet, .cardNet, .cardNet⟩ 10 ⟨[.named 1, .named 0, .named 0], .eq, 2⟩ exState = .panic := by rfl

end Verif
