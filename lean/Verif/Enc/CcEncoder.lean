import Verif.Enc.Sorter3
/-
Model of src/cardinality_constraints/{cc_cardinality_networks,cc_incremental_data,cc_encoder}.rs.
-/
namespace Verif
open ER

/-- `AmkEncoder` and `AlkEncoder`, cc_config.rs. -/
inductive AmkEnc | totalizer | modular | cardNet | best
  deriving DecidableEq, Repr
/-- `ExkEncoder`, cc_config.rs. -/
inductive ExkEnc | totalizer | cardNet | best
  deriving DecidableEq, Repr
/-- `CcConfig`, cc_config.rs. -/
structure CcCfg where
  amo : AmoCfg
  amk : AmkEnc
  alk : AmkEnc
  exk : ExkEnc

/-- `CType`, pbc_cc.rs. -/
inductive Cmp | eq | le | lt | ge | gt
  deriving DecidableEq, Repr

/-- `CardinalityConstraint`, pbc_cc.rs. -/
structure CC where
  vars : List Var
  cmp : Cmp
  rhs : Nat

/-- `CcIncrementalData`, cc_incremental_data.rs:11-19. -/
structure IncData where
  amk : Option AmkEnc
  alk : Option AmkEnc
  v1 : List Lit
  v2 : Option (List Lit)
  md : Nat
  nVars : Nat
  cur : Nat

/-- The encoders' result: a panic, or incremental data and the new state. -/
abbrev EncOut := Out (Option IncData × ER)

def Out.ofOption {α} : Option α → Out α
  | none => .panic
  | some a => .ok a

def Out.bind {α β} : Out α → (α → Out β) → Out β
  | .ok a, f => f a
  | .panic, _ => .panic
  | .diverge, _ => .diverge

/-- `output.get(i).unwrap()`. -/
def getU (l : List Lit) (i : Nat) : Out Lit := if i < l.length then .ok (l.nth i) else .panic

/-- `cc_sort` with enough fuel. -/
def sortU (m : Nat) (x : List Lit) (d : Dir) (s : ER) : Out (List Lit × ER) := Out.ofOption (ccSort (x.length + 1) m x d s)

/-- `build_amk`, cc_cardinality_networks.rs:8-26 and `build_amk_for_incremental` 56-61. -/
def cnAmk (vars : List Var) (rhs : Nat) (inc : Bool) (s : ER) : EncOut :=
  if inc then
    (sortU (rhs + 1) (vars.map Var.p) .i2o s).bind fun (out, s) =>
    (getU out rhs).bind fun o =>
    .ok (some ⟨some .cardNet, none, out, none, 0, 0, rhs⟩, s.addClauses [[o.neg]])
  else if rhs > vars.length / 2 then
    let geq := vars.length - rhs
    (sortU geq (vars.map Var.n) .o2i s).bind fun (out, s) =>
    .ok (none, s.addClauses ((out.take geq).map fun o => [o]))
  else
    (sortU (rhs + 1) (vars.map Var.p) .i2o s).bind fun (out, s) =>
    (getU out rhs).bind fun o => .ok (none, s.addClauses [[o.neg]])

/-- `build_alk`, cc_cardinality_networks.rs:28-47 and `build_alk_for_incremental` 63-69. -/
def cnAlk (vars : List Var) (rhs : Nat) (inc : Bool) (s : ER) : EncOut :=
  let newRhs := vars.length - rhs
  if inc then
    (sortU (newRhs + 1) (vars.map Var.n) .i2o s).bind fun (out, s) =>
    (getU out newRhs).bind fun o =>
    .ok (some ⟨none, some .cardNet, out, none, 0, vars.length, rhs⟩, s.addClauses [[o.neg]])
  else if newRhs > vars.length / 2 then
    let geq := vars.length - newRhs
    (sortU geq (vars.map Var.p) .o2i s).bind fun (out, s) =>
    .ok (none, s.addClauses ((out.take geq).map fun o => [o]))
  else
    (sortU (newRhs + 1) (vars.map Var.n) .i2o s).bind fun (out, s) =>
    (getU out newRhs).bind fun o => .ok (none, s.addClauses [[o.neg]])

/-- `build_exk`, cc_cardinality_networks.rs:49-54. -/
def cnExk (vars : List Var) (rhs : Nat) (s : ER) : Out ER :=
  (sortU (rhs + 1) (vars.map Var.p) .both s).bind fun (out, s) =>
  (getU out rhs).bind fun o => (getU out (rhs - 1)).bind fun o' => .ok ((s.addClauses [[o.neg]]).addClauses [[o']])

/-- `CcEncoder::amk`, cc_encoder.rs:129-146 (with the incremental data of
`cc_totalizer::build_amk` 16-21 and `cc_modular_totalizer::build_amk` 38-42). -/
def ccAmk (cfg : AmkEnc) (vars : List Var) (rhs : Nat) (inc : Bool) (s : ER) : EncOut :=
  if rhs ≥ vars.length then .ok (none, s)
  else if rhs = 0 then .ok (none, s.addClauses (vars.map fun v => [v.n]))
  else match cfg with
    | .totalizer =>
      let (O, s) := totAmk vars rhs s
      .ok (if inc then some ⟨some .totalizer, none, O.map Var.p, none, 0, 0, rhs⟩ else none, s)
    | .modular | .best =>
      (Out.ofOption (modAmk vars rhs s)).bind fun ((U, W, md), s) =>
      .ok (if inc then some ⟨some .modular, none, U, some W, md, 0, rhs⟩ else none, s)
    | .cardNet => cnAmk vars rhs inc s

/-- `CcEncoder::alk`, cc_encoder.rs:148-170. -/
def ccAlk (cfg : AmkEnc) (vars : List Var) (rhs : Nat) (inc : Bool) (s : ER) : EncOut :=
  if rhs > vars.length then .ok (none, s.addClauses [[]])
  else if rhs = 0 then .ok (none, s)
  else if rhs = 1 then .ok (none, s.addClauses [vars.map Var.p])
  else if rhs = vars.length then .ok (none, s.addClauses (vars.map fun v => [v.p]))
  else match cfg with
    | .totalizer =>
      let (O, s) := totAlk vars rhs s
      .ok (if inc then some ⟨none, some .totalizer, O.map Var.p, none, 0, vars.length, rhs⟩ else none, s)
    | .modular | .best =>
      (Out.ofOption (modAlk vars rhs s)).bind fun ((U, W, md), s) =>
      .ok (if inc then some ⟨none, some .modular, U, some W, md, vars.length, rhs⟩ else none, s)
    | .cardNet => cnAlk vars rhs inc s

/-- `CcEncoder::exo`, cc_encoder.rs:172-182. -/
def ccExo (cfg : AmoCfg) (fuel : Nat) (vars : List Var) (s : ER) : Out ER :=
  if vars.isEmpty then .ok (s.addClauses [[]])
  else if vars.length = 1 then .ok (s.addClauses [[(vars.nth 0).p]])
  else (amo cfg fuel vars s).bind fun s => .ok (s.addClauses [vars.map Var.p])

/-- `CcEncoder::exk`, cc_encoder.rs:184-201. -/
def ccExk (cfg : ExkEnc) (vars : List Var) (rhs : Nat) (s : ER) : Out ER :=
  if rhs > vars.length then .ok (s.addClauses [[]])
  else if rhs = 0 then .ok (s.addClauses (vars.map fun v => [v.n]))
  else if rhs = vars.length then .ok (s.addClauses (vars.map fun v => [v.p]))
  else match cfg with
    | .totalizer | .best => .ok (totExk vars rhs s)
    | .cardNet => cnExk vars rhs s

/-- `CcEncoder::encode_constraint`, cc_encoder.rs:49-83.  `rhs - 1` panics on `rhs = 0`
(debug build). -/
def encodeConstraint (cfg : CcCfg) (fuel : Nat) (cc : CC) (s : ER) : Out ER :=
  match cc.cmp with
  | .le => if cc.rhs = 1 then amo cfg.amo fuel cc.vars s
      else (ccAmk cfg.amk cc.vars cc.rhs false s).bind fun r => .ok r.2
  | .lt => if cc.rhs = 2 then amo cfg.amo fuel cc.vars s
      else if cc.rhs = 0 then .panic
      else (ccAmk cfg.amk cc.vars (cc.rhs - 1) false s).bind fun r => .ok r.2
  | .ge => (ccAlk cfg.alk cc.vars cc.rhs false s).bind fun r => .ok r.2
  | .gt => (ccAlk cfg.alk cc.vars (cc.rhs + 1) false s).bind fun r => .ok r.2
  | .eq => if cc.rhs = 1 then ccExo cfg.amo fuel cc.vars s else ccExk cfg.exk cc.vars cc.rhs s

/-- `CcEncoder::encode_incremental_constraint`, cc_encoder.rs:85-97. -/
def encodeIncremental (cfg : CcCfg) (cc : CC) (s : ER) : EncOut :=
  match cc.cmp with
  | .le => ccAmk cfg.amk cc.vars cc.rhs true s
  | .lt => if cc.rhs = 0 then .panic else ccAmk cfg.amk cc.vars (cc.rhs - 1) true s
  | .ge => ccAlk cfg.alk cc.vars cc.rhs true s
  | .gt => ccAlk cfg.alk cc.vars (cc.rhs + 1) true s
  | .eq => .panic

/-- `add_modular_totalizer_constraints`, cc_incremental_data.rs:138-153 (division by zero
panics). -/
def addModular (d : IncData) (rhs : Nat) (s : ER) : Out ER :=
  match d.v2 with
  | none => .panic
  | some v2 => if d.md = 0 ∨ modBoundPanic rhs d.md d.v1 v2 then .panic else .ok (s.addClauses (modBound rhs d.md d.v1 v2))

/-- `compute_ub_constraint`, cc_incremental_data.rs:72-94. -/
def newUpper (d : IncData) (rhs : Nat) (s : ER) : Out (IncData × ER) :=
  if ¬ rhs < d.cur then .panic else
  let d := { d with cur := rhs }
  match d.amk with
  | some .totalizer => .ok (d, s.addClauses ((d.v1.drop rhs).map fun l => [l.neg]))
  | some .modular => (addModular d rhs s).bind fun s => .ok (d, s)
  | some .cardNet => .ok (d, if d.v1.length > rhs then s.addClauses [[(d.v1.nth rhs).neg]] else s)
  | some .best => .panic
  | none => .panic

/-- `compute_lb_constraint`, cc_incremental_data.rs:113-136 (`n_vars - rhs` panics on
underflow in a debug build). -/
def newLower (d : IncData) (rhs : Nat) (s : ER) : Out (IncData × ER) :=
  if ¬ rhs > d.cur then .panic else
  let d := { d with cur := rhs }
  match d.alk with
  | some .totalizer => .ok (d, s.addClauses ((d.v1.take rhs).map fun l => [l]))
  | some .modular => if d.nVars < rhs then .panic else (addModular d (d.nVars - rhs) s).bind fun s => .ok (d, s)
  | some .cardNet => if d.nVars < rhs then .panic else
      .ok (d, if d.v1.length > d.nVars - rhs then s.addClauses [[(d.v1.nth (d.nVars - rhs)).neg]] else s)
  | some .best => .panic
  | none => .panic

/-! ### Lemmas -/

/-- A sorted network with the output `rhs` forbidden. -/
theorem cnInc {x : List Lit} {rhs : Nat} {s : ER} (h1 : 1 ≤ rhs) (hr : rhs < x.length) (hbig : x.length < 2 ^ 30) (hw : Wf s)
    (hv : ∀ l ∈ x, s.Old l.v) (nx : x.Nodup) :
    ∃ out s', ccSort (x.length + 1) (rhs + 1) x .i2o s = some (out, s') ∧ out.length = rhs + 1 ∧
      IncOK s (s'.addClauses [[(out.nth rhs).neg]]) (fun r σ => cntL σ x ≤ r) TUp rhs
        (fun r => if out.length > r then [[(out.nth r).neg]] else []) := by
  obtain ⟨out, s', e, S⟩ := ccSort_spec (x.length + 1) (rhs + 1) x .i2o s (by omega) hbig hw hv nx (fun _ _ => by omega)
  have hlen : out.length = rhs + 1 := by rw [S.len]; omega
  refine ⟨out, s', e, hlen, ⟨S.le.trans (addClauses_le _ _), addClauses_wf S.wf ?_, ?_, ?_, ?_, ?_⟩⟩
  · intro c hc l hl; simp at hc; subst hc; simp at hl; subst hl; rw [Lit.neg_v]; exact S.old _ (getBang_mem (by omega))
  · intro r hr c hc l hl
    rw [if_pos (by omega)] at hc
    simp at hc; subst hc; simp at hl; subst hl; rw [Lit.neg_v, addClauses_old]; exact S.old _ (getBang_mem (by omega))
  · intro σ hs
    rw [addClauses_sat] at hs
    have := hs.2 _ (List.mem_singleton.2 rfl)
    by_contra hc
    have h := S.up (by simp) σ hs.1 rhs (by omega) (by omega)
    simp [Clause.Sat, h] at this
  · intro σ r hs hr hc
    rw [addClauses_sat] at hs
    rw [if_pos (by omega)] at hc
    have := hc _ (List.mem_singleton.2 rfl)
    by_contra hc
    have h := S.up (by simp) σ hs.1 r (by omega) (by omega)
    simp [Clause.Sat, h] at this
  · intro σ hs hc
    obtain ⟨σ', ag, hs', hx⟩ := S.compl σ hs
    refine ⟨σ', ag, addClauses_sat.2 ⟨hs', ?_⟩, ?_⟩
    · intro c hc'; simp at hc'; subst hc'
      have := hx rhs (by omega)
      simp [Clause.Sat, this]; omega
    · intro r hr hcr c hc'
      rw [if_pos (by omega)] at hc'
      simp at hc'; subst hc'
      have := hx r (by omega)
      simp [Clause.Sat, this]; omega

/-- A sorted network with the first `geq` outputs enforced. -/
theorem cnGeq {x : List Lit} {geq : Nat} {s : ER} (hr : geq ≤ x.length) (hbig : x.length < 2 ^ 30) (hw : Wf s)
    (hv : ∀ l ∈ x, s.Old l.v) (nx : x.Nodup) :
    ∃ out s', ccSort (x.length + 1) geq x .o2i s = some (out, s') ∧
      Encodes s (s'.addClauses ((out.take geq).map fun o => [o])) (fun σ => geq ≤ cntL σ x) := by
  obtain ⟨out, s', e, S⟩ := ccSort_spec (x.length + 1) geq x .o2i s (by omega) hbig hw hv nx (fun h => by simp at h)
  have hlen : out.length = geq := by rw [S.len]; omega
  refine ⟨out, s', e, ?_⟩
  rw [List.take_of_length_le (by omega)]
  refine Encodes.mk' (S.le.trans (addClauses_le _ _)) hw (addClauses_wf S.wf ?_) ?_ ?_ ?_
  · intro c hc l hl; simp at hc; obtain ⟨o, ho, rfl⟩ := hc; simp at hl; subst hl; exact S.old _ ho
  · intro σ σ' ag h; rw [← ag.cntL hv]; exact h
  · intro σ hs
    rw [addClauses_sat] at hs
    by_cases h0 : geq = 0
    · omega
    · have := hs.2 [out.nth (geq - 1)] (by simp; exact getBang_mem (by omega))
      have := S.dn (by simp) σ hs.1 (geq - 1) (by omega) (by simpa [Clause.Sat] using this)
      omega
  · intro σ hs hc
    obtain ⟨σ', ag, hs', hx⟩ := S.compl σ hs
    refine ⟨σ', ag, addClauses_sat.2 ⟨hs', ?_⟩⟩
    intro c hc'; simp at hc'; obtain ⟨o, ho, rfl⟩ := hc'
    obtain ⟨i, hi, rfl⟩ := List.mem_iff_getElem.1 ho
    have := hx i hi
    rw [getBang _ _ hi] at this
    simp [Clause.Sat, this]; omega

theorem Var.p_inj {a b : Var} (h : a.p = b.p) : a = b := by simpa using congrArg Lit.v h
theorem Var.n_inj {a b : Var} (h : a.n = b.n) : a = b := by simpa using congrArg Lit.v h

theorem map_p_nodup {vars : List Var} (h : vars.Nodup) : (vars.map Var.p).Nodup := by
  simp only [List.Nodup, List.pairwise_map]
  exact List.Pairwise.imp (fun h h' => h (Var.p_inj h')) h
theorem map_n_nodup {vars : List Var} (h : vars.Nodup) : (vars.map Var.n).Nodup := by
  simp only [List.Nodup, List.pairwise_map]
  exact List.Pairwise.imp (fun h h' => h (Var.n_inj h')) h

theorem cnExk_encodes {vars : List Var} {rhs : Nat} {s : ER} (h1 : 1 ≤ rhs) (hr : rhs < vars.length) (hbig : vars.length < 2 ^ 30)
    (hw : Wf s) (hv : ∀ v ∈ vars, s.Old v) (nx : vars.Nodup) :
    ∃ s', cnExk vars rhs s = .ok s' ∧ Encodes s s' (fun σ => cntV σ vars = rhs) := by
  obtain ⟨out, s', e, S⟩ := ccSort_spec (vars.length + 1) (rhs + 1) (vars.map Var.p) .both s (by simp) (by simpa) hw (map_p_old hv)
    (map_p_nodup nx) (fun h => by simp at h)
  have hlen : out.length = rhs + 1 := by rw [S.len]; simp; omega
  unfold cnExk sortU
  rw [List.length_map, e]
  simp only [Out.ofOption, Out.bind, getU]
  rw [if_pos (by omega)]
  simp only [Out.bind]
  rw [if_pos (by omega)]
  simp only [Out.bind]
  have hcn : ∀ σ, cntL σ (vars.map Var.p) = cntV σ vars := fun σ => cntL_map_p σ vars
  refine ⟨_, rfl, Encodes.mk' ((S.le.trans (addClauses_le _ _)).trans (addClauses_le _ _)) hw
    (addClauses_wf (addClauses_wf S.wf ?_) ?_) ?_ ?_ ?_⟩
  · intro c hc l hl; simp at hc; subst hc; simp at hl; subst hl; rw [Lit.neg_v]; exact S.old _ (getBang_mem (by omega))
  · intro c hc l hl; simp at hc; subst hc; simp at hl; subst hl; rw [addClauses_old]; exact S.old _ (getBang_mem (by omega))
  · intro σ σ' ag h; rw [← ag.cntV hv]; exact h
  · intro σ hs
    rw [addClauses_sat, addClauses_sat] at hs
    have c1 := hs.1.2 _ (List.mem_singleton.2 rfl)
    have c2 := hs.2 _ (List.mem_singleton.2 rfl)
    have d := S.dn (by simp) σ hs.1.1 (rhs - 1) (by omega) (by simpa [Clause.Sat] using c2)
    rw [hcn] at d
    by_contra hc
    have h := S.up (by simp) σ hs.1.1 rhs (by omega) (by rw [hcn]; omega)
    simp [Clause.Sat, h] at c1
  · intro σ hs hc
    obtain ⟨σ', ag, hs', hx⟩ := S.compl σ hs
    rw [hcn] at hx
    refine ⟨σ', ag, addClauses_sat.2 ⟨addClauses_sat.2 ⟨hs', ?_⟩, ?_⟩⟩
    · intro c hc'; simp at hc'; subst hc'
      have := hx rhs (by omega)
      simp [Clause.Sat, this]; omega
    · intro c hc'; simp at hc'; subst hc'
      have := hx (rhs - 1) (by omega)
      simp [Clause.Sat, this]; omega

/-! #### incremental data -/

/-- The clauses a further upper bound `r` adds. -/
def ubClauses (d : IncData) (r : Nat) : List Clause :=
  match d.amk with
  | some .totalizer => (d.v1.drop r).map fun l => [l.neg]
  | some .modular => modBound r d.md d.v1 (d.v2.getD [])
  | _ => if d.v1.length > r then [[(d.v1.nth r).neg]] else []

/-- The incremental data is fit for upper bounds below `r`. -/
def IncData.UpOK (d : IncData) (r : Nat) : Prop :=
  d.cur = r ∧ (d.amk = some .totalizer ∨ d.amk = some .cardNet ∨
    d.amk = some .modular ∧ ∃ v2, d.v2 = some v2 ∧ 0 < d.md ∧ ∀ r', r' ≤ r → modBoundPanic r' d.md d.v1 v2 = false)

theorem newUpper_eq {d : IncData} {r r' : Nat} {s : ER} (h : d.UpOK r) (hr : r' < r) :
    newUpper d r' s = .ok ({ d with cur := r' }, s.addClauses (ubClauses d r')) ∧ ({ d with cur := r' } : IncData).UpOK r' ∧
      ubClauses { d with cur := r' } = ubClauses d := by
  obtain ⟨h1, h2⟩ := h
  refine ⟨?_, ⟨rfl, ?_⟩, rfl⟩
  · unfold newUpper ubClauses
    rw [if_neg (by omega)]
    rcases h2 with h2 | h2 | ⟨h2, v2, e, hm, hp⟩
    · simp only [h2]
    · simp only [h2]
      split
      · rfl
      · simp [addClauses]
    · simp only [h2, addModular, e]
      rw [if_neg (by simp [hp r' (by omega)]; omega)]
      rfl
  · rcases h2 with h2 | h2 | ⟨h2, v2, e, hm, hp⟩
    · exact Or.inl h2
    · exact Or.inr (Or.inl h2)
    · exact Or.inr (Or.inr ⟨h2, v2, e, hm, fun r'' h => hp r'' (by omega)⟩)

/-- The clauses a further lower bound `r` adds. -/
def lbClauses (d : IncData) (r : Nat) : List Clause :=
  match d.alk with
  | some .totalizer => (d.v1.take r).map fun l => [l]
  | some .modular => modBound (d.nVars - r) d.md d.v1 (d.v2.getD [])
  | _ => if d.v1.length > d.nVars - r then [[(d.v1.nth (d.nVars - r)).neg]] else []

/-- The incremental data is fit for lower bounds above `r`. -/
def IncData.LoOK (d : IncData) (n r : Nat) : Prop :=
  d.cur = r ∧ d.nVars = n ∧ (d.alk = some .totalizer ∨ d.alk = some .cardNet ∨
    d.alk = some .modular ∧ ∃ v2, d.v2 = some v2 ∧ 0 < d.md ∧ ∀ r', r ≤ r' → modBoundPanic (n - r') d.md d.v1 v2 = false)

theorem newLower_eq {d : IncData} {n r r' : Nat} {s : ER} (h : d.LoOK n r) (hr : r < r') (hn : r' ≤ n) :
    newLower d r' s = .ok ({ d with cur := r' }, s.addClauses (lbClauses d r')) ∧ ({ d with cur := r' } : IncData).LoOK n r' ∧
      lbClauses { d with cur := r' } = lbClauses d := by
  obtain ⟨h1, h0, h2⟩ := h
  refine ⟨?_, ⟨rfl, h0, ?_⟩, rfl⟩
  · unfold newLower lbClauses
    rw [if_neg (by omega)]
    rcases h2 with h2 | h2 | ⟨h2, v2, e, hm, hp⟩
    · simp only [h2]
    · simp only [h2]
      rw [if_neg (by omega)]
      split
      · rfl
      · simp [addClauses]
    · simp only [h2, addModular, e]
      rw [if_neg (by omega), if_neg (by rw [h0]; simp [hp r' (by omega)]; omega)]
      rfl
  · rcases h2 with h2 | h2 | ⟨h2, v2, e, hm, hp⟩
    · exact Or.inl h2
    · exact Or.inr (Or.inl h2)
    · exact Or.inr (Or.inr ⟨h2, v2, e, hm, fun r'' h => hp r'' (by omega)⟩)

theorem modBuild_md {ins rhs s U W md s'} (h : modBuild ins rhs s = some ((U, W, md), s')) (h1 : 1 ≤ rhs) : 0 < md := by
  unfold modBuild at h
  simp only [Option.bind_eq_some_iff] at h
  obtain ⟨a, _, h⟩ := h
  split at h
  · simp at h
  · simp at h
    have := ceilSqrt_ge_two (n := rhs + 1) (by omega)
    omega

/-- At-most-k with incremental data. -/
theorem ccAmk_inc (cfg : AmkEnc) {vars : List Var} {rhs : Nat} {s : ER} (h1 : 1 ≤ rhs) (hr : rhs < vars.length)
    (hbig : vars.length < 2 ^ 30) (hw : Wf s) (hv : ∀ v ∈ vars, s.Old v) (hn : cfg = .cardNet → vars.Nodup) :
    ∃ d s', ccAmk cfg vars rhs true s = .ok (some d, s') ∧ d.UpOK rhs ∧ IncOK s s' (CUp vars) TUp rhs (ubClauses d) := by
  unfold ccAmk
  rw [if_neg (by omega), if_neg (by omega)]
  have hp : (fun (r : Nat) (σ : Asg) => cntL σ (vars.map Var.p) ≤ r) = CUp vars := by
    funext r σ; rw [cntL_map_p]
  have hmod : ∃ d s', (Out.ofOption (modAmk vars rhs s)).bind (fun ((U, W, md), s) =>
        .ok (if true then some (⟨some .modular, none, U, some W, md, 0, rhs⟩ : IncData) else none, s)) = Out.ok (some d, s') ∧
        d.UpOK rhs ∧ IncOK s s' (CUp vars) TUp rhs (ubClauses d) := by
    obtain ⟨U, W, md, s', e, I, P⟩ := modBuild_inc (ins := vars.map Var.p) h1 (by simpa) hw (map_p_old hv)
    unfold modAmk
    rw [e]
    rw [hp] at I
    exact ⟨_, _, rfl, ⟨rfl, Or.inr (Or.inr ⟨rfl, W, rfl, modBuild_md e h1, P⟩)⟩, I⟩
  cases cfg with
  | totalizer =>
    have I := totAmk_inc (vars := vars) (rhs := rhs) (s := s) (by omega) hr hw hv
    exact ⟨_, _, rfl, ⟨rfl, Or.inl rfl⟩, I⟩
  | modular => exact hmod
  | best => exact hmod
  | cardNet =>
    obtain ⟨out, s', e, hlen, I⟩ := cnInc (x := vars.map Var.p) h1 (by simpa) (by simpa) hw (map_p_old hv) (map_p_nodup (hn rfl))
    simp only [cnAmk, if_true, sortU]
    rw [e]
    simp only [Out.ofOption, Out.bind, getU]
    rw [if_pos (by omega)]
    rw [hp] at I
    exact ⟨_, _, rfl, ⟨rfl, Or.inr (Or.inl rfl)⟩, I⟩

/-- At-least-k with incremental data. -/
theorem ccAlk_inc (cfg : AmkEnc) {vars : List Var} {rhs : Nat} {s : ER} (h1 : 2 ≤ rhs) (hr : rhs < vars.length)
    (hbig : vars.length < 2 ^ 30) (hw : Wf s) (hv : ∀ v ∈ vars, s.Old v) (hn : cfg = .cardNet → vars.Nodup) :
    ∃ d s', ccAlk cfg vars rhs true s = .ok (some d, s') ∧ d.LoOK vars.length rhs ∧
      IncOK s s' (CLo vars) (TLo vars.length) rhs (lbClauses d) := by
  unfold ccAlk
  rw [if_neg (by omega), if_neg (by omega), if_neg (by omega), if_neg (by omega)]
  -- a bound on the negated variables
  have hflip : ∀ {s' : ER} {cl : Nat → List Clause},
      IncOK s s' (fun r σ => cntL σ (vars.map Var.n) ≤ r) TUp (vars.length - rhs) cl →
      IncOK s s' (CLo vars) (TLo vars.length) rhs (fun r => cl (vars.length - r)) := by
    intro s' cl I
    have hc : ∀ (σ : Asg), cntL σ (vars.map Var.n) + cntV σ vars = vars.length := fun σ => cntL_map_n σ vars
    refine ⟨I.le, I.wf, ?_, ?_, ?_, ?_⟩
    · intro r' ht c hc l hl; exact I.old (vars.length - r') (by show _ < _; have := ht.1; have := ht.2; omega) c hc l hl
    · intro σ hs; have h := I.sound σ hs; have := hc σ; show rhs ≤ _; omega
    · intro σ r' hs ht hcl
      have h := I.snd σ (vars.length - r') hs (by show _ < _; have := ht.1; have := ht.2; omega) hcl
      have := hc σ; show r' ≤ _; have := ht.2; omega
    · intro σ hs h
      have h' : rhs ≤ cntV σ vars := h
      obtain ⟨σ', ag, hs', hx⟩ := I.compl σ hs (by have := hc σ; show _ ≤ _; omega)
      refine ⟨σ', ag, hs', ?_⟩
      intro r' ht hc'
      have hc'' : r' ≤ cntV σ vars := hc'
      exact hx (vars.length - r') (by show _ < _; have := ht.1; have := ht.2; omega) (by have := hc σ; show _ ≤ _; omega)
  have hmod : ∃ d s', (Out.ofOption (modAlk vars rhs s)).bind (fun ((U, W, md), s) =>
        .ok (if true then some (⟨none, some .modular, U, some W, md, vars.length, rhs⟩ : IncData) else none, s)) = Out.ok (some d, s') ∧
        d.LoOK vars.length rhs ∧ IncOK s s' (CLo vars) (TLo vars.length) rhs (lbClauses d) := by
    obtain ⟨U, W, md, s', e, I, P⟩ := modBuild_inc (ins := vars.map Var.n) (rhs := vars.length - rhs) (by omega) (by simp; omega) hw (map_n_old hv)
    unfold modAlk
    rw [e]
    exact ⟨_, _, rfl, ⟨rfl, rfl, Or.inr (Or.inr ⟨rfl, W, rfl, modBuild_md e (by omega), fun r' h => P _ (by omega)⟩)⟩, hflip I⟩
  cases cfg with
  | totalizer =>
    have I := totAlk_inc (vars := vars) (rhs := rhs) (s := s) (by omega) (by omega) hw hv
    exact ⟨_, _, rfl, ⟨rfl, rfl, Or.inl rfl⟩, I⟩
  | modular => exact hmod
  | best => exact hmod
  | cardNet =>
    obtain ⟨out, s', e, hlen, I⟩ := cnInc (x := vars.map Var.n) (rhs := vars.length - rhs) (by omega) (by simp; omega) (by simpa) hw (map_n_old hv) (map_n_nodup (hn rfl))
    simp only [cnAlk, if_true, sortU]
    rw [e]
    simp only [Out.ofOption, Out.bind, getU]
    rw [if_pos (by omega)]
    exact ⟨_, _, rfl, ⟨rfl, rfl, Or.inr (Or.inl rfl)⟩, hflip I⟩

theorem units_encodes {ls : List Lit} {s : ER} (hw : Wf s) (hl : ∀ l ∈ ls, s.Old l.v) :
    Encodes s (s.addClauses (ls.map fun l => [l])) (fun σ => cntL σ ls = ls.length) := by
  refine (addClauses_encodes hw ?_).congr ?_
  · intro c hc l hl'; simp at hc; obtain ⟨x, hx, rfl⟩ := hc; simp at hl'; subst hl'; exact hl _ hx
  · intro σ
    unfold cntL
    rw [List.countP_eq_length]
    simp [Clause.Sat]

/-- At-most-k without incremental data. -/
theorem ccAmk_encodes (cfg : AmkEnc) (inc : Bool) {vars : List Var} {rhs : Nat} {s : ER}
    (hbig : vars.length < 2 ^ 30) (hw : Wf s) (hv : ∀ v ∈ vars, s.Old v) (hn : cfg = .cardNet → vars.Nodup) :
    ∃ d s', ccAmk cfg vars rhs inc s = .ok (d, s') ∧ Encodes s s' (fun σ => cntV σ vars ≤ rhs) := by
  have hstab : ∀ σ σ', Agree s σ σ' → CUp vars rhs σ → CUp vars rhs σ' := by
    intro σ σ' ag h; show _ ≤ _; rw [← ag.cntV hv]; exact h
  by_cases h : 1 ≤ rhs ∧ rhs < vars.length ∧ inc = true
  · obtain ⟨h1, h2, rfl⟩ := h
    obtain ⟨d, s', e, _, I⟩ := ccAmk_inc cfg h1 h2 hbig hw hv hn
    exact ⟨_, _, e, I.encodes hw hstab⟩
  unfold ccAmk
  by_cases hge : rhs ≥ vars.length
  · rw [if_pos hge]
    refine ⟨_, _, rfl, (Encodes.id hw).congr fun σ => ?_⟩
    have : cntV σ vars ≤ vars.length := List.countP_le_length
    simp; omega
  rw [if_neg hge]
  by_cases h0 : rhs = 0
  · rw [if_pos h0]
    refine ⟨_, _, rfl, ?_⟩
    have E := units_encodes hw (map_n_old hv)
    rw [List.map_map] at E
    refine E.congr fun σ => ?_
    have := cntL_map_n σ vars
    simp; omega
  rw [if_neg h0]
  obtain rfl : inc = false := by
    cases inc
    · rfl
    · exact absurd ⟨by omega, by omega, rfl⟩ h
  have hmod : ∃ d s', (Out.ofOption (modAmk vars rhs s)).bind (fun ((U, W, md), s) =>
        .ok (if false then some (⟨some .modular, none, U, some W, md, 0, rhs⟩ : IncData) else none, s)) = Out.ok (d, s') ∧
        Encodes s s' (fun σ => cntV σ vars ≤ rhs) := by
    obtain ⟨U, W, md, s', e, I, P⟩ := modBuild_inc (ins := vars.map Var.p) (rhs := rhs) (by omega) (by simp; omega) hw (map_p_old hv)
    unfold modAmk
    rw [e]
    exact ⟨_, _, rfl, (I.encodes hw (fun σ σ' ag h => by rw [← ag.cntL (map_p_old hv)]; exact h)).congr fun σ => by rw [cntL_map_p]⟩
  cases cfg with
  | totalizer =>
    have I := totAmk_inc (vars := vars) (rhs := rhs) (s := s) (by omega) (by omega) hw hv
    exact ⟨_, _, rfl, I.encodes hw hstab⟩
  | modular => exact hmod
  | best => exact hmod
  | cardNet =>
    simp only [cnAmk, Bool.false_eq_true, if_false, sortU]
    by_cases hh : rhs > vars.length / 2
    · rw [if_pos hh]
      obtain ⟨out, s', e, E⟩ := cnGeq (x := vars.map Var.n) (geq := vars.length - rhs) (by simp) (by simpa) hw (map_n_old hv) (map_n_nodup (hn rfl))
      rw [e]
      refine ⟨_, _, rfl, E.congr fun σ => ?_⟩
      have := cntL_map_n σ vars
      omega
    · rw [if_neg hh]
      obtain ⟨out, s', e, hlen, I⟩ := cnInc (x := vars.map Var.p) (rhs := rhs) (by omega) (by simp; omega) (by simpa) hw (map_p_old hv) (map_p_nodup (hn rfl))
      rw [e]
      simp only [Out.ofOption, Out.bind, getU]
      rw [if_pos (by omega)]
      exact ⟨_, _, rfl, (I.encodes hw (fun σ σ' ag h => by rw [← ag.cntL (map_p_old hv)]; exact h)).congr fun σ => by rw [cntL_map_p]⟩

theorem empty_encodes {s : ER} (hw : Wf s) : Encodes s (s.addClauses [[]]) (fun _ => False) := by
  refine (addClauses_encodes hw ?_).congr ?_
  · intro c hc l hl; simp at hc; subst hc; simp at hl
  · intro σ; simp [Clause.Sat]

/-- At-least-k. -/
theorem ccAlk_encodes (cfg : AmkEnc) (inc : Bool) {vars : List Var} {rhs : Nat} {s : ER}
    (hbig : vars.length < 2 ^ 30) (hw : Wf s) (hv : ∀ v ∈ vars, s.Old v) (hn : cfg = .cardNet → vars.Nodup) :
    ∃ d s', ccAlk cfg vars rhs inc s = .ok (d, s') ∧ Encodes s s' (fun σ => rhs ≤ cntV σ vars) := by
  have hstab : ∀ σ σ', Agree s σ σ' → CLo vars rhs σ → CLo vars rhs σ' := by
    intro σ σ' ag h; show _ ≤ _; rw [← ag.cntV hv]; exact h
  by_cases h : 2 ≤ rhs ∧ rhs < vars.length ∧ inc = true
  · obtain ⟨h1, h2, rfl⟩ := h
    obtain ⟨d, s', e, _, I⟩ := ccAlk_inc cfg h1 h2 hbig hw hv hn
    exact ⟨_, _, e, I.encodes hw hstab⟩
  have hle : ∀ σ, cntV σ vars ≤ vars.length := fun σ => List.countP_le_length
  unfold ccAlk
  by_cases hge : rhs > vars.length
  · rw [if_pos hge]
    refine ⟨_, _, rfl, (empty_encodes hw).congr fun σ => ?_⟩
    have := hle σ
    simp; omega
  rw [if_neg hge]
  by_cases h0 : rhs = 0
  · rw [if_pos h0]
    exact ⟨_, _, rfl, (Encodes.id hw).congr fun σ => by simp; omega⟩
  rw [if_neg h0]
  by_cases h1 : rhs = 1
  · rw [if_pos h1]
    refine ⟨_, _, rfl, (addClauses_encodes hw ?_).congr fun σ => ?_⟩
    · intro c hc l hl; simp at hc; subst hc; exact map_p_old hv l hl
    · subst h1
      unfold cntV
      rw [Nat.succ_le_iff, List.countP_pos_iff]
      simp [Clause.Sat]
  rw [if_neg h1]
  by_cases h2 : rhs = vars.length
  · rw [if_pos h2]
    refine ⟨_, _, rfl, ?_⟩
    have E := units_encodes hw (map_p_old hv)
    rw [List.map_map] at E
    refine E.congr fun σ => ?_
    have := hle σ
    rw [cntL_map_p]
    simp; omega
  rw [if_neg h2]
  obtain rfl : inc = false := by
    cases inc
    · rfl
    · exact absurd ⟨by omega, by omega, rfl⟩ h
  have hcn := fun σ => cntL_map_n σ vars
  have hmod : ∃ d s', (Out.ofOption (modAlk vars rhs s)).bind (fun ((U, W, md), s) =>
        .ok (if false then some (⟨none, some .modular, U, some W, md, vars.length, rhs⟩ : IncData) else none, s)) = Out.ok (d, s') ∧
        Encodes s s' (fun σ => rhs ≤ cntV σ vars) := by
    obtain ⟨U, W, md, s', e, I, P⟩ := modBuild_inc (ins := vars.map Var.n) (rhs := vars.length - rhs) (by omega) (by simp; omega) hw (map_n_old hv)
    unfold modAlk
    rw [e]
    exact ⟨_, _, rfl, (I.encodes hw (fun σ σ' ag h => by rw [← ag.cntL (map_n_old hv)]; exact h)).congr fun σ => by have := hcn σ; omega⟩
  cases cfg with
  | totalizer =>
    have I := totAlk_inc (vars := vars) (rhs := rhs) (s := s) (by omega) (by omega) hw hv
    exact ⟨_, _, rfl, I.encodes hw hstab⟩
  | modular => exact hmod
  | best => exact hmod
  | cardNet =>
    simp only [cnAlk, Bool.false_eq_true, if_false, sortU]
    by_cases hh : vars.length - rhs > vars.length / 2
    · rw [if_pos hh]
      obtain ⟨out, s', e, E⟩ := cnGeq (x := vars.map Var.p) (geq := vars.length - (vars.length - rhs)) (by simp) (by simpa) hw (map_p_old hv) (map_p_nodup (hn rfl))
      rw [e]
      refine ⟨_, _, rfl, E.congr fun σ => ?_⟩
      rw [cntL_map_p]
      omega
    · rw [if_neg hh]
      obtain ⟨out, s', e, hlen, I⟩ := cnInc (x := vars.map Var.n) (rhs := vars.length - rhs) (by omega) (by simp; omega) (by simpa) hw (map_n_old hv) (map_n_nodup (hn rfl))
      rw [e]
      simp only [Out.ofOption, Out.bind, getU]
      rw [if_pos (by omega)]
      exact ⟨_, _, rfl, (I.encodes hw (fun σ σ' ag h => by rw [← ag.cntL (map_n_old hv)]; exact h)).congr fun σ => by have := hcn σ; omega⟩

end Verif
