import Verif.Sat.Write
import Verif.Enc.CcEncoder
/-
Cardinality constraints on a solver whose bounds are tightened later: `MiniSat::add_incremental_cc` (solver/minisat_solver.rs:280-283) and
`CcIncrementalData::new_upper_bound_for_solver`, `new_lower_bound_for_solver` (cardinality_constraints/cc_incremental_data.rs:60-136).
-/
namespace Verif.Sat.Incr
open St ER

/-- Calls of a session. -/
inductive Op
  /-- `add_incremental_cc` with the configuration of the factory -/
  | cc (cfg : CcCfg) (cc : CC)
  /-- `new_upper_bound_for_solver` on the data of the `i`-th constraint -/
  | upper (i r : Nat)
  /-- `new_lower_bound_for_solver` on the data of the `i`-th constraint -/
  | lower (i r : Nat)
  /-- `add` with a clause -/
  | clause (c : Clause)
  /-- `sat_with` -/
  | solve (fuel : Nat) (sel as : List Lit)

/-- A solver, what the encoders have written to it so far (with the counters of the factory), what `add_incremental_cc` has returned (the user keeps it), and the
field `result` of `MiniSat` (`none` is `Undef`). -/
structure IncS (F : Type) where
  m : Mini F
  er : ER
  data : List (Option IncData)
  result : Option Bool

section
variable {F : Type} [LinearOrder F] [Flt F]

namespace IncS

/-- An encoder has gone from `er` to `er'`. -/
def written (C : MCfg F) (st : IncS F) (er' : ER) (data : List (Option IncData)) : Res (IncS F × Option Bool) :=
  match st.m.write C st.er er' with
  | .ok m => .ok ({ st with m := m, er := er', data := data }, none)
  | .panic => .panic
  | .diverge => .diverge

/-- A bound is tightened: `new_upper_bound_for_solver`, cc_incremental_data.rs:67-70, and `new_lower_bound_for_solver`, 108-111.  The field `result` of the solver
is not touched. -/
def bound (C : MCfg F) (tighten : IncData → Nat → ER → Out (IncData × ER)) (i r : Nat) (st : IncS F) : Res (IncS F × Option Bool) :=
  match st.data[i]? with
  | some (some d) =>
    match tighten d r st.er with
    | .ok (d', er') => st.written C er' (st.data.set i (some d'))
    | .panic => .panic
    | .diverge => .diverge
  | _ => .panic

/-- A call: minisat_solver.rs:280-283 (`add_incremental_cc`, which does not touch `result`), cc_incremental_data.rs:60-136, minisat_solver.rs:357-361 (`add_clause`,
which sets `result` to `Undef`) and 173-194 (`sat_with`). -/
def step (C : MCfg F) (op : Op) (st : IncS F) : Res (IncS F × Option Bool) :=
  match op with
  | .cc cfg cc =>
    match encodeIncremental cfg cc st.er with
    | .ok (d, er') => st.written C er' (st.data ++ [d])
    | .panic => .panic
    | .diverge => .diverge
  | .upper i r => st.bound C newUpper i r
  | .lower i r => st.bound C newLower i r
  | .clause c =>
    match st.m.addClause C c with
    | .ok m => .ok ({ st with m := m, result := none }, none)
    | .panic => .panic
    | .diverge => .diverge
  | .solve fuel sel as =>
    match st.m.solve C fuel sel as with
    | .ok (m, b) => .ok ({ st with m := m, result := some b }, some b)
    | .panic => .panic
    | .diverge => .diverge

/-- `MiniSat::model`, minisat_solver.rs:216-233: panics when `result` is `Undef`, and when a variable asked for became known after the last answer (its index is
not in range of the model). -/
def model (C : MCfg F) (vars : Option (List Var)) (st : IncS F) : Res (Option NModel) :=
  match st.result with
  | none => .panic
  | some false => .ok none
  | some true =>
    let is := vars.map fun vs => vs.filterMap (idx st.m.names)
    if (is.getD []).any fun i => (st.m.names[i]?).any (isRelevant C) && decide (st.m.y.s.model.length ≤ i) then .panic else .ok (some (createAssignment C st.m.names st.m.y.s.model is))

end IncS
end

/-! ### Specification -/

/-- A bound on the number of true variables: `up` is "at most". -/
structure Con where
  vars : List Var
  up : Bool
  bound : Nat

/-- An assignment respects the bound. -/
def Con.Holds (σ : Asg) (k : Con) : Prop := if k.up then cntV σ k.vars ≤ k.bound else k.bound ≤ cntV σ k.vars

/-- The bound a constraint stands for. -/
def conOf (cc : CC) : Con :=
  match cc.cmp with
  | .le => ⟨cc.vars, true, cc.rhs⟩
  | .lt => ⟨cc.vars, true, cc.rhs - 1⟩
  | .ge => ⟨cc.vars, false, cc.rhs⟩
  | .gt => ⟨cc.vars, false, cc.rhs + 1⟩
  | .eq => ⟨cc.vars, false, cc.rhs⟩

/-- What a user expects the solver to hold: clauses, and constraints with their current bounds. -/
structure Goal where
  base : List Clause
  cons : List Con

/-- All clauses and constraints hold. -/
def Goal.Holds (σ : Asg) (X : Goal) : Prop := Sats σ X.base ∧ ∀ k ∈ X.cons, k.Holds σ

/-- What a call changes. -/
def Goal.step (op : Op) (X : Goal) : Goal :=
  match op with
  | .cc _ cc => { X with cons := X.cons ++ [conOf cc] }
  | .upper i r | .lower i r => { X with cons := X.cons.modify i fun k => { k with bound := r } }
  | .clause c => { X with base := X.base ++ [c] }
  | .solve _ _ _ => X

/-- A tighter bound. -/
def Con.Tighter (k : Con) (r : Nat) : Prop := if k.up then r < k.bound else k.bound < r ∧ r ≤ k.vars.length

/-- Calls a user may make: constraints of a supported kind over pairwise different variables, bounds that get tighter (for constraints that have incremental data), and
only variables that existed at the start (`cnt` are the counters of the factory then). -/
def Legal {F : Type} (cnt : AuxTy → Nat) (X : Goal) (st : IncS F) : Op → Prop
  | .cc _ cc => cc.cmp ≠ .eq ∧ (cc.cmp = .lt → cc.rhs ≠ 0) ∧ cc.vars.Nodup ∧ cc.vars.length < 2 ^ 30 ∧ ∀ v ∈ cc.vars, ER.Old ⟨cnt, []⟩ v
  | .upper i r => (∃ d, st.data[i]? = some (some d)) ∧ ∃ k, X.cons[i]? = some k ∧ k.up = true ∧ k.Tighter r
  | .lower i r => (∃ d, st.data[i]? = some (some d)) ∧ ∃ k, X.cons[i]? = some k ∧ k.up = false ∧ k.Tighter r
  | .clause c => ∀ l ∈ c, ER.Old ⟨cnt, []⟩ l.v
  | .solve _ _ as => ∀ l ∈ as, ER.Old ⟨cnt, []⟩ l.v

/-! ### Adding a constraint -/

/-- The data fits the constraint. -/
def Con.Fits (k : Con) (d : IncData) : Prop := if k.up then d.UpOK k.bound else d.LoOK k.vars.length k.bound

/-- The clauses for a tighter bound. -/
def Con.more (k : Con) (d : IncData) (r : Nat) : List Clause := if k.up then ubClauses d r else lbClauses d r

/-- The constraint with another bound. -/
abbrev Con.to (k : Con) (r : Nat) : Con := { k with bound := r }

/-- A constraint was encoded. -/
structure Added (s s' : ER) (k : Con) (d : Option IncData) : Prop where
  le : Le s s'
  wf : Wf s'
  sound : ∀ σ, Sat σ s' → k.Holds σ
  fits : ∀ d', d = some d' → k.Fits d'
  old : ∀ d', d = some d' → ∀ r, k.Tighter r → ∀ c ∈ k.more d' r, ∀ l ∈ c, s'.Old l.v
  snd : ∀ d', d = some d' → ∀ r σ, Sat σ s' → k.Tighter r → Sats σ (k.more d' r) → (k.to r).Holds σ
  compl : ∀ σ, Sat σ s → k.Holds σ → ∃ σ', Agree s σ σ' ∧ Sat σ' s' ∧ ∀ d', d = some d' → ∀ r, k.Tighter r → (k.to r).Holds σ → Sats σ' (k.more d' r)

theorem Added.of_encodes {s s' : ER} {k : Con} (h : Encodes s s' k.Holds) : Added s s' k none where
  le := h.le
  wf := h.wf
  sound σ := h.sound
  fits := by simp
  old := by simp
  snd := by simp
  compl σ h1 h2 := by
    obtain ⟨σ', a, b⟩ := h.compl h1 h2
    exact ⟨σ', a, b, by simp⟩

theorem amk_added (cfg : AmkEnc) {vars : List Var} {rhs : Nat} {s : ER} (hbig : vars.length < 2 ^ 30) (hw : Wf s) (hv : ∀ v ∈ vars, s.Old v) (hn : vars.Nodup) :
    ∃ d s', ccAmk cfg vars rhs true s = .ok (d, s') ∧ Added s s' ⟨vars, true, rhs⟩ d := by
  by_cases h : 1 ≤ rhs ∧ rhs < vars.length
  · obtain ⟨d, s', e, hu, I⟩ := ccAmk_inc cfg h.1 h.2 hbig hw hv fun _ => hn
    refine ⟨_, _, e, ⟨I.le, I.wf, I.sound, ?_, ?_, ?_, ?_⟩⟩
    · rintro _ ⟨⟩; exact hu
    · rintro _ ⟨⟩ r hr; exact I.old r hr
    · rintro _ ⟨⟩ r σ hs hr; exact I.snd σ r hs hr
    · intro σ h1 h2
      obtain ⟨σ', a, b, c⟩ := I.compl σ h1 h2
      refine ⟨σ', a, b, ?_⟩
      rintro _ ⟨⟩; exact c
  · obtain ⟨d, s', e, E⟩ := ccAmk_encodes cfg true (rhs := rhs) hbig hw hv fun _ => hn
    have hd : d = none := by
      unfold ccAmk at e
      by_cases h1 : rhs ≥ vars.length
      · rw [if_pos h1] at e
        cases e; rfl
      · rw [if_neg h1, if_pos (by omega)] at e
        cases e; rfl
    subst hd
    exact ⟨_, _, e, .of_encodes E⟩

theorem alk_added (cfg : AmkEnc) {vars : List Var} {rhs : Nat} {s : ER} (hbig : vars.length < 2 ^ 30) (hw : Wf s) (hv : ∀ v ∈ vars, s.Old v) (hn : vars.Nodup) :
    ∃ d s', ccAlk cfg vars rhs true s = .ok (d, s') ∧ Added s s' ⟨vars, false, rhs⟩ d := by
  by_cases h : 2 ≤ rhs ∧ rhs < vars.length
  · obtain ⟨d, s', e, hu, I⟩ := ccAlk_inc cfg h.1 h.2 hbig hw hv fun _ => hn
    refine ⟨_, _, e, ⟨I.le, I.wf, I.sound, ?_, ?_, ?_, ?_⟩⟩
    · rintro _ ⟨⟩; exact hu
    · rintro _ ⟨⟩ r hr; exact I.old r hr
    · rintro _ ⟨⟩ r σ hs hr; exact I.snd σ r hs hr
    · intro σ h1 h2
      obtain ⟨σ', a, b, c⟩ := I.compl σ h1 h2
      refine ⟨σ', a, b, ?_⟩
      rintro _ ⟨⟩; exact c
  · obtain ⟨d, s', e, E⟩ := ccAlk_encodes cfg true (rhs := rhs) hbig hw hv fun _ => hn
    have hd : d = none := by
      unfold ccAlk at e
      by_cases h1 : rhs > vars.length
      · rw [if_pos h1] at e
        cases e; rfl
      rw [if_neg h1] at e
      by_cases h2 : rhs = 0
      · rw [if_pos h2] at e
        cases e; rfl
      rw [if_neg h2] at e
      by_cases h3 : rhs = 1
      · rw [if_pos h3] at e
        cases e; rfl
      rw [if_neg h3, if_pos (by omega)] at e
      cases e; rfl
    subst hd
    exact ⟨_, _, e, .of_encodes E⟩

theorem encodeIncremental_added (cfg : CcCfg) {cc : CC} {s : ER} (hw : Wf s) (hv : ∀ v ∈ cc.vars, s.Old v) (hn : cc.vars.Nodup) (hbig : cc.vars.length < 2 ^ 30)
    (he : cc.cmp ≠ .eq) (hl : cc.cmp = .lt → cc.rhs ≠ 0) : ∃ d s', encodeIncremental cfg cc s = .ok (d, s') ∧ Added s s' (conOf cc) d := by
  unfold encodeIncremental conOf
  cases h : cc.cmp with
  | le => exact amk_added cfg.amk hbig hw hv hn
  | lt =>
    simp only
    rw [if_neg (hl h)]
    exact amk_added cfg.amk hbig hw hv hn
  | ge => exact alk_added cfg.alk hbig hw hv hn
  | gt => exact alk_added cfg.alk hbig hw hv hn
  | eq => exact absurd h he

/-- Tightening a bound. -/
theorem tighten_eq {k : Con} {d : IncData} {r : Nat} {s : ER} (h : k.Fits d) (hr : k.Tighter r) :
    (if k.up then newUpper d r s else newLower d r s) = .ok ({ d with cur := r }, s.addClauses (k.more d r)) ∧ (k.to r).Fits { d with cur := r } ∧
      (k.to r).more { d with cur := r } = k.more d := by
  obtain ⟨vs, up, b⟩ := k
  cases up with
  | true =>
    have h : d.UpOK b := h
    exact newUpper_eq h hr
  | false =>
    have h : d.LoOK vs.length b := h
    exact newLower_eq h hr.1 hr.2

/-! ### The invariant -/

section
variable {F : Type} [LinearOrder F] [Flt F]

/-- What holds throughout a session that began with the counters `cnt`. -/
structure Inv (C : MCfg F) (cnt : AuxTy → Nat) (X : Goal) (st : IncS F) : Prop where
  holds : ∃ N : NSpec, NHolds C N st.m ∧ ∀ σ, Sats σ N.cls ↔ Sats σ X.base ∧ Sat σ st.er
  le : Le ⟨cnt, []⟩ st.er
  wf : Wf st.er
  base : ∀ c ∈ X.base, ∀ l ∈ c, ER.Old ⟨cnt, []⟩ l.v
  cons : ∀ k ∈ X.cons, ∀ v ∈ k.vars, ER.Old ⟨cnt, []⟩ v
  len : st.data.length = X.cons.length
  sound : ∀ σ, Sat σ st.er → ∀ k ∈ X.cons, k.Holds σ
  fits : ∀ (i : Nat) (k : Con) (d : IncData), X.cons[i]? = some k → st.data[i]? = some (some d) → k.Fits d
  old : ∀ (i : Nat) (k : Con) (d : IncData), X.cons[i]? = some k → st.data[i]? = some (some d) → ∀ r : Nat, k.Tighter r → ∀ c ∈ k.more d r, ∀ l ∈ c, st.er.Old l.v
  snd : ∀ (i : Nat) (k : Con) (d : IncData), X.cons[i]? = some k → st.data[i]? = some (some d) → ∀ (r : Nat) (σ : Asg), Sat σ st.er → k.Tighter r → Sats σ (k.more d r) → (k.to r).Holds σ
  compl : ∀ σ, (∀ k ∈ X.cons, k.Holds σ) → ∃ σ', Agree ⟨cnt, []⟩ σ σ' ∧ Sat σ' st.er ∧
    ∀ (i : Nat) (k : Con) (d : IncData), X.cons[i]? = some k → st.data[i]? = some (some d) → ∀ r : Nat, k.Tighter r → (k.to r).Holds σ → Sats σ' (k.more d r)

variable {C : MCfg F} {cnt : AuxTy → Nat} {X : Goal} {st : IncS F}

theorem Con.holds_agree {s : ER} {σ σ' : Asg} {k : Con} (h : Agree s σ σ') (hk : ∀ v ∈ k.vars, s.Old v) : k.Holds σ ↔ k.Holds σ' := by
  unfold Con.Holds
  rw [h.cntV hk]

theorem sats_agree {s : ER} {σ σ' : Asg} {cs : List Clause} (h : Agree s σ σ') (hk : ∀ c ∈ cs, ∀ l ∈ c, s.Old l.v) : Sats σ cs ↔ Sats σ' cs :=
  forall₂_congr fun c hc => h.clause (hk c hc)

theorem Inv.start {N : NSpec} {m : Mini F} (h : NHolds C N m) (hN : ∀ v ∈ N.names, ER.Old ⟨cnt, []⟩ v) (r : Option Bool) :
    Inv C cnt ⟨N.cls, []⟩ ⟨m, ⟨cnt, []⟩, [], r⟩ where
  holds := ⟨N, h, fun σ => by simp [Sat]⟩
  le := .refl _
  wf := by simp [Wf]
  base c hc l hl := hN _ (h.over c hc l hl)
  cons := by simp
  len := rfl
  sound := by simp
  fits := by simp
  old := by simp
  snd := by simp
  compl σ _ := ⟨σ, .refl _ _, by simp [Sat], by simp⟩

/-- Writing to the solver. -/
theorem Inv.written (h : Inv C cnt X st) {er' : ER} (hle : Le st.er er') (data : List (Option IncData)) :
    ∃ st', st.written C er' data = .ok (st', none) ∧ st'.er = er' ∧ st'.data = data ∧
      ∃ N : NSpec, NHolds C N st'.m ∧ ∀ σ, Sats σ N.cls ↔ Sats σ X.base ∧ Sat σ er' := by
  obtain ⟨N, hN, hs⟩ := h.holds
  obtain ⟨m', e, h', _⟩ := hN.write st.er er'
  refine ⟨⟨m', er', data, st.result⟩, ?_, rfl, rfl, _, h', fun σ => ?_⟩
  · unfold IncS.written
    rw [e]
  · obtain ⟨cs, hcs⟩ := hle.2
    have hd : er'.clauses.drop st.er.clauses.length = cs := by rw [← hcs, List.drop_left]
    have ha : Sats σ (N.cls ++ cs) ↔ Sats σ N.cls ∧ Sats σ cs := by simp [Sats, or_imp, forall_and]
    have hb : Sat σ er' ↔ Sat σ st.er ∧ Sats σ cs := by
      unfold Sat Sats
      rw [← hcs]
      simp [or_imp, forall_and]
    simp only
    rw [hd, ha, hs, hb, and_assoc]

/-- A constraint is added. -/
theorem Inv.addCc (h : Inv C cnt X st) {cfg : CcCfg} {cc : CC} (hl : Legal cnt X st (.cc cfg cc)) :
    ∃ st', st.step C (.cc cfg cc) = .ok (st', none) ∧ Inv C cnt (X.step (.cc cfg cc)) st' := by
  obtain ⟨h1, h2, h3, h4, h5⟩ := hl
  obtain ⟨d, er', e, A⟩ := encodeIncremental_added cfg h.wf (fun v hv => h.le.old (h5 v hv)) h3 h4 h1 h2
  obtain ⟨st', e', he, hd, hN⟩ := h.written A.le (st.data ++ [d])
  refine ⟨st', ?_, ?_⟩
  · unfold IncS.step
    simp only [e]
    exact e'
  have hvars : (conOf cc).vars = cc.vars := by unfold conOf; cases cc.cmp <;> rfl
  -- the new entries
  have hcase : ∀ {i : Nat} {k : Con} {d' : IncData}, (X.cons ++ [conOf cc])[i]? = some k → (st.data ++ [d])[i]? = some (some d') →
      (X.cons[i]? = some k ∧ st.data[i]? = some (some d')) ∨ (k = conOf cc ∧ d = some d') := by
    intro i k d' hk hd'
    rcases Nat.lt_trichotomy i X.cons.length with hi | hi | hi
    · rw [List.getElem?_append_left hi] at hk
      rw [List.getElem?_append_left (by rw [h.len]; exact hi)] at hd'
      exact .inl ⟨hk, hd'⟩
    · subst hi
      rw [List.getElem?_append_right (Nat.le_refl _)] at hk
      rw [List.getElem?_append_right (by rw [h.len]; exact Nat.le_refl _)] at hd'
      simp [h.len] at hk hd'
      exact .inr ⟨hk.symm, hd'⟩
    · rw [List.getElem?_eq_none (by simp; omega)] at hk
      cases hk
  constructor
  · rw [he]; exact hN
  · rw [he]; exact h.le.trans A.le
  · rw [he]; exact A.wf
  · exact h.base
  · intro k hk
    rcases List.mem_append.1 hk with hk | hk
    · exact h.cons k hk
    · rw [List.mem_singleton.1 hk, hvars]; exact h5
  · rw [hd]; simp [Goal.step, h.len]
  · intro σ hs k hk
    rw [he] at hs
    rcases List.mem_append.1 hk with hk | hk
    · exact h.sound σ (A.le.sat hs) k hk
    · rw [List.mem_singleton.1 hk]; exact A.sound σ hs
  · intro i k d' hk hd'
    rw [hd] at hd'
    rcases hcase hk hd' with ⟨hk, hd'⟩ | ⟨rfl, hd'⟩
    · exact h.fits i k d' hk hd'
    · exact A.fits d' hd'
  · intro i k d' hk hd' r hr
    rw [hd] at hd'
    rw [he]
    rcases hcase hk hd' with ⟨hk, hd'⟩ | ⟨rfl, hd'⟩
    · exact fun c hc l hl => A.le.old (h.old i k d' hk hd' r hr c hc l hl)
    · exact A.old d' hd' r hr
  · intro i k d' hk hd' r σ hs
    rw [hd] at hd'
    rw [he] at hs
    rcases hcase hk hd' with ⟨hk, hd'⟩ | ⟨rfl, hd'⟩
    · exact h.snd i k d' hk hd' r σ (A.le.sat hs)
    · exact A.snd d' hd' r σ hs
  · intro σ hs
    have hs : ∀ k ∈ X.cons ++ [conOf cc], k.Holds σ := hs
    obtain ⟨σ1, a1, b1, c1⟩ := h.compl σ fun k hk => hs k (List.mem_append_left _ hk)
    have hag : ∀ {k : Con}, k.vars = cc.vars → (k.Holds σ ↔ k.Holds σ1) := fun hk => Con.holds_agree a1 (by rw [hk]; exact h5)
    obtain ⟨σ2, a2, b2, c2⟩ := A.compl σ1 b1 ((hag hvars).1 (hs _ (List.mem_append_right _ (List.mem_singleton.2 rfl))))
    refine ⟨σ2, a1.trans h.le a2, by rw [he]; exact b2, ?_⟩
    intro i k d' hk hd' r hr hkr
    rw [hd] at hd'
    rcases hcase hk hd' with ⟨hk, hd'⟩ | ⟨rfl, hd'⟩
    · exact (sats_agree a2 (h.old i k d' hk hd' r hr)).1 (c1 i k d' hk hd' r hr hkr)
    · exact c2 d' hd' r hr ((hag (k := (conOf cc).to r) hvars).1 hkr)

theorem Con.Tighter.trans {k : Con} {r r' : Nat} (h : k.Tighter r) (h' : (k.to r).Tighter r') : k.Tighter r' := by
  obtain ⟨vs, up, b⟩ := k
  cases up with
  | true =>
    have h : r < b := h
    have h' : r' < r := h'
    exact (Nat.lt_trans h' h : r' < b)
  | false =>
    have h : b < r ∧ r ≤ vs.length := h
    have h' : r < r' ∧ r' ≤ vs.length := h'
    exact (⟨Nat.lt_trans h.1 h'.1, h'.2⟩ : b < r' ∧ r' ≤ vs.length)

theorem Con.Tighter.holds {k : Con} {r : Nat} (h : k.Tighter r) {σ : Asg} (h' : (k.to r).Holds σ) : k.Holds σ := by
  obtain ⟨vs, up, b⟩ := k
  cases up with
  | true =>
    have h : r < b := h
    have h' : cntV σ vs ≤ r := h'
    show cntV σ vs ≤ b
    omega
  | false =>
    have h : b < r ∧ r ≤ vs.length := h
    have h' : r ≤ cntV σ vs := h'
    show b ≤ cntV σ vs
    omega

theorem getElem?_to {ks : List Con} {r i j : Nat} :
    (ks.modify i fun k => { k with bound := r })[j]? = if i = j then (ks[j]?).map (·.to r) else ks[j]? := by
  rw [List.getElem?_modify]
  by_cases h : i = j
  · rw [if_pos h]
    simp only [if_pos h]
    rfl
  · rw [if_neg h]
    simp only [if_neg h]
    cases ks[j]? <;> rfl

/-- A bound is tightened. -/
theorem Inv.tighten (h : Inv C cnt X st) {i r : Nat} {k : Con} {d : IncData} (hk : X.cons[i]? = some k) (hd : st.data[i]? = some (some d)) (hr : k.Tighter r)
    {f : IncData → Nat → ER → Out (IncData × ER)} (hf : f = if k.up then newUpper else newLower) :
    ∃ st', st.bound C f i r = .ok (st', none) ∧ Inv C cnt { X with cons := X.cons.modify i fun k => { k with bound := r } } st' := by
  obtain ⟨e, hfit, hmore⟩ := tighten_eq (s := st.er) (h.fits i k d hk hd) hr
  obtain ⟨st', e', he, hdd, hN⟩ := h.written (addClauses_le (k.more d r) st.er) (st.data.set i (some { d with cur := r }))
  refine ⟨st', ?_, ?_⟩
  · unfold IncS.bound
    rw [hd]
    simp only
    have : f d r st.er = .ok ({ d with cur := r }, st.er.addClauses (k.more d r)) := by
      rw [hf, ← e]
      cases k.up <;> rfl
    rw [this]
    exact e'
  have hi : i < X.cons.length := by
    by_contra hi
    rw [List.getElem?_eq_none (by omega)] at hk
    cases hk
  have hmem := List.mem_of_getElem? hk
  -- the changed entry
  have hcase : ∀ {j : Nat} {k' : Con} {d' : IncData}, (X.cons.modify i fun k => { k with bound := r })[j]? = some k' → st'.data[j]? = some (some d') →
      (X.cons[j]? = some k' ∧ st.data[j]? = some (some d')) ∨ (k' = k.to r ∧ d' = { d with cur := r }) := by
    intro j k' d' hk' hd'
    rw [hdd, List.getElem?_set] at hd'
    rw [getElem?_to] at hk'
    by_cases hj : i = j
    · subst hj
      rw [if_pos rfl, hk] at hk'
      rw [if_pos rfl, if_pos (by rw [h.len]; exact hi)] at hd'
      cases hk'
      cases hd'
      exact .inr ⟨rfl, rfl⟩
    · rw [if_neg hj] at hk' hd'
      exact .inl ⟨hk', hd'⟩
  have hmod : ∀ {k'}, k' ∈ (X.cons.modify i fun k => { k with bound := r }) → k' ∈ X.cons ∨ k' = k.to r := by
    intro k' hk'
    obtain ⟨j, hj⟩ := List.mem_iff_getElem?.1 hk'
    rw [getElem?_to] at hj
    by_cases hij : i = j
    · subst hij
      rw [if_pos rfl, hk] at hj
      cases hj
      exact .inr rfl
    · rw [if_neg hij] at hj
      exact .inl (List.mem_of_getElem? hj)
  have hto : k.to r ∈ (X.cons.modify i fun k => { k with bound := r }) := by
    refine List.mem_of_getElem? (i := i) ?_
    rw [getElem?_to, if_pos rfl, hk]
    rfl
  constructor
  · rw [he]; exact hN
  · rw [he]; exact h.le.trans (addClauses_le _ _)
  · rw [he]; exact addClauses_wf h.wf (h.old i k d hk hd r hr)
  · exact h.base
  · intro k' hk'
    rcases hmod hk' with hk' | rfl
    · exact h.cons k' hk'
    · exact h.cons k hmem
  · rw [hdd]; simp [h.len]
  · intro σ hs k' hk'
    rw [he, addClauses_sat] at hs
    rcases hmod hk' with hk' | rfl
    · exact h.sound σ hs.1 k' hk'
    · exact h.snd i k d hk hd r σ hs.1 hr hs.2
  · intro j k' d' hk' hd'
    rcases hcase hk' hd' with ⟨hk', hd'⟩ | ⟨rfl, rfl⟩
    · exact h.fits j k' d' hk' hd'
    · exact hfit
  · intro j k' d' hk' hd' r' hr' c hc l hl
    rw [he, addClauses_old]
    rcases hcase hk' hd' with ⟨hk', hd'⟩ | ⟨rfl, rfl⟩
    · exact h.old j k' d' hk' hd' r' hr' c hc l hl
    · rw [hmore] at hc
      exact h.old i k d hk hd r' (hr.trans hr') c hc l hl
  · intro j k' d' hk' hd' r' σ hs hr' hc
    rw [he, addClauses_sat] at hs
    rcases hcase hk' hd' with ⟨hk', hd'⟩ | ⟨rfl, rfl⟩
    · exact h.snd j k' d' hk' hd' r' σ hs.1 hr' hc
    · rw [hmore] at hc
      exact h.snd i k d hk hd r' σ hs.1 (hr.trans hr') hc
  · intro σ hs
    simp only at hs
    have hkr := hs _ hto
    obtain ⟨σ', a, b, c⟩ := h.compl σ fun k' hk' => by
      obtain ⟨j, hj⟩ := List.mem_iff_getElem?.1 hk'
      by_cases hij : i = j
      · subst hij
        rw [hk] at hj
        cases hj
        exact hr.holds hkr
      · exact hs k' (List.mem_of_getElem? (i := j) (by rw [getElem?_to, if_neg hij, hj]))
    refine ⟨σ', a, by rw [he, addClauses_sat]; exact ⟨b, c i k d hk hd r hr hkr⟩, ?_⟩
    intro j k' d' hk' hd' r' hr' hkr'
    rcases hcase hk' hd' with ⟨hk', hd'⟩ | ⟨rfl, rfl⟩
    · exact c j k' d' hk' hd' r' hr' hkr'
    · rw [hmore]
      exact c i k d hk hd r' (hr.trans hr') hkr'

/-- A clause is added. -/
theorem Inv.addClause (h : Inv C cnt X st) {c : Clause} (hl : Legal cnt X st (.clause c)) :
    ∃ st', st.step C (.clause c) = .ok (st', none) ∧ Inv C cnt (X.step (.clause c)) st' := by
  obtain ⟨N, hN, hs⟩ := h.holds
  obtain ⟨m', e, h', _⟩ := hN.addClause c
  refine ⟨{ st with m := m', result := none }, ?_, ?_⟩
  · unfold IncS.step
    simp only
    rw [e]
  refine { h with holds := ⟨_, h', fun σ => ?_⟩, base := ?_ }
  · have ha : ∀ cs : List Clause, Sats σ (cs ++ [c]) ↔ Sats σ cs ∧ Clause.Sat σ c := by simp [Sats, or_imp, forall_and]
    simp only [Goal.step]
    rw [ha, ha, hs]
    exact ⟨fun ⟨⟨h1, h2⟩, h3⟩ => ⟨⟨h1, h3⟩, h2⟩, fun ⟨⟨h1, h3⟩, h2⟩ => ⟨⟨h1, h2⟩, h3⟩⟩
  · intro c' hc'
    rcases List.mem_append.1 hc' with hc' | hc'
    · exact h.base c' hc'
    · rw [List.mem_singleton.1 hc']; exact hl

/-- The clauses on the solver say what the user expects. -/
theorem Inv.sat (h : Inv C cnt X st) (σ : Asg) : X.Holds σ ↔ ∃ σ', Agree ⟨cnt, []⟩ σ σ' ∧ Sats σ' X.base ∧ Sat σ' st.er := by
  constructor
  · rintro ⟨h1, h2⟩
    obtain ⟨σ', a, b, _⟩ := h.compl σ h2
    exact ⟨σ', a, (sats_agree a h.base).1 h1, b⟩
  · rintro ⟨σ', a, h1, h2⟩
    exact ⟨(sats_agree a h.base).2 h1, fun k hk => (Con.holds_agree a (h.cons k hk)).2 (h.sound σ' h2 k hk)⟩

/-- Solving. -/
theorem Inv.solve (hm : C.clauseMin ≠ .none) (h : Inv C cnt X st) {fuel : Nat} {sel as : List Lit} (hl : Legal cnt X st (.solve fuel sel as)) :
    match st.step C (.solve fuel sel as) with
    | .panic => False
    | .diverge => True
    | .ok (st', r) => Inv C cnt X st' ∧ ∃ b, r = some b ∧ (b = true → X.Holds st'.m.asg ∧ ∀ a ∈ as, a.eval st'.m.asg = true) ∧
        (b = false → ∀ σ, X.Holds σ → ¬ ∀ a ∈ as, a.eval σ = true) := by
  obtain ⟨N, hN, hs⟩ := h.holds
  have hsv := hN.solve hm fuel sel as
  unfold IncS.step
  simp only
  revert hsv
  match st.m.solve C fuel sel as with
  | .panic => exact fun h => h
  | .diverge => exact fun _ => trivial
  | .ok (m', b) =>
    rintro ⟨h1, _, _, _, ht, hf⟩
    refine ⟨{ h with holds := ⟨_, h1, hs⟩ }, b, rfl, fun e => ?_, fun e σ hσ ha => ?_⟩
    · obtain ⟨_, h2, h3⟩ := ht e
      have h2 := (hs _).1 h2
      exact ⟨(h.sat _).2 ⟨_, .refl _ _, h2⟩, h3⟩
    · obtain ⟨σ', a, h2⟩ := (h.sat σ).1 hσ
      exact hf e σ' ((hs σ').2 h2) fun l hll => by rw [← a.lit (hl l hll)]; exact ha l hll

/-- Every call. -/
theorem Inv.step (hm : C.clauseMin ≠ .none) (h : Inv C cnt X st) {op : Op} (hl : Legal cnt X st op) :
    match st.step C op with
    | .panic => False
    | .diverge => ∃ f sel as, op = .solve f sel as
    | .ok (st', _) => Inv C cnt (X.step op) st' := by
  have fin : ∀ {op}, (∃ st', st.step C op = .ok (st', none) ∧ Inv C cnt (X.step op) st') → match st.step C op with
    | .panic => False
    | .diverge => ∃ f sel as, op = .solve f sel as
    | .ok (st', _) => Inv C cnt (X.step op) st' := by
    rintro op ⟨st', e, h'⟩
    rw [e]
    exact h'
  cases op with
  | cc cfg cc => exact fin (h.addCc hl)
  | clause c => exact fin (h.addClause hl)
  | upper i r =>
    obtain ⟨⟨d, hd⟩, k, hk, hu, hr⟩ := hl
    exact fin (h.tighten hk hd hr (by rw [hu]; rfl))
  | lower i r =>
    obtain ⟨⟨d, hd⟩, k, hk, hu, hr⟩ := hl
    exact fin (h.tighten hk hd hr (by rw [hu]; rfl))
  | solve f sel as =>
    have := h.solve hm hl
    revert this
    match st.step C (.solve f sel as) with
    | .panic => exact fun h => h
    | .diverge => exact fun _ => ⟨f, sel, as, rfl⟩
    | .ok (st', r) => exact fun h => h.1

end
end Verif.Sat.Incr
