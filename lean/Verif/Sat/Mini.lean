import Verif.Sat.Session
import Verif.Enc.Base
import Mathlib.Data.List.Basic
import Mathlib.Tactic.ByContra
/-
`MiniSat` (solver/minisat_solver.rs): the solver with named variables.
-/
namespace Verif.Sat
open St

/-- `MiniSatConfig`, solver/sat/minisat_config.rs: the configuration of the core solver and two more fields. -/
structure MCfg (F : Type) extends Cfg F where
  initialPhase : Bool
  auxInModels : Bool

/-- `MiniSat`, minisat_solver.rs:24-34.  `names` is `idx2name` as a list (`name2idx` is its inverse, minisat2.rs:213-216).  Left out: `result` and
`last_computation_with_assumptions` (the functions below look at the answer directly) and the caches of the Plaisted-Greenbaum transformation. -/
structure Mini (F : Type) where
  y : Sess F
  names : List Var

/-- `idx_for_variable`, minisat2.rs:204-206 -/
def idx (names : List Var) (v : Var) : Option Nat := if v ∈ names then some (names.idxOf v) else none

namespace Mini
variable {F : Type} [LinearOrder F] [Flt F]

/-- `from_config`, minisat_solver.rs:72-83 -/
def new (C : MCfg F) : Mini F := ⟨.new C.toCfg, []⟩

/-- A variable is made known: the closure in `generate_literal`, minisat_solver.rs:369-373, and encoding_result.rs:165-171 (where the phase is the other one). -/
def know (C : MCfg F) (phase : Bool) (v : Var) (m : Mini F) : Res (Mini F) :=
  if v ∈ m.names then .ok m
  else match m.y.step C.toCfg (.newVar phase) with
    | .ok (y, _) => .ok ⟨y, m.names ++ [v]⟩
    | .panic => .panic
    | .diverge => .diverge

/-- `generate_literal`, minisat_solver.rs:367-375 -/
def genLit (C : MCfg F) (l : Lit) (m : Mini F) : Res (Mini F × Nat) :=
  match m.know C (!C.initialPhase) l.v with
  | .ok m => .ok (m, mkLit (m.names.idxOf l.v) (!l.pos))
  | .panic => .panic
  | .diverge => .diverge

/-- `generate_clause_vec`, minisat_solver.rs:363-365 -/
def genLits (C : MCfg F) : List Lit → Mini F → Res (Mini F × List Nat)
  | [], m => .ok (m, [])
  | l :: ls, m =>
    match genLit C l m with
    | .ok (m, k) =>
      match genLits C ls m with
      | .ok (m, ks) => .ok (m, k :: ks)
      | .panic => .panic
      | .diverge => .diverge
    | .panic => .panic
    | .diverge => .diverge

/-- `add_clause`, minisat_solver.rs:357-361, for the literals of the clause; also the `add_clause` of plaisted_greenbaum_on_solver.rs:263-278 and of
encoding_result.rs:173-179. -/
def addClause (C : MCfg F) (c : Clause) (m : Mini F) : Res (Mini F) :=
  match genLits C c m with
  | .ok (m, ks) =>
    match m.y.step C.toCfg (.add ks) with
    | .ok (y, _) => .ok { m with y := y }
    | .panic => .panic
    | .diverge => .diverge
  | .panic => .panic
  | .diverge => .diverge

/-- `reset`, minisat_solver.rs:201-207 with minisat2.rs:1069-1105: everything but `var_inc`, the valid states and the number of states.  (`level`, `asg` and the other
functions of variables stand for vectors, which become empty.) -/
def reset (C : MCfg F) (m : Mini F) : Mini F := ⟨{ m.y with s := { St.new C.toCfg with varInc := m.y.s.varInc } }, []⟩

/-- `set_selection_order`, minisat2.rs:1285-1290 -/
def order (names : List Var) (sel : List Lit) : List Nat := sel.filterMap fun l => (idx names l.v).map fun i => mkLit i (!l.pos)

/-- `sat_with`, minisat_solver.rs:173-194 (`sat`, 166-170, without selection order and assumptions) -/
def solve (C : MCfg F) (fuel : Nat) (sel as : List Lit) (m : Mini F) : Res (Mini F × Bool) :=
  match genLits C as m with
  | .ok (m', ks) =>
    match m'.y.step C.toCfg (.solve fuel (order m.names sel) ks) with
    | .ok (y, r) => .ok ({ m' with y := y }, r == some true)
    | .panic => .panic
    | .diverge => .diverge
  | .panic => .panic
  | .diverge => .diverge

/-- `save_state`, minisat_solver.rs:236-241; the result is the id of the state. -/
def save (C : MCfg F) (m : Mini F) : Res (Mini F × Nat) :=
  match m.y.step C.toCfg .save with
  | .ok (y, _) => .ok ({ m with y := y }, m.y.handles.length)
  | .panic => .panic
  | .diverge => .diverge

/-- `load_state`, minisat_solver.rs:244-258; the names of the variables dropped are removed (minisat2.rs:1118-1120). -/
def load (C : MCfg F) (k : Nat) (m : Mini F) : Res (Mini F) :=
  match m.y.step C.toCfg (.load k) with
  | .ok (y, _) => .ok ⟨y, m.names.take y.s.nvars⟩
  | .panic => .panic
  | .diverge => .diverge

end Mini

/-- A call of `MiniSat`. -/
inductive NOp
  | know (phase : Bool) (v : Var)
  | add (c : Clause)
  | solve (fuel : Nat) (sel as : List Lit)
  | save
  | load (id : Nat)

/-- One call; the second component is the answer of the solver. -/
def Mini.step {F : Type} [LinearOrder F] [Flt F] (C : MCfg F) (op : NOp) (m : Mini F) : Res (Mini F × Option Bool) :=
  match op with
  | .know phase v =>
    match m.know C phase v with
    | .ok m => .ok (m, none)
    | .panic => .panic
    | .diverge => .diverge
  | .add c =>
    match m.addClause C c with
    | .ok m => .ok (m, none)
    | .panic => .panic
    | .diverge => .diverge
  | .solve fuel sel as =>
    match m.solve C fuel sel as with
    | .ok (m, b) => .ok (m, some b)
    | .panic => .panic
    | .diverge => .diverge
  | .save =>
    match m.save C with
    | .ok (m, _) => .ok (m, none)
    | .panic => .panic
    | .diverge => .diverge
  | .load k =>
    match m.load C k with
    | .ok m => .ok (m, none)
    | .panic => .panic
    | .diverge => .diverge

/-! ### Specification -/

/-- What a user expects a solver to hold: the variables it knows, the clauses added, and the saved states (newest first: id, number of variables, clauses). -/
structure NSpec where
  names : List Var
  cls : List Clause
  saved : List (Nat × Nat × List Clause)
  count : Nat

namespace NSpec

/-- Nothing. -/
def empty : NSpec := ⟨[], [], [], 0⟩

/-- The known variables when `vs` have been used. -/
def learn (names : List Var) (vs : List Var) : List Var := vs.foldl (fun n v => if v ∈ n then n else n ++ [v]) names

/-- The saved states from the one with id `k` on. -/
def cut (k : Nat) : List (Nat × Nat × List Clause) → Option ((Nat × Nat × List Clause) × List (Nat × Nat × List Clause))
  | [] => none
  | x :: xs => if x.1 = k then some (x, x :: xs) else cut k xs

/-- What a call does; `none` if the state to be loaded is not valid. -/
def step (op : NOp) (X : NSpec) : Option NSpec :=
  match op with
  | .know _ v => some { X with names := learn X.names [v] }
  | .add c => some { X with names := learn X.names (c.map Lit.v), cls := X.cls ++ [c] }
  | .solve _ _ as => some { X with names := learn X.names (as.map Lit.v) }
  | .save => some { X with saved := (X.count, X.names.length, X.cls) :: X.saved, count := X.count + 1 }
  | .load k => (cut k X.saved).map fun r => { X with names := X.names.take r.1.2.1, cls := r.1.2.2, saved := r.2 }

end NSpec

/-- An assignment satisfies all clauses. -/
def Sats (σ : Asg) (cls : List Clause) : Prop := ∀ c ∈ cls, Clause.Sat σ c

/-! ### Numbers and names -/

/-- The number of a literal of a known variable. -/
def enc (names : List Var) (l : Lit) : Nat := mkLit (names.idxOf l.v) (!l.pos)

/-- The clauses with numbers. -/
def encC (names : List Var) (cls : List Clause) : List (List Nat) := cls.map (List.map (enc names))

/-- All variables are known. -/
def Over (names : List Var) (cls : List Clause) : Prop := ∀ c ∈ cls, ∀ l ∈ c, l.v ∈ names

theorem litT_enc {ρ : Nat → Bool} {names : List Var} {l : Lit} : litT ρ (enc names l) ↔ l.eval (fun v => ρ (names.idxOf v)) = true := by
  unfold enc
  rw [litT_iff, vr_mkLit, sgn_mkLit]
  unfold Lit.eval
  cases l.pos <;> simp

theorem clT_enc {ρ : Nat → Bool} {names : List Var} {c : Clause} : clT ρ (c.map (enc names)) ↔ Clause.Sat (fun v => ρ (names.idxOf v)) c := by
  unfold clT Clause.Sat
  constructor
  · rintro ⟨k, hk, ht⟩
    obtain ⟨l, hl, rfl⟩ := List.mem_map.1 hk
    exact ⟨l, hl, litT_enc.1 ht⟩
  · rintro ⟨l, hl, ht⟩
    exact ⟨_, List.mem_map_of_mem hl, litT_enc.2 ht⟩

/-- From numbers to names. -/
theorem models_enc {ρ : Nat → Bool} {names : List Var} {cls : List Clause} : Models ρ (encC names cls) ↔ Sats (fun v => ρ (names.idxOf v)) cls := by
  unfold Models Sats encC
  constructor
  · exact fun h c hc => clT_enc.1 (h _ (List.mem_map_of_mem hc))
  · intro h k hk
    obtain ⟨c, hc, rfl⟩ := List.mem_map.1 hk
    exact clT_enc.2 (h c hc)

/-- The valuation of an assignment. -/
def num (names : List Var) (σ : Asg) : Nat → Bool := fun i => (names[i]?).any σ

theorem num_idxOf {names : List Var} {σ : Asg} {v : Var} (h : v ∈ names) : num names σ (names.idxOf v) = σ v := by
  unfold num
  rw [List.getElem?_idxOf h]; rfl

theorem sats_congr {σ τ : Asg} {names : List Var} {cls : List Clause} (ho : Over names cls) (h : ∀ v ∈ names, σ v = τ v) : Sats σ cls ↔ Sats τ cls := by
  have key : ∀ c ∈ cls, ∀ l ∈ c, l.eval σ = l.eval τ := fun c hc l hl => by unfold Lit.eval; rw [h _ (ho c hc l hl)]
  constructor
  · intro hs c hc
    obtain ⟨l, hl, ht⟩ := hs c hc
    exact ⟨l, hl, by rw [← key c hc l hl]; exact ht⟩
  · intro hs c hc
    obtain ⟨l, hl, ht⟩ := hs c hc
    exact ⟨l, hl, by rw [key c hc l hl]; exact ht⟩

/-- From names to numbers. -/
theorem models_num {names : List Var} {σ : Asg} {cls : List Clause} (ho : Over names cls) : Models (num names σ) (encC names cls) ↔ Sats σ cls := by
  rw [models_enc]
  exact sats_congr ho fun v hv => num_idxOf hv

theorem enc_lt {names : List Var} {l : Lit} (h : l.v ∈ names) : enc names l < 2 * names.length := by
  apply vr_lt.1
  unfold enc
  rw [vr_mkLit]
  exact List.idxOf_lt_length_of_mem h

theorem enc_append {names more : List Var} {l : Lit} (h : l.v ∈ names) : enc (names ++ more) l = enc names l := by
  unfold enc
  rw [List.idxOf_append_of_mem h]

theorem enc_take {names : List Var} {n : Nat} {l : Lit} (h : l.v ∈ names.take n) : enc names l = enc (names.take n) l := by
  conv_lhs => rw [← List.take_append_drop n names]
  exact enc_append h

theorem encC_append {names more : List Var} {cls : List Clause} (h : Over names cls) : encC (names ++ more) cls = encC names cls := by
  unfold encC
  refine List.map_congr_left fun c hc => List.map_congr_left fun l hl => enc_append (h c hc l hl)

theorem encC_take {names : List Var} {n : Nat} {cls : List Clause} (h : Over (names.take n) cls) : encC names cls = encC (names.take n) cls := by
  conv_lhs => rw [← List.take_append_drop n names]
  exact encC_append h

theorem Over.append {names : List Var} {cls : List Clause} (h : Over names cls) (more : List Var) : Over (names ++ more) cls :=
  fun c hc l hl => List.mem_append_left _ (h c hc l hl)

section
variable {F : Type} [LinearOrder F] [Flt F]

/-- A saved state with numbers. -/
def encS (names : List Var) (e : Nat × Nat × List Clause) : Nat × Nat × List (List Nat) := (e.1, e.2.1, encC names e.2.2)

/-- The solver with numbers that belongs to a specification with names. -/
def NSpec.num (X : NSpec) : Spec := ⟨X.names.length, encC X.names X.cls, X.saved.map (encS X.names), X.count⟩

/-- The solver holds what the specification says. -/
structure NHolds (C : MCfg F) (X : NSpec) (m : Mini F) : Prop where
  holds : Holds C.toCfg X.num m.y
  names : m.names = X.names
  nodup : X.names.Nodup
  over : Over X.names X.cls
  overS : ∀ e ∈ X.saved, e.2.1 ≤ X.names.length ∧ Over (X.names.take e.2.1) e.2.2
  down : X.saved.Pairwise fun a b => b.2.1 ≤ a.2.1

variable {C : MCfg F} {X : NSpec} {m : Mini F}

theorem nholds_new : NHolds C .empty (.new C) where
  holds := holds_new C.toCfg
  names := rfl
  nodup := List.nodup_nil
  over c hc := by cases hc
  overS e he := by cases he
  down := .nil

theorem NHolds.reset (h : NHolds C X m) (hs : X.saved = []) : NHolds C { NSpec.empty with count := X.count } (m.reset C) where
  holds := by
    have hv : m.y.valid = [] := by rw [h.holds.valid]; unfold NSpec.num; rw [hs]; rfl
    have hc : m.y.handles.length = X.count := h.holds.count
    have := holds_reset (C := C.toCfg) m.y.s.varInc hv
    rw [hc] at this
    exact this
  names := rfl
  nodup := List.nodup_nil
  over c hc := by cases hc
  overS e he := by cases he
  down := .nil

theorem NHolds.encS_append (h : NHolds C X m) (more : List Var) : X.saved.map (encS (X.names ++ more)) = X.saved.map (encS X.names) := by
  refine List.map_congr_left fun e he => ?_
  unfold encS
  rw [encC_append]
  exact fun c hc l hl => List.mem_of_mem_take ((h.overS e he).2 c hc l hl)

/-- Making a variable known changes neither clauses nor the model. -/
theorem newVar_same {sign dvar : Bool} {s s' : St F} (h : newVar sign dvar s = some s') : s'.data = s.data ∧ s'.clauses = s.clauses ∧ s'.model = s.model := by
  unfold newVar insertVarOrder at h
  simp only at h
  split at h
  · obtain ⟨hp, _, rfl⟩ := Option.map_eq_some_iff.1 h
    exact ⟨rfl, rfl, rfl⟩
  · cases h
    exact ⟨rfl, rfl, rfl⟩

/-- What making variables known leaves unchanged. -/
structure Known (m m' : Mini F) : Prop where
  names : ∃ more, m'.names = m.names ++ more
  data : m'.y.s.data = m.y.s.data
  clauses : m'.y.s.clauses = m.y.s.clauses
  handles : m'.y.handles = m.y.handles
  model : m'.y.s.model = m.y.s.model

theorem Known.refl (m : Mini F) : Known m m := ⟨⟨[], by simp⟩, rfl, rfl, rfl, rfl⟩

theorem Known.trans {m1 m2 m3 : Mini F} (h : Known m1 m2) (h' : Known m2 m3) : Known m1 m3 := by
  refine ⟨?_, h'.data.trans h.data, h'.clauses.trans h.clauses, h'.handles.trans h.handles, h'.model.trans h.model⟩
  obtain ⟨a, ha⟩ := h.names
  obtain ⟨b, hb⟩ := h'.names
  exact ⟨a ++ b, by rw [hb, ha, List.append_assoc]⟩

theorem NHolds.know (h : NHolds C X m) (phase : Bool) (v : Var) :
    ∃ m', m.know C phase v = .ok m' ∧ NHolds C { X with names := NSpec.learn X.names [v] } m' ∧ v ∈ m'.names ∧ Known m m' := by
  unfold Mini.know
  by_cases hv : v ∈ m.names
  · rw [if_pos hv]
    refine ⟨m, rfl, ?_, hv, .refl m⟩
    have : NSpec.learn X.names [v] = X.names := by
      show (if v ∈ X.names then X.names else X.names ++ [v]) = X.names
      rw [if_pos (h.names ▸ hv)]
    rw [this]
    exact h
  · rw [if_neg hv]
    have hv' : v ∉ X.names := h.names ▸ hv
    have hle : NSpec.learn X.names [v] = X.names ++ [v] := by
      show (if v ∈ X.names then X.names else X.names ++ [v]) = X.names ++ [v]
      rw [if_neg hv']
    obtain ⟨s', e, hr, hx, hn, _, ha, hs, _⟩ := newVar_ok h.holds.ready phase
    obtain ⟨e1, e2, e3⟩ := newVar_same e
    unfold Sess.step
    simp only
    rw [e]
    refine ⟨_, rfl, ?_, by simp, ⟨⟨[v], rfl⟩, e1, e2, rfl, e3⟩⟩
    rw [hle]
    have hnum : NSpec.num { X with names := X.names ++ [v] } = { X.num with n := X.num.n + 1 } := by
      unfold NSpec.num
      simp only [encC_append h.over, h.encS_append, List.length_append, List.length_singleton]
    exact
    { holds := by
        rw [hnum]
        exact
        { ready := hr
          nvars := by simp only; rw [hn, h.holds.nvars]
          sel := hs.trans h.holds.sel
          ass := ha.trans h.holds.ass
          valid := h.holds.valid
          count := h.holds.count
          inc := h.holds.inc
          ids := h.holds.ids
          sorted := h.holds.sorted
          snap := h.holds.ext fun _ => hx
          above := h.holds.above }
      names := by simp only [h.names]
      nodup := List.nodup_append.2 ⟨h.nodup, by simp, fun a ha b hb => by rw [List.mem_singleton.1 hb]; exact fun e => hv' (e ▸ ha)⟩
      over := h.over.append _
      overS := fun e he => by
        obtain ⟨h1, h2⟩ := h.overS e he
        refine ⟨Nat.le_trans h1 (by simp), ?_⟩
        simp only
        rw [List.take_append_of_le_length h1]
        exact h2
      down := h.down }

/-- Making the variables of literals known. -/
theorem NHolds.genLits (ls : List Lit) : ∀ {X : NSpec} {m : Mini F}, NHolds C X m →
    ∃ m', m.genLits C ls = .ok (m', ls.map (enc m'.names)) ∧ NHolds C { X with names := NSpec.learn X.names (ls.map Lit.v) } m' ∧ (∀ l ∈ ls, l.v ∈ m'.names) ∧ Known m m' := by
  induction ls with
  | nil => intro X m h; exact ⟨m, rfl, h, by simp, .refl m⟩
  | cons l ls ih =>
    intro X m h
    obtain ⟨m1, e1, h1, hl, k1⟩ := h.know (!C.initialPhase) l.v
    obtain ⟨m2, e2, h2, hls, k2⟩ := ih h1
    obtain ⟨more, hmore⟩ := k2.names
    refine ⟨m2, ?_, ?_, ?_, k1.trans k2⟩
    · unfold Mini.genLits Mini.genLit
      rw [e1]
      simp only
      rw [e2]
      simp only [List.map_cons]
      have : enc m2.names l = enc m1.names l := by rw [hmore]; exact enc_append hl
      rw [this]
      rfl
    · rw [List.map_cons]
      exact h2
    · intro k hk
      rcases List.mem_cons.1 hk with rfl | hk
      · rw [hmore]; exact List.mem_append_left _ hl
      · exact hls k hk

/-- A clause that is false in a model of the others has other literals. -/
theorem notPerm_of_false {Φ : List (List Nat)} {inc : Bool} {s : St F} (hr : Ready Φ inc s) {ρ : Nat → Bool} (hρ : Models ρ Φ) {c d : List Nat} (hc : ¬ clT ρ c) (hd : ∀ l ∈ d, l ∈ c) :
    ∀ i ∈ s.clauses, ¬ (s.data i).Perm d := by
  intro id hid hp
  obtain ⟨q, hi⟩ := hr.inv
  obtain ⟨l, hl, ht⟩ := (hi.inv.good id (.inl hid)).1.ent ρ hρ
  exact hc ⟨l, hd l (hp.mem_iff.1 hl), ht⟩

/-- What is known about a clause `d` stored when `c` is added. -/
structure NewC (X : NSpec) (c : Clause) (m m' : Mini F) (d : List Nat) : Prop where
  two : 2 ≤ d.length
  nodup : d.Nodup
  sub : ∀ l ∈ d, l ∈ c.map (enc m'.names)
  other : (∃ σ, Sats σ X.cls ∧ ¬ Clause.Sat σ c) → ∀ i ∈ m.y.s.clauses, ¬ (m.y.s.data i).Perm d

/-- Adding a clause. -/
theorem NHolds.addClause (h : NHolds C X m) (c : Clause) :
    ∃ m', m.addClause C c = .ok m' ∧ NHolds C { X with names := NSpec.learn X.names (c.map Lit.v), cls := X.cls ++ [c] } m' ∧ (∃ more, m'.names = m.names ++ more) ∧
      m'.y.s.model = m.y.s.model ∧ m'.y.handles = m.y.handles ∧ GrewBy (NewC X c m m') m.y.s m'.y.s := by
  obtain ⟨m1, e1, h1, hl, k1⟩ := NHolds.genLits c h
  have hn1 := h1.names
  simp only at hn1
  unfold Mini.addClause
  rw [e1]
  simp only
  have hlt : ∀ k ∈ c.map (enc m1.names), k < 2 * m1.y.s.nvars := by
    intro k hk
    obtain ⟨l, hl', rfl⟩ := List.mem_map.1 hk
    rw [h1.holds.nvars]
    simp only [NSpec.num]
    rw [← hn1]
    exact enc_lt (hl l hl')
  obtain ⟨s', b, e, hr, hx, _, hs, hnt⟩ := addClause_ok C.toCfg h1.holds.ready hlt
  unfold Sess.step
  simp only
  rw [e]
  have hov : Over (NSpec.learn X.names (c.map Lit.v)) (X.cls ++ [c]) := by
    intro c' hc' l hl'
    rcases List.mem_append.1 hc' with hc' | hc'
    · exact h1.over c' hc' l hl'
    · rw [List.mem_singleton.1 hc'] at hl'
      rw [← hn1]
      exact hl l hl'
  refine ⟨_, rfl, ?_, k1.names, hs.model.trans k1.model, k1.handles, ?_⟩
  · have hnum : NSpec.num { X with names := NSpec.learn X.names (c.map Lit.v), cls := X.cls ++ [c] } =
        { NSpec.num { X with names := NSpec.learn X.names (c.map Lit.v) } with cls := encC m1.names X.cls ++ [c.map (enc m1.names)] } := by
      unfold NSpec.num encC
      simp only [hn1, List.map_append, List.map_cons, List.map_nil]
    exact
    { holds := by
        rw [hnum, hn1]
        rw [hn1] at hr
        exact
        { ready := hr
          nvars := hs.nvars.trans h1.holds.nvars
          sel := hs.sel.trans h1.holds.sel
          ass := hs.assumptions.trans h1.holds.ass
          valid := h1.holds.valid
          count := h1.holds.count
          inc := h1.holds.inc
          ids := h1.holds.ids
          sorted := h1.holds.sorted
          snap := h1.holds.ext fun _ => hx
          above := h1.holds.above }
      names := h1.names
      nodup := h1.nodup
      over := hov
      overS := h1.overS
      down := h1.down }
  · unfold GrewBy at hnt ⊢
    rw [k1.clauses, k1.data] at hnt
    obtain ⟨r, a1, a2, a3⟩ := hnt
    refine ⟨r, a1, a2, fun j hj => ?_⟩
    obtain ⟨b1, b2, b3⟩ := a3 j hj
    refine ⟨b1, b2, fun l hl' => ((b3 l).1 hl').1, fun ⟨σ, hσ1, hσ2⟩ => ?_⟩
    have := notPerm_of_false h1.holds.ready (ρ := Sat.num (NSpec.learn X.names (c.map Lit.v)) σ) ((models_num h1.over).2 hσ1) (c := c.map (enc m1.names)) (fun hc => hσ2 ?_)
      (fun l hl' => ((b3 l).1 hl').1)
    · rw [k1.clauses, k1.data] at this
      exact this
    have : Models (Sat.num (NSpec.learn X.names (c.map Lit.v)) σ) (encC (NSpec.learn X.names (c.map Lit.v)) [c]) := by
      intro d hd
      rw [List.mem_singleton.1 hd, ← hn1]
      rw [← hn1] at hc
      exact hc
    exact (models_num fun c' hc' l hl' => hov c' (List.mem_append_right _ hc') l hl').1 this c (by simp)

theorem step_handles {C : Cfg F} {op : Op} {y y' : Sess F} {r : Option Bool} (hne : op ≠ .save) (e : y.step C op = .ok (y', r)) : y'.handles = y.handles := by
  cases op with
  | save => exact absurd rfl hne
  | newVar phase =>
    unfold Sess.step at e
    simp only at e
    split at e
    · cases e
    · cases e; rfl
  | add c =>
    unfold Sess.step at e
    simp only at e
    split at e
    · cases e
    · cases e; rfl
  | solve fuel sel as =>
    unfold Sess.step at e
    simp only at e
    split at e
    · cases e
    · cases e
    · cases e; rfl
  | load k =>
    unfold Sess.step at e
    simp only at e
    split at e
    · split at e
      · cases e
      · cases e; rfl
    · cases e

theorem order_lt {names : List Var} {sel : List Lit} : ∀ k ∈ Mini.order names sel, k < 2 * names.length := by
  intro k hk
  unfold Mini.order at hk
  obtain ⟨l, _, h⟩ := List.mem_filterMap.1 hk
  obtain ⟨i, hi, rfl⟩ := Option.map_eq_some_iff.1 h
  unfold idx at hi
  split at hi
  · next hm =>
    cases hi
    exact enc_lt (l := l) hm
  · cases hi

/-- The model found by the solver, with names. -/
def Mini.asg (m : Mini F) : Asg := fun v => m.y.s.model.getD (m.names.idxOf v) false

/-- Solving. -/
theorem NHolds.solve (hm : C.clauseMin ≠ .none) (fuel : Nat) (h : NHolds C X m) (sel as : List Lit) :
    match m.solve C fuel sel as with
    | .panic => False
    | .diverge => True
    | .ok (m', b) => NHolds C { X with names := NSpec.learn X.names (as.map Lit.v) } m' ∧ (∃ more, m'.names = m.names ++ more) ∧
        m'.y.handles = m.y.handles ∧ (C.incremental = true → GrewBy (fun _ => False) m.y.s m'.y.s) ∧
        (b = true → m'.y.s.model.length = m'.names.length ∧ Sats m'.asg X.cls ∧ ∀ a ∈ as, a.eval m'.asg = true) ∧
        (b = false → ∀ σ, Sats σ X.cls → ¬ ∀ a ∈ as, a.eval σ = true) := by
  obtain ⟨m1, e1, h1, hl, k1⟩ := NHolds.genLits as h
  unfold Mini.solve
  rw [e1]
  simp only
  have hn1 := h1.names
  simp only at hn1
  have hlen : m.names.length ≤ m1.names.length := by
    obtain ⟨more, hmore⟩ := k1.names
    rw [hmore, List.length_append]; omega
  have hleg : (NSpec.num { X with names := NSpec.learn X.names (as.map Lit.v) }).Legal (.solve fuel (Mini.order m.names sel) (as.map (enc m1.names))) := by
    refine ⟨fun l hl => ?_, fun l hl' => ?_⟩
    · have := order_lt l hl
      simp only [NSpec.num]
      rw [← hn1]
      omega
    · obtain ⟨a, ha, rfl⟩ := List.mem_map.1 hl'
      simp only [NSpec.num]
      rw [← hn1]
      exact enc_lt (hl a ha)
  have hst := h1.holds.step hm hleg (by rintro (h | ⟨k, h⟩) <;> cases h) (by rintro k h; cases h)
  revert hst
  match hr : m1.y.step C.toCfg (.solve fuel (Mini.order m.names sel) (as.map (enc m1.names))) with
  | .panic => exact fun h => h
  | .diverge => exact fun _ => trivial
  | .ok (y', r) =>
    rintro ⟨x', hx', hh, hs⟩
    cases hx'
    obtain ⟨b, rfl, hsol⟩ := hs _ _ _ rfl
    have hb : ((some b : Option Bool) == some true) = b := by cases b <;> rfl
    simp only
    rw [hb]
    refine ⟨{ h1 with holds := hh }, k1.names, (step_handles (by simp) hr).trans k1.handles, fun hi => ?_, fun e => ?_, fun e σ hσ hall => ?_⟩
    · rw [hi] at hsol
      have hrd := h1.holds.ready
      rw [hi] at hrd
      refine .same ((hsol.cls rfl).trans k1.clauses) fun i hi' => ?_
      rw [← k1.clauses] at hi'
      rw [← k1.data]
      exact (hsol.ext rfl).perm i (hrd.ids i (.inl hi'))
    · obtain ⟨q1, _, q2, q3⟩ := hsol.sat e
      refine ⟨by rw [q1, hh.nvars, hn1]; rfl, ?_, fun a ha => ?_⟩
      · have := models_enc.1 q2
        simp only [← hn1] at this
        exact this
      · have := litT_enc.1 (q3 _ (List.mem_map_of_mem ha))
        exact this
    · obtain ⟨q1, q2, _⟩ := hsol.unsat e
      obtain ⟨k, hk, hkt⟩ := q1 _ ((models_num h1.over).2 hσ)
      obtain ⟨a, ha, hak⟩ := List.mem_map.1 (q2 k hk)
      have := hall a ha
      have ht : litT (Sat.num (NSpec.learn X.names (as.map Lit.v)) σ) (enc m1.names a) := by
        rw [litT_enc, ← this]
        unfold Lit.eval
        rw [← hn1]
        simp only [num_idxOf (hl a ha)]
      rw [hak] at ht
      exact litT_neg.1 ht hkt

/-- Saving. -/
theorem NHolds.save (hm : C.clauseMin ≠ .none) (hi : C.incremental = true) (h : NHolds C X m) :
    ∃ m', m.save C = .ok (m', X.count) ∧ NHolds C { X with saved := (X.count, X.names.length, X.cls) :: X.saved, count := X.count + 1 } m' ∧ m'.names = m.names ∧ m'.y.s = m.y.s ∧
      ∃ st, m'.y.handles[X.count]? = some st ∧ st.clauses = m.y.s.clauses.length ∧ st.nvars = m.y.s.nvars := by
  have hst := h.holds.step hm (op := .save) trivial (fun _ => hi) (by rintro k h; cases h)
  unfold Mini.save
  have hs' : ∀ y' r, m.y.step C.toCfg .save = .ok (y', r) → y'.s = m.y.s ∧ ∃ st, y'.handles[X.count]? = some st ∧ st.clauses = m.y.s.clauses.length ∧ st.nvars = m.y.s.nvars := by
    intro y' r e
    unfold Sess.step at e
    simp only at e
    split at e
    · cases e
    · next st hst =>
      cases e
      unfold St.save at hst
      rw [if_pos hi] at hst
      have hst := Option.some.inj hst
      refine ⟨rfl, st, ?_, by rw [← hst], by rw [← hst]⟩
      rw [← show m.y.handles.length = X.count from h.holds.count]
      simp
  revert hst hs'
  match m.y.step C.toCfg .save with
  | .panic => exact fun h _ => h.elim
  | .diverge => rintro ⟨f, sel, as, e⟩; cases e
  | .ok (y', r) =>
    rintro ⟨x', hx', hh, _⟩ hs'
    cases hx'
    refine ⟨{ m with y := y' }, by rw [← show m.y.handles.length = X.count from h.holds.count], ?_, rfl, (hs' y' r rfl).1, (hs' y' r rfl).2⟩
    exact
    { holds := hh
      names := h.names
      nodup := h.nodup
      over := h.over
      overS := fun e he => by
        rcases List.mem_cons.1 he with rfl | he
        · exact ⟨Nat.le_refl _, by simp only [List.take_length]; exact h.over⟩
        · exact h.overS e he
      down := List.pairwise_cons.2 ⟨fun b hb => (h.overS b hb).1, h.down⟩ }

theorem cut_enc {names : List Var} {k : Nat} : ∀ l : List (Nat × Nat × List Clause), Spec.cut k (l.map (encS names)) = (NSpec.cut k l).map fun r => (encS names r.1, r.2.map (encS names))
  | [] => rfl
  | a :: l => by
    unfold NSpec.cut
    rw [List.map_cons]
    unfold Spec.cut
    by_cases h : a.1 = k
    · rw [if_pos h, if_pos (show (encS names a).1 = k from h)]; rfl
    · rw [if_neg h, if_neg (show (encS names a).1 ≠ k from h)]
      exact cut_enc l

theorem ncut_suffix {k : Nat} : ∀ {l : List (Nat × Nat × List Clause)} {r}, NSpec.cut k l = some r → ∃ p t, l = p ++ r.2 ∧ r.2 = r.1 :: t ∧ r.1.1 = k
  | [], _, h => by cases h
  | a :: l, r, h => by
    unfold NSpec.cut at h
    by_cases ha : a.1 = k
    · rw [if_pos ha] at h
      cases h
      exact ⟨[], l, rfl, rfl, ha⟩
    · rw [if_neg ha] at h
      obtain ⟨p, t, h1, h2, h3⟩ := ncut_suffix h
      exact ⟨a :: p, t, by rw [h1]; rfl, h2, h3⟩

/-- Loading. -/
theorem NHolds.load (hm : C.clauseMin ≠ .none) (hi : C.incremental = true) (h : NHolds C X m) {k : Nat} (ht : m.y.Separate k) {r} (hr : NSpec.cut k X.saved = some r) :
    ∃ m', m.load C k = .ok m' ∧ NHolds C { X with names := X.names.take r.1.2.1, cls := r.1.2.2, saved := r.2 } m' := by
  have hcut : Spec.cut k X.num.saved = some (encS X.names r.1, r.2.map (encS X.names)) := by
    show Spec.cut k (X.saved.map (encS X.names)) = _
    rw [cut_enc, hr]; rfl
  have hst := h.holds.step hm (op := .load k) (show (Spec.cut k X.num.saved).isSome = true by rw [hcut]; rfl) (fun _ => hi) (by rintro _ ⟨⟩; exact ht)
  obtain ⟨p, t, hp, hrt, _⟩ := ncut_suffix hr
  have hmem : r.1 ∈ X.saved := by rw [hp, hrt]; simp
  have hsub : ∀ e ∈ r.2, e ∈ X.saved := fun e he => by rw [hp]; exact List.mem_append_right _ he
  have hdown : r.2.Pairwise fun a b => b.2.1 ≤ a.2.1 := by
    have := h.down
    rw [hp] at this
    exact (List.pairwise_append.1 this).2.1
  have hle : ∀ e ∈ r.2, e.2.1 ≤ r.1.2.1 := by
    intro e he
    rw [hrt] at he hdown
    rcases List.mem_cons.1 he with rfl | he
    · exact Nat.le_refl _
    · exact (List.pairwise_cons.1 hdown).1 e he
  obtain ⟨hl1, hl2⟩ := h.overS r.1 hmem
  unfold Mini.load
  revert hst
  match m.y.step C.toCfg (.load k) with
  | .panic => exact fun h => h.elim
  | .diverge => rintro ⟨f, sel, as, e⟩; cases e
  | .ok (y', r') =>
    rintro ⟨x', hx', hh, _⟩
    unfold Spec.step at hx'
    simp only at hx'
    rw [hcut] at hx'
    cases hx'
    have hn : y'.s.nvars = r.1.2.1 := hh.nvars
    have hov : ∀ e ∈ r.2, Over ((X.names.take r.1.2.1).take e.2.1) e.2.2 := by
      intro e he
      rw [List.take_take, Nat.min_eq_left (hle e he)]
      exact (h.overS e (hsub e he)).2
    refine ⟨_, rfl, ?_⟩
    have hnum : NSpec.num { X with names := X.names.take r.1.2.1, cls := r.1.2.2, saved := r.2 } =
        { X.num with n := (encS X.names r.1).2.1, cls := (encS X.names r.1).2.2, saved := r.2.map (encS X.names) } := by
      unfold NSpec.num encS
      simp only [List.length_take, Nat.min_eq_left hl1]
      congr 1
      · exact (encC_take hl2).symm
      · refine List.map_congr_left fun e he => ?_
        congr 2
        exact (encC_take fun c hc l hl => List.mem_of_mem_take (hov e he c hc l hl)).symm
    exact
    { holds := by rw [hnum]; exact hh
      names := by simp only [h.names, hn]
      nodup := h.nodup.sublist (List.take_sublist _ _)
      over := hl2
      overS := fun e he => ⟨by simp only [List.length_take]; have := hle e he; omega, hov e he⟩
      down := hdown }

end
end Verif.Sat
