import Verif.Sat.Write
import Verif.Sat.MiniBackbone
import Verif.Enc.Clean
/-
Optimization, solver/functions/optimization_function.rs.
-/
namespace Verif.Sat
open St ER

/-- `OptimizationFunction`, optimization_function.rs:17-21; `vars` are the variables of the result in the order of the set. -/
structure OptF where
  lits : List Lit
  vars : List Var
  maximize : Bool

/-- The clauses that tie selectors to literals, optimization_function.rs:55-69.  Simplified: `f.or` may store the two literals in the other order. -/
def selClauses (maximize : Bool) (sm : List (Var × Lit)) : List Clause :=
  if maximize then (sm.map fun p => [p.1.n, p.2]) ++ sm.map fun p => [p.2.neg, p.1.p]
  else (sm.map fun p => [p.1.n, p.2.neg]) ++ sm.map fun p => [p.2, p.1.p]

namespace Mini
variable {F : Type} [LinearOrder F] [Flt F]

/-- `solver.model(Some(&selectors)).unwrap().pos().len()`, optimization_function.rs:75-76, with minisat_solver.rs:220-231 -/
def trueOf (C : MCfg F) (sels : List Var) (m : Mini F) : Nat := (createAssignment C m.names m.y.s.model (some (sels.filterMap (idx m.names)))).1.length

/-- `mk_result_model`, optimization_function.rs:106-110 -/
def resultModel (C : MCfg F) (vars : List Var) (model : List Bool) (m : Mini F) : NModel := createAssignment C m.names model (some (vars.filterMap (idx m.names)))

/-- The loop, optimization_function.rs:90-103.  The first number bounds the number of iterations; it never gets 0. -/
def optLoop (C : MCfg F) (fuel : Nat) (o : OptF) (sels : List Var) : Nat → Option IncData → ER → List Bool → Mini F → Res (Mini F × Option NModel)
  | 0, _, _, _, _ => .panic
  | n + 1, data, er, model, m =>
    match m.solve C fuel [] [] with
    | .panic => .panic
    | .diverge => .diverge
    | .ok (m, false) => .ok (m, some (m.resultModel C o.vars model))
    | .ok (m, true) =>
      if m.trueOf C sels = sels.length then .ok (m, some (m.resultModel C o.vars m.y.s.model))
      else
        match data with
        | none => .panic
        | some d =>
          match newLower d (m.trueOf C sels + 1) er with
          | .panic => .panic
          | .diverge => .diverge
          | .ok (d, er') =>
            match m.write C er er' with
            | .panic => .panic
            | .diverge => .diverge
            | .ok m' => optLoop C fuel o sels n (some d) er' m.y.s.model m'

/-- From the incremental constraint on, optimization_function.rs:88-103 -/
def optRest (C : MCfg F) (cc : CcCfg) (fuel : Nat) (o : OptF) (sels : List Var) (er : ER) (model : List Bool) (bound : Nat) (m : Mini F) : Res (Mini F × Option NModel) :=
  match encodeIncremental cc ⟨sels, .ge, bound + 1⟩ er with
  | .panic => .panic
  | .diverge => .diverge
  | .ok (data, er') =>
    match m.write C er er' with
    | .panic => .panic
    | .diverge => .diverge
    | .ok m => m.optLoop C fuel o sels (sels.length + 1) data er' model

/-- `compute`, optimization_function.rs:52-104.  `sm` is the map from selectors to literals (lines 53 and 54), in the order of the map, and `cnt` the
counters of the factory.  Simplified: line 78 goes through `add`; for an empty list of selectors it adds the empty clause, as `encode_on` would. -/
def optCompute (C : MCfg F) (cc : CcCfg) (fuel : Nat) (o : OptF) (sm : List (Var × Lit)) (cnt : AuxTy → Nat) (m : Mini F) : Res (Mini F × Option NModel) :=
  let sels := sm.map Prod.fst
  match m.addAll C (selClauses o.maximize sm) with
  | .panic => .panic
  | .diverge => .diverge
  | .ok m =>
    match m.solve C fuel [] [] with
    | .panic => .panic
    | .diverge => .diverge
    | .ok (m, false) => .ok (m, none)
    | .ok (m, true) =>
      if m.trueOf C sels = 0 then
        match encodeConstraint cc 0 ⟨sels, .ge, 1⟩ ⟨cnt, []⟩ with
        | .panic => .panic
        | .diverge => .diverge
        | .ok er =>
          match m.write C ⟨cnt, []⟩ er with
          | .panic => .panic
          | .diverge => .diverge
          | .ok m1 =>
            match m1.solve C fuel [] [] with
            | .panic => .panic
            | .diverge => .diverge
            | .ok (m2, false) => .ok (m2, some (m2.resultModel C o.vars m.y.s.model))
            | .ok (m2, true) => m2.optRest C cc fuel o sels er m2.y.s.model (m2.trueOf C sels)
      else if m.trueOf C sels = sels.length then .ok (m, some (m.resultModel C o.vars m.y.s.model))
      else m.optRest C cc fuel o sels ⟨cnt, []⟩ m.y.s.model (m.trueOf C sels)

/-- `optimize`, optimization_function.rs:43-50 -/
def optimize (C : MCfg F) (cc : CcCfg) (fuel : Nat) (o : OptF) (sm : List (Var × Lit)) (cnt : AuxTy → Nat) (m : Mini F) : Res (Mini F × Option NModel) :=
  if C.incremental then
    match m.save C with
    | .panic => .panic
    | .diverge => .diverge
    | .ok (m, k) =>
      match m.optCompute C cc fuel o sm cnt with
      | .panic => .panic
      | .diverge => .diverge
      | .ok (m, r) =>
        match m.load C k with
        | .ok m => .ok (m, r)
        | .panic => .panic
        | .diverge => .diverge
  else m.optCompute C cc fuel o sm cnt

end Mini

/-! ### Specification -/

/-- The selectors are those of the literals and used nowhere else; auxiliary variables handed out from now on are used nowhere yet. -/
structure OptOK (X : NSpec) (o : OptF) (sm : List (Var × Lit)) (cnt : AuxTy → Nat) : Prop where
  lits : (sm.map Prod.snd).Perm o.lits
  nodup : (sm.map Prod.fst).Nodup
  named : ∀ s ∈ sm.map Prod.fst, ∃ i, s = .named i
  fresh : ∀ s ∈ sm.map Prod.fst, s ∉ X.names ∧ s ∉ o.vars ∧ ∀ l ∈ o.lits, l.v ≠ s
  old : ∀ v, v ∈ X.names ∨ v ∈ o.vars ∨ (∃ l ∈ o.lits, l.v = v) → (ER.mk cnt []).Old v
  small : o.lits.length < 2 ^ 30

/-- An assignment that satisfies the clauses and has the most (or fewest) true literals. -/
def Optimal (cls : List Clause) (o : OptF) (σ : Asg) : Prop :=
  Sats σ cls ∧ ∀ τ, Sats τ cls → if o.maximize then cntL τ o.lits ≤ cntL σ o.lits else cntL σ o.lits ≤ cntL τ o.lits

/-- The variables of the result: those asked for that occur in the solver or in the literals. -/
def optVars {F : Type} (C : MCfg F) (names : List Var) (o : OptF) : List Var :=
  o.vars.filter fun v => decide (v ∈ names ∨ v ∈ o.lits.map Lit.v) && isRelevant C v

/-! ### Correctness -/

/-- The literal that a selector stands for. -/
def goal (maximize : Bool) (l : Lit) : Lit := if maximize then l else l.neg

theorem sats_sel {maximize : Bool} {sm : List (Var × Lit)} {τ : Asg} : Sats τ (selClauses maximize sm) ↔ ∀ p ∈ sm, τ p.1 = (goal maximize p.2).eval τ := by
  have key : ∀ p : Var × Lit, (Clause.Sat τ [p.1.n, goal maximize p.2] ∧ Clause.Sat τ [(goal maximize p.2).neg, p.1.p]) ↔ τ p.1 = (goal maximize p.2).eval τ := by
    intro p
    simp only [Clause.sat_cons, Clause.sat_nil, or_false, Lit.eval_n, Lit.eval_p, Lit.eval_neg]
    cases τ p.1 <;> cases (goal maximize p.2).eval τ <;> simp
  have hcl : selClauses maximize sm = (sm.map fun p => [p.1.n, goal maximize p.2]) ++ sm.map fun p => [(goal maximize p.2).neg, p.1.p] := by
    unfold selClauses goal
    cases maximize <;> simp
  rw [hcl, sats_append]
  unfold Sats
  simp only [List.forall_mem_map]
  constructor
  · rintro ⟨h1, h2⟩ p hp
    exact (key p).1 ⟨h1 p hp, h2 p hp⟩
  · intro h
    exact ⟨fun p hp => ((key p).2 (h p hp)).1, fun p hp => ((key p).2 (h p hp)).2⟩

theorem varsOf_sel {maximize : Bool} {sm : List (Var × Lit)} {v : Var} : v ∈ varsOf (selClauses maximize sm) ↔ v ∈ sm.map Prod.fst ∨ v ∈ (sm.map Prod.snd).map Lit.v := by
  rw [mem_varsOf]
  unfold selClauses
  constructor
  · rintro ⟨c, hc, l, hl, rfl⟩
    have : ∃ p ∈ sm, l.v = p.1 ∨ l.v = p.2.v := by
      split at hc <;> rcases List.mem_append.1 hc with hc | hc <;> obtain ⟨p, hp, rfl⟩ := List.mem_map.1 hc <;> refine ⟨p, hp, ?_⟩ <;>
        simp only [List.mem_cons, List.not_mem_nil, or_false] at hl <;> rcases hl with rfl | rfl <;> simp
    obtain ⟨p, hp, h | h⟩ := this
    · exact .inl (h ▸ List.mem_map_of_mem hp)
    · exact .inr (h ▸ List.mem_map_of_mem (List.mem_map_of_mem hp))
  · intro h
    have hex : ∃ p ∈ sm, v = p.1 ∨ v = p.2.v := by
      rcases h with h | h
      · obtain ⟨p, hp, rfl⟩ := List.mem_map.1 h
        exact ⟨p, hp, .inl rfl⟩
      · obtain ⟨l, hl, rfl⟩ := List.mem_map.1 h
        obtain ⟨p, hp, rfl⟩ := List.mem_map.1 hl
        exact ⟨p, hp, .inr rfl⟩
    obtain ⟨p, hp, h⟩ := hex
    cases maximize
    · refine ⟨[p.2, p.1.p], by simp only [Bool.false_eq_true, if_false]; exact List.mem_append_right _ (List.mem_map.2 ⟨p, hp, rfl⟩), ?_⟩
      rcases h with rfl | rfl
      · exact ⟨p.1.p, by simp, rfl⟩
      · exact ⟨p.2, by simp, rfl⟩
    · refine ⟨[p.1.n, p.2], by simp only [if_true]; exact List.mem_append_left _ (List.mem_map.2 ⟨p, hp, rfl⟩), ?_⟩
      rcases h with rfl | rfl
      · exact ⟨p.1.n, by simp, rfl⟩
      · exact ⟨p.2, by simp, rfl⟩

/-- Selectors count goals. -/
theorem cntV_sels {maximize : Bool} {sm : List (Var × Lit)} {τ : Asg} (h : ∀ p ∈ sm, τ p.1 = (goal maximize p.2).eval τ) :
    cntV τ (sm.map Prod.fst) = cntL τ ((sm.map Prod.snd).map (goal maximize)) := by
  unfold cntV cntL
  rw [List.countP_map, List.countP_map, List.countP_map]
  refine List.countP_congr fun p hp => ?_
  simp only [Function.comp_apply, h p hp]

theorem cntL_goals {maximize : Bool} {sm : List (Var × Lit)} {lits : List Lit} (hp : (sm.map Prod.snd).Perm lits) (τ : Asg) :
    if maximize then cntL τ ((sm.map Prod.snd).map (goal maximize)) = cntL τ lits else cntL τ ((sm.map Prod.snd).map (goal maximize)) + cntL τ lits = lits.length := by
  have hneg : ∀ ls : List Lit, cntL τ (ls.map Lit.neg) + cntL τ ls = ls.length := by
    intro ls
    induction ls with
    | nil => rfl
    | cons l ls ih =>
      unfold cntL at ih ⊢
      rw [List.map_cons, List.countP_cons, List.countP_cons, List.length_cons, Lit.eval_neg]
      rw [List.countP_map] at ih ⊢
      cases l.eval τ <;> simp <;> omega
  cases maximize
  · simp only [Bool.false_eq_true, if_false]
    have h1 : (sm.map Prod.snd).map (goal false) = (sm.map Prod.snd).map Lit.neg := List.map_congr_left fun l _ => by simp [goal]
    have h2 : cntL τ ((sm.map Prod.snd).map Lit.neg) = cntL τ (lits.map Lit.neg) := (hp.map _).countP_eq _
    rw [h1, h2]
    exact hneg lits
  · simp only [if_true]
    have h1 : (sm.map Prod.snd).map (goal true) = sm.map Prod.snd := by
      conv_rhs => rw [← List.map_id (sm.map Prod.snd)]
      exact List.map_congr_left fun l _ => by simp [goal]
    rw [h1]
    exact hp.countP_eq _

/-- Selectors can be given the values they should have. -/
theorem sel_ext {X : NSpec} {o : OptF} {sm : List (Var × Lit)} {cnt : AuxTy → Nat} (ho : OptOK X o sm cnt) (σ : Asg) :
    ∃ σ' : Asg, (∀ v, v ∉ sm.map Prod.fst → σ' v = σ v) ∧ (∀ p ∈ sm, σ' p.1 = (goal o.maximize p.2).eval σ') ∧ cntL σ' ((sm.map Prod.snd).map (goal o.maximize)) = cntL σ ((sm.map Prod.snd).map (goal o.maximize)) := by
  have hl : ∀ p ∈ sm, p.2.v ∉ sm.map Prod.fst := fun p hp hm =>
    (ho.fresh _ hm).2.2 p.2 (ho.lits.mem_iff.1 (List.mem_map_of_mem hp)) rfl
  have hgv : ∀ l, (goal o.maximize l).v = l.v := fun l => by unfold goal; split <;> rfl
  obtain ⟨σ', hσ'⟩ : ∃ σ' : Asg, σ' = fun v => match sm.find? (fun p => decide (p.1 = v)) with | some p => (goal o.maximize p.2).eval σ | none => σ v := ⟨_, rfl⟩
  have h1 : ∀ v, v ∉ sm.map Prod.fst → σ' v = σ v := by
    intro v hv
    have : sm.find? (fun p => decide (p.1 = v)) = none := List.find?_eq_none.2 fun p hp => by
      simp only [decide_eq_true_eq]
      exact fun e => hv (e ▸ List.mem_map_of_mem hp)
    rw [hσ']
    simp only
    rw [this]
  have hev : ∀ p ∈ sm, (goal o.maximize p.2).eval σ' = (goal o.maximize p.2).eval σ := by
    intro p hp
    unfold Lit.eval
    rw [hgv, h1 _ (hl p hp)]
  refine ⟨σ', h1, fun p hp => ?_, ?_⟩
  · rw [hev p hp]
    have : sm.find? (fun q => decide (q.1 = p.1)) = some p := by
      obtain ⟨q, hq⟩ : ∃ q, sm.find? (fun q => decide (q.1 = p.1)) = some q := by
        rw [← Option.isSome_iff_exists, List.find?_isSome]
        exact ⟨p, hp, by simp⟩
      rw [hq]
      have hqe : q.1 = p.1 := by simpa using List.find?_some hq
      have hqm := List.mem_of_find?_eq_some hq
      by_contra hne
      have hne' : q ≠ p := fun e => hne (by rw [e])
      exact hne' (List.inj_on_of_nodup_map ho.nodup hqm hp hqe)
    rw [hσ']
    simp only
    rw [this]
  · unfold cntL
    rw [List.countP_map, List.countP_map, List.countP_map, List.countP_map]
    refine List.countP_congr fun p hp => ?_
    simp only [Function.comp_apply, hev p hp]

theorem goal_v (maximize : Bool) (l : Lit) : (goal maximize l).v = l.v := by unfold goal; split <;> rfl

/-- Counting literals and counting selectors come to the same. -/
theorem optimal_of {X : NSpec} {o : OptF} {sm : List (Var × Lit)} {cnt : AuxTy → Nat} (ho : OptOK X o sm cnt) (hov : Over X.names X.cls) {τ : Asg}
    (hτ : Sats τ (X.cls ++ selClauses o.maximize sm))
    (hmax : ∀ σ, Sats σ (X.cls ++ selClauses o.maximize sm) → cntV σ (sm.map Prod.fst) ≤ cntV τ (sm.map Prod.fst)) : Optimal X.cls o τ := by
  obtain ⟨h1, h2⟩ := sats_append.1 hτ
  refine ⟨h1, fun σ hσ => ?_⟩
  obtain ⟨σ', ha, hb, hc⟩ := sel_ext ho σ
  have hs : Sats σ' (X.cls ++ selClauses o.maximize sm) := sats_append.2 ⟨(sats_congr hov fun v hv => ha v fun hm => (ho.fresh v hm).1 hv).2 hσ, sats_sel.2 hb⟩
  have := hmax σ' hs
  rw [cntV_sels hb, cntV_sels (sats_sel.1 h2), hc] at this
  have e1 := cntL_goals (maximize := o.maximize) ho.lits σ
  have e2 := cntL_goals (maximize := o.maximize) ho.lits τ
  by_cases hmx : o.maximize = true
  · rw [if_pos hmx] at e1 e2 ⊢
    omega
  · rw [if_neg hmx] at e1 e2 ⊢
    omega

section
variable {F : Type} [LinearOrder F] [Flt F] {C : MCfg F} {X : NSpec} {o : OptF} {sm : List (Var × Lit)} {cnt : AuxTy → Nat}

/-- The solver in the middle of the optimization: it has more names and the clauses `cls`; what was there before is unchanged. -/
structure Mid (C : MCfg F) (X : NSpec) (o : OptF) (m0 : Mini F) (cls : List Clause) (N : List Var) (m : Mini F) : Prop where
  holds : NHolds C { X with names := N, cls := cls } m
  more : ∃ more, N = X.names ++ more
  handles : m.y.handles = m0.y.handles
  fresh : C.incremental = true → m0.y.s.clauses.length ≤ m.y.s.clauses.length ∧ FreshFrom m0.y.s.clauses.length X.names.length m.y.s
  vars : ∀ v ∈ o.vars, v ∈ N ↔ v ∈ X.names ∨ v ∈ o.lits.map Lit.v

theorem Mid.solve {m0 m : Mini F} {cls : List Clause} {N : List Var} (hm : C.clauseMin ≠ .none) (fuel : Nat) (h : Mid C X o m0 cls N m) :
    match m.solve C fuel [] [] with
    | .panic => False
    | .diverge => True
    | .ok (m', b) => Mid C X o m0 cls N m' ∧ (b = true → m'.names = N ∧ Sats m'.asg cls) ∧ (b = false → ∀ σ, ¬ Sats σ cls) := by
  have hs := h.holds.solve hm fuel [] []
  revert hs
  match m.solve C fuel [] [] with
  | .panic => exact fun h => h
  | .diverge => exact fun _ => trivial
  | .ok (m', b) =>
    rintro ⟨h1, _, hh, hg, ht, hf⟩
    have h1 : NHolds C { X with names := N, cls := cls } m' := h1
    refine ⟨⟨h1, h.more, hh.trans h.handles, fun hi => ?_, h.vars⟩, fun e => ⟨h1.names, (ht e).2.1⟩, fun e σ hσ => hf e σ hσ (by simp)⟩
    obtain ⟨hl, hfr⟩ := h.fresh hi
    refine ⟨?_, hfr.grew hl (hg hi) fun _ h => h.elim⟩
    obtain ⟨r, e, _⟩ := hg hi
    rw [e, List.length_append]
    omega

/-- What writes during the optimization must respect: at most one literal over old variables in a clause, and result variables stay as they are. -/
theorem Mid.grow {m0 m m' : Mini F} {cls cs : List Clause} {N vs : List Var} (h : Mid C X o m0 cls N m)
    (h' : NHolds C { X with names := NSpec.learn N vs, cls := cls ++ cs } m') (hh : m'.y.handles = m.y.handles) (hg : GrewBy (StoredOf cs m'.names) m.y.s m'.y.s)
    (hc : ∀ c ∈ cs, ∀ l ∈ c, ∀ l' ∈ c, l.v ∈ X.names → l'.v ∈ X.names → l = l') (hv : ∀ v ∈ o.vars, v ∈ vs → v ∈ X.names ∨ v ∈ o.lits.map Lit.v) :
    Mid C X o m0 (cls ++ cs) (NSpec.learn N vs) m' := by
  obtain ⟨mo1, e1⟩ := learn_more N vs
  obtain ⟨mo, e⟩ := h.more
  have hN : NSpec.learn N vs = X.names ++ (mo ++ mo1) := by rw [e1, e, List.append_assoc]
  refine ⟨h', ⟨_, hN⟩, hh.trans h.handles, fun hi => ?_, fun v hvo => ?_⟩
  · obtain ⟨hl, hfr⟩ := h.fresh hi
    refine ⟨?_, hfr.grew hl hg fun d hd => ?_⟩
    · obtain ⟨r, e, _⟩ := hg
      rw [e, List.length_append]
      omega
    · rw [show m'.names = _ from h'.names] at hd
      simp only at hd
      rw [hN] at hd
      exact hd.fresh hc
  · rw [mem_learn, h.vars v hvo]
    exact ⟨fun hx => hx.elim id (hv v hvo), .inl⟩

/-- Variables that play no role outside the optimization. -/
abbrev Inner (X : NSpec) (o : OptF) (v : Var) : Prop := v ∉ X.names ∧ v ∉ o.vars

theorem OptOK.newVars (ho : OptOK X o sm cnt) : NewVars (Inner X o) cnt where
  aux k hk := by
    constructor <;> intro hm
    · have := ho.old _ (.inl hm); exact absurd (show k < cnt .cc from this) (by omega)
    · have := ho.old _ (.inr (.inl hm)); exact absurd (show k < cnt .cc from this) (by omega)
  tmp := by
    constructor <;> intro hm
    · exact (ho.old _ (.inl hm) : False)
    · exact (ho.old _ (.inr (.inl hm)) : False)

theorem OptOK.inner (ho : OptOK X o sm cnt) : ∀ s ∈ sm.map Prod.fst, Inner X o s := fun s hs => ⟨(ho.fresh s hs).1, (ho.fresh s hs).2.1⟩

theorem OptOK.selOld (ho : OptOK X o sm cnt) {s' : ER} : ∀ s ∈ sm.map Prod.fst, s'.Old s := fun s hs => by
  obtain ⟨i, rfl⟩ := ho.named s hs
  trivial

theorem OptOK.length (ho : OptOK X o sm cnt) : (sm.map Prod.fst).length < 2 ^ 30 := by
  have := ho.lits.length_eq
  have := ho.small
  simp only [List.length_map] at *
  omega

/-- Encoders go from `er` to `er'`. -/
theorem Mid.write {m0 m : Mini F} {base : List Clause} {N : List Var} {er er' : ER} (ho : OptOK X o sm cnt) (h : Mid C X o m0 (base ++ er.clauses) N m)
    (h0 : Le ⟨cnt, []⟩ er) (hle : Le er er') (hcl : Clean (Inner X o) cnt er') :
    ∃ m' N', m.write C er er' = .ok m' ∧ Mid C X o m0 (base ++ er'.clauses) N' m' ∧ ∃ more, N' = N ++ more := by
  obtain ⟨m', e, h', hh, hg⟩ := h.holds.write er er'
  obtain ⟨cs, hcs⟩ := hle.2
  have hd : er'.clauses.drop er.clauses.length = cs := by rw [← hcs, List.drop_left]
  rw [hd] at h' hg
  have hin : ∀ c ∈ cs, ∀ l ∈ c, Inner X o l.v := fun c hc => hcl.cl c (by rw [← hcs]; exact List.mem_append_right _ hc)
  have hm := h.grow h' hh hg (fun c hc l hl l' _ hx => absurd hx (hin c hc l hl).1) (fun v hv hx => by
    exfalso
    rcases List.mem_append.1 hx with hx | hx
    · unfold newAuxVars at hx
      obtain ⟨t, _, hx⟩ := List.mem_flatMap.1 hx
      obtain ⟨i, _, rfl⟩ := List.mem_map.1 hx
      have h1 := ho.old _ (.inr (.inl hv))
      have h2 := h0.1 t
      cases t with
      | tmp => exact h1
      | cnf => have h1 : er.cnt .cnf + i < cnt .cnf := h1; simp only at h2; omega
      | cc => have h1 : er.cnt .cc + i < cnt .cc := h1; simp only at h2; omega
      | pb => have h1 : er.cnt .pb + i < cnt .pb := h1; simp only at h2; omega
    · obtain ⟨c, hc, l, hl, rfl⟩ := mem_varsOf.1 hx
      exact (hin c hc l hl).2 hv)
  rw [List.append_assoc, hcs] at hm
  exact ⟨m', _, e, hm, learn_more _ _⟩

/-- A model found when the names were `N2`. -/
structure Cur (X : NSpec) (o : OptF) (sm : List (Var × Lit)) (N2 : List Var) (model : List Bool) (τ : Asg) : Prop where
  val : ∀ v ∈ N2, τ v = model.getD (N2.idxOf v) false
  has : ∀ v ∈ o.vars, v ∈ X.names ∨ v ∈ o.lits.map Lit.v → v ∈ N2
  sat : Sats τ (X.cls ++ selClauses o.maximize sm)

theorem Cur.result {m0 m : Mini F} {cls : List Clause} {N N2 more : List Var} {model : List Bool} {τ : Asg} (h : Mid C X o m0 cls N m) (hN : N = N2 ++ more)
    (hc : Cur X o sm N2 model τ) : m.resultModel C o.vars model = restrictTo (optVars C X.names o) τ := by
  unfold Mini.resultModel
  have hn : m.names = N := h.holds.names
  rw [hn, createAssignment_eq (vs := o.vars.filter (· ∈ N)) (by rw [filterMap_idx]; rfl) (fun v hv => by simpa using (List.mem_filter.1 hv).2)]
  have hf : (o.vars.filter (· ∈ N)).filter (isRelevant C) = optVars C X.names o := by
    unfold optVars
    rw [List.filter_filter]
    refine List.filter_congr fun v hv => ?_
    rw [Bool.and_comm]
    congr 1
    exact decide_eq_decide.2 (h.vars v hv)
  rw [hf]
  have hval : ∀ v ∈ optVars C X.names o, model.getD (N.idxOf v) false = τ v := by
    intro v hv
    unfold optVars at hv
    obtain ⟨hv1, hv2⟩ := List.mem_filter.1 hv
    rw [Bool.and_eq_true, decide_eq_true_eq] at hv2
    have := hc.has v hv1 hv2.1
    rw [hc.val v this, hN, List.idxOf_append_of_mem this]
  unfold restrictTo
  congr 1
  · exact List.filter_congr fun v hv => hval v hv
  · exact List.filter_congr fun v hv => by simp only; rw [hval v hv]

theorem trueOf_eq {m0 m : Mini F} {cls : List Clause} {N : List Var} (ho : OptOK X o sm cnt) (h : Mid C X o m0 cls N m) (hN : ∀ s ∈ sm.map Prod.fst, s ∈ N) :
    m.trueOf C (sm.map Prod.fst) = cntV m.asg (sm.map Prod.fst) := by
  unfold Mini.trueOf
  have hn : m.names = N := h.holds.names
  rw [hn, createAssignment_eq (vs := sm.map Prod.fst) (by
    rw [filterMap_idx]
    show List.map _ _ = _
    congr 1
    exact List.filter_eq_self.2 fun v hv => by simpa using hN v hv) hN]
  have hf : (sm.map Prod.fst).filter (isRelevant C) = sm.map Prod.fst := List.filter_eq_self.2 fun v hv => by
    obtain ⟨i, rfl⟩ := ho.named v hv
    rfl
  rw [hf]
  unfold restrictTo cntV Mini.asg
  simp only
  rw [← List.countP_eq_length_filter, hn]

/-- What `compute` gives back. -/
def OptOut (C : MCfg F) (X : NSpec) (o : OptF) (m0 m' : Mini F) (r : Option NModel) : Prop :=
  (∃ cls N, Mid C X o m0 cls N m') ∧
    match r with
    | none => ∀ σ, ¬ Sats σ X.cls
    | some M => ∃ σ, Optimal X.cls o σ ∧ M = restrictTo (optVars C X.names o) σ

/-- Nothing better than `τ`. -/
theorem Cur.out {m0 m : Mini F} {cls : List Clause} {N N2 more : List Var} {model : List Bool} {τ : Asg} (ho : OptOK X o sm cnt) (hov : Over X.names X.cls)
    (h : Mid C X o m0 cls N m) (hN : N = N2 ++ more) (hc : Cur X o sm N2 model τ)
    (hmax : ∀ σ, Sats σ (X.cls ++ selClauses o.maximize sm) → cntV σ (sm.map Prod.fst) ≤ cntV τ (sm.map Prod.fst)) :
    OptOut C X o m0 m (some (m.resultModel C o.vars model)) :=
  ⟨⟨_, _, h⟩, τ, optimal_of ho hov hc.sat hmax, hc.result h hN⟩

/-- The model just found. -/
theorem Mid.cur {m0 m : Mini F} {er : ER} {N : List Var} (h : Mid C X o m0 (X.cls ++ selClauses o.maximize sm ++ er.clauses) N m) (hn : m.names = N)
    (hs : Sats m.asg (X.cls ++ selClauses o.maximize sm ++ er.clauses)) : Cur X o sm N m.y.s.model m.asg where
  val v _ := by unfold Mini.asg; rw [hn]
  has v hv hx := (h.vars v hv).2 hx
  sat := (sats_append.1 hs).1

/-- Clauses before the encoding are only about old variables. -/
theorem OptOK.base (ho : OptOK X o sm cnt) (hov : Over X.names X.cls) {σ σ' : Asg} (ha : Agree ⟨cnt, []⟩ σ σ') (h : Sats σ (X.cls ++ selClauses o.maximize sm)) :
    Sats σ' (X.cls ++ selClauses o.maximize sm) := by
  intro c hc
  refine (ha.clause fun l hl => ?_).1 (h c hc)
  rcases List.mem_append.1 hc with hc | hc
  · exact ho.old _ (.inl (hov c hc l hl))
  · rcases varsOf_sel.1 (mem_varsOf.2 ⟨c, hc, l, hl, rfl⟩) with hx | hx
    · exact ho.selOld _ hx
    · obtain ⟨l', hl', e⟩ := List.mem_map.1 hx
      exact ho.old _ (.inr (.inr ⟨l', ho.lits.mem_iff.1 hl', e⟩))

/-- The clauses `er` allow all assignments with at least `r` selectors. -/
def Allows (X : NSpec) (o : OptF) (sm : List (Var × Lit)) (cnt : AuxTy → Nat) (r : Nat) (er : ER) : Prop :=
  ∀ σ, Sats σ (X.cls ++ selClauses o.maximize sm) → r ≤ cntV σ (sm.map Prod.fst) → ∃ σ', Agree ⟨cnt, []⟩ σ σ' ∧ Sats σ' er.clauses

theorem Allows.unsat {r : Nat} {er : ER} (ho : OptOK X o sm cnt) (hov : Over X.names X.cls) (h : Allows X o sm cnt r er)
    (hun : ∀ σ, ¬ Sats σ (X.cls ++ selClauses o.maximize sm ++ er.clauses)) {σ : Asg} (hσ : Sats σ (X.cls ++ selClauses o.maximize sm)) :
    cntV σ (sm.map Prod.fst) < r := by
  by_contra hge
  obtain ⟨σ', ha, hs⟩ := h σ hσ (by omega)
  exact hun σ' (sats_append.2 ⟨ho.base hov ha hσ, hs⟩)

theorem Allows.encodes {r r' : Nat} {s0 er : ER} (ho : OptOK X o sm cnt) (h : Allows X o sm cnt r s0) (hr : r ≤ r') (h0 : Le ⟨cnt, []⟩ s0)
    (he : ∀ σ, Sats σ s0.clauses → r' ≤ cntV σ (sm.map Prod.fst) → ∃ σ', Agree s0 σ σ' ∧ Sats σ' er.clauses) : Allows X o sm cnt r' er := by
  intro σ hσ hc
  obtain ⟨σ1, ha, hs⟩ := h σ hσ (by omega)
  rw [ha.cntV ho.selOld] at hc
  obtain ⟨σ2, ha2, hs2⟩ := he σ1 hs hc
  exact ⟨σ2, ha.trans h0 ha2, hs2⟩

theorem optLoop_ok (hm : C.clauseMin ≠ .none) (fuel : Nat) (ho : OptOK X o sm cnt) (hov : Over X.names X.cls) {m0 : Mini F} :
    ∀ (k : Nat) {data : Option IncData} {er s0 : ER} {model : List Bool} {m : Mini F} {N N2 more : List Var} {r : Nat} {τ : Asg}, 0 < k → sm.length + 1 ≤ k + r →
      Mid C X o m0 (X.cls ++ selClauses o.maximize sm ++ er.clauses) N m → (∀ s ∈ sm.map Prod.fst, s ∈ N) → Clean (Inner X o) cnt er → Le ⟨cnt, []⟩ s0 → Le ⟨cnt, []⟩ er →
      (∀ σ, Sats σ er.clauses → r ≤ cntV σ (sm.map Prod.fst)) → Allows X o sm cnt r s0 → Allows X o sm cnt r er →
      (r < sm.length → ∃ d, data = some d ∧ d.LoOK sm.length r ∧ IncOK s0 er (CLo (sm.map Prod.fst)) (TLo sm.length) r (lbClauses d) ∧ d.LitsP (Inner X o)) →
      N = N2 ++ more → Cur X o sm N2 model τ → cntV τ (sm.map Prod.fst) + 1 = r →
      match m.optLoop C fuel o (sm.map Prod.fst) k data er model with
      | .panic => False
      | .diverge => True
      | .ok (m', res) => OptOut C X o m0 m' res := by
  intro k
  induction k with
  | zero => intro _ _ _ _ _ _ _ _ _ _ h; exact absurd h (by omega)
  | succ k ih =>
    intro data er s0 model m N N2 more r τ _ hk h hN hcl hs0 her hlo hup0 hup hinc hN2 hc hr
    unfold Mini.optLoop
    have hsol := h.solve hm fuel
    revert hsol
    match m.solve C fuel [] [] with
    | .panic => exact fun h => h
    | .diverge => exact fun _ => trivial
    | .ok (m1, false) =>
      rintro ⟨h1, _, hf⟩
      exact hc.out ho hov h1 hN2 fun σ hσ => by have := hup.unsat ho hov (hf rfl) hσ; omega
    | .ok (m1, true) =>
      rintro ⟨h1, ht, _⟩
      obtain ⟨hn1, hs1⟩ := ht rfl
      have hc1 := h1.cur hn1 hs1
      have hb := trueOf_eq ho h1 hN
      have hge := hlo _ (sats_append.1 hs1).2
      have hle : cntV m1.asg (sm.map Prod.fst) ≤ sm.length := by
        have : cntV m1.asg (sm.map Prod.fst) ≤ (sm.map Prod.fst).length := List.countP_le_length
        rwa [List.length_map] at this
      simp only
      rw [hb]
      by_cases hall : cntV m1.asg (sm.map Prod.fst) = (sm.map Prod.fst).length
      · rw [if_pos hall]
        exact hc1.out (more := []) ho hov h1 (by simp) fun σ _ => by rw [hall]; exact List.countP_le_length
      · rw [if_neg hall]
        rw [List.length_map] at hall
        obtain ⟨d, rfl, hd, I, hdp⟩ := hinc (by omega)
        simp only
        have ht : TLo sm.length (cntV m1.asg (sm.map Prod.fst) + 1) r := ⟨by omega, by omega⟩
        obtain ⟨e, hd', ecl⟩ := newLower_eq (s := er) hd ht.1 ht.2
        rw [e]
        simp only
        have I' := I.step ht (fun r'' h => ⟨by have := h.1; omega, h.2⟩) (fun σ h => by have h : _ + 1 ≤ _ := h; show _ ≤ _; omega)
        have hcl' := hcl.add (lbClauses_clean ho.newVars hdp (cntV m1.asg (sm.map Prod.fst) + 1))
        obtain ⟨m2, N', ew, h2, more2, hN'⟩ := h1.write ho her (addClauses_le (lbClauses d (cntV m1.asg (sm.map Prod.fst) + 1)) er) hcl'
        rw [ew]
        simp only
        refine ih (by omega) (by omega) h2 (fun s hs => by rw [hN']; exact List.mem_append_left _ (hN s hs)) hcl' hs0 (her.trans (addClauses_le _ _)) I'.sound
          (fun σ hσ hcσ => hup0 σ hσ (by omega)) (hup0.encodes ho (by omega) hs0 fun σ hσ hcσ => ?_) (fun hlt => ⟨_, rfl, hd', ?_, hdp⟩) hN' hc1 rfl
        · obtain ⟨σ', a, b, _⟩ := I'.compl σ hσ hcσ
          exact ⟨σ', a, b⟩
        · rw [ecl]; exact I'

theorem optRest_ok (hm : C.clauseMin ≠ .none) (cc : CcCfg) (fuel : Nat) (ho : OptOK X o sm cnt) (hov : Over X.names X.cls) {m0 : Mini F} {er : ER} {m : Mini F} {N : List Var}
    (h : Mid C X o m0 (X.cls ++ selClauses o.maximize sm ++ er.clauses) N m) (hN : ∀ s ∈ sm.map Prod.fst, s ∈ N) (hcl : Clean (Inner X o) cnt er) (her : Le ⟨cnt, []⟩ er) (hw : Wf er)
    {model : List Bool} {τ : Asg} (hc : Cur X o sm N model τ) (hpos : 0 < cntV τ (sm.map Prod.fst)) (hup : Allows X o sm cnt (cntV τ (sm.map Prod.fst) + 1) er) :
    match m.optRest C cc fuel o (sm.map Prod.fst) er model (cntV τ (sm.map Prod.fst)) with
    | .panic => False
    | .diverge => True
    | .ok (m', res) => OptOut C X o m0 m' res := by
  unfold Mini.optRest encodeIncremental
  simp only
  obtain ⟨r, hr⟩ : ∃ r, r = cntV τ (sm.map Prod.fst) + 1 := ⟨_, rfl⟩
  rw [← hr] at hup ⊢
  -- the constraint
  have key : ∃ data er', ccAlk cc.alk (sm.map Prod.fst) r true er = .ok (data, er') ∧ Encodes er er' (fun σ => r ≤ cntV σ (sm.map Prod.fst)) ∧
      (r < sm.length → ∃ d, data = some d ∧ d.LoOK sm.length r ∧ IncOK er er' (CLo (sm.map Prod.fst)) (TLo sm.length) r (lbClauses d)) := by
    by_cases hlt : r < sm.length
    · obtain ⟨d, s', e, hd, I⟩ := ccAlk_inc cc.alk (vars := sm.map Prod.fst) (rhs := r) (by omega) (by simpa using hlt) ho.length hw ho.selOld (fun _ => ho.nodup)
      rw [List.length_map] at hd I
      exact ⟨_, _, e, I.encodes hw fun σ σ' ag h => by show _ ≤ _; rw [← ag.cntV ho.selOld]; exact h, fun _ => ⟨d, rfl, hd, I⟩⟩
    · obtain ⟨d, s', e, hE⟩ := ccAlk_encodes cc.alk true (vars := sm.map Prod.fst) (rhs := r) ho.length hw ho.selOld (fun _ => ho.nodup)
      exact ⟨_, _, e, hE, fun h => absurd h hlt⟩
  obtain ⟨data, er', e, hE, hI⟩ := key
  rw [e]
  simp only
  obtain ⟨hcl', hdl⟩ := ccAlk_clean ho.newVars hcl ho.inner e
  obtain ⟨m1, N', ew, h1, more, hN'⟩ := h.write ho her hE.le hcl'
  rw [ew]
  simp only
  refine optLoop_ok hm fuel ho hov ((sm.map Prod.fst).length + 1) (by omega) (by rw [List.length_map]; omega) h1 (fun s hs => by rw [hN']; exact List.mem_append_left _ (hN s hs)) hcl' her
    (her.trans hE.le) (fun σ hσ => ((hE.iff σ).1 ⟨σ, Agree.refl _ _, hσ⟩).2) hup (hup.encodes ho (Nat.le_refl _) her fun σ hσ hcσ => (hE.iff σ).2 ⟨hσ, hcσ⟩) (fun hlt => ?_) hN' hc hr.symm
  obtain ⟨d, rfl, hd, I⟩ := hI hlt
  exact ⟨d, rfl, hd, I, hdl d rfl⟩

theorem optCompute_ok (hm : C.clauseMin ≠ .none) (cc : CcCfg) (fuel : Nat) (ho : OptOK X o sm cnt) {m0 : Mini F} (h : NHolds C X m0) :
    match m0.optCompute C cc fuel o sm cnt with
    | .panic => False
    | .diverge => True
    | .ok (m', res) => OptOut C X o m0 m' res := by
  have hov := h.over
  unfold Mini.optCompute
  simp only
  obtain ⟨m1, e1, h1, hh1, g1⟩ := h.addAll (selClauses o.maximize sm)
  rw [e1]
  simp only
  -- before anything else
  have hM : Mid C X o m0 (X.cls ++ selClauses o.maximize sm ++ []) (NSpec.learn X.names (varsOf (selClauses o.maximize sm))) m1 := by
    rw [List.append_nil]
    obtain ⟨more, hmore⟩ := learn_more X.names (varsOf (selClauses o.maximize sm))
    have hfr : ∀ d, StoredOf (selClauses o.maximize sm) m1.names d → ∃ l ∈ d, 2 * X.names.length ≤ l := by
      intro d hd
      rw [show m1.names = _ from h1.names] at hd
      simp only at hd
      rw [hmore] at hd
      refine hd.fresh fun c hc l hl l' hl' hx hx' => ?_
      have hsel : ∀ p ∈ sm, p.1 ∉ X.names := fun p hp => (ho.fresh _ (List.mem_map_of_mem hp)).1
      have : ∃ p ∈ sm, ∃ a b : Lit, a.v = p.1 ∧ (c = [a, b] ∨ c = [b, a]) := by
        unfold selClauses at hc
        split at hc <;> rcases List.mem_append.1 hc with hc | hc <;> obtain ⟨p, hp, rfl⟩ := List.mem_map.1 hc
        · exact ⟨p, hp, p.1.n, p.2, rfl, .inl rfl⟩
        · exact ⟨p, hp, p.1.p, p.2.neg, rfl, .inr rfl⟩
        · exact ⟨p, hp, p.1.n, p.2.neg, rfl, .inl rfl⟩
        · exact ⟨p, hp, p.1.p, p.2, rfl, .inr rfl⟩
      obtain ⟨p, hp, a, b, ha, hcab⟩ := this
      have hb : ∀ l ∈ c, l.v ∈ X.names → l = b := by
        intro l hl hx
        have : l = a ∨ l = b := by rcases hcab with rfl | rfl <;> simp at hl <;> tauto
        rcases this with rfl | rfl
        · exact absurd hx (ha ▸ hsel p hp)
        · rfl
      rw [hb l hl hx, hb l' hl' hx']
    refine ⟨h1, ⟨more, hmore⟩, hh1, fun hi => ?_, fun v hv => ?_⟩
    · refine ⟨?_, (freshFrom_all _ _).grew (Nat.le_refl _) g1 hfr⟩
      obtain ⟨r, e, _⟩ := g1
      rw [e, List.length_append]
      omega
    · rw [mem_learn, varsOf_sel]
      have : v ∈ (sm.map Prod.snd).map Lit.v ↔ v ∈ o.lits.map Lit.v := (ho.lits.map _).mem_iff
      rw [this]
      constructor
      · rintro (hx | hx | hx)
        · exact .inl hx
        · exact absurd hv (ho.fresh v hx).2.1
        · exact .inr hx
      · rintro (hx | hx)
        · exact .inl hx
        · exact .inr (.inr hx)
  have hN : ∀ s ∈ sm.map Prod.fst, s ∈ NSpec.learn X.names (varsOf (selClauses o.maximize sm)) := fun s hs => mem_learn.2 (.inr (varsOf_sel.2 (.inl hs)))
  revert hM hN
  generalize NSpec.learn X.names (varsOf (selClauses o.maximize sm)) = N
  intro hM hN
  have hM : Mid C X o m0 (X.cls ++ selClauses o.maximize sm ++ (ER.mk cnt []).clauses) N m1 := hM
  have hle0 : Le ⟨cnt, []⟩ ⟨cnt, []⟩ := Le.refl _
  have hw0 : Wf ⟨cnt, []⟩ := fun c hc => by cases hc
  have hcl0 : Clean (Inner X o) cnt ⟨cnt, []⟩ := ⟨fun _ => Nat.le_refl _, fun c hc => by cases hc⟩
  have hall0 : ∀ r, Allows X o sm cnt r ⟨cnt, []⟩ := fun r σ _ _ => ⟨σ, Agree.refl _ _, fun c hc => by cases hc⟩
  have hsol := hM.solve hm fuel
  revert hsol
  match m1.solve C fuel [] [] with
  | .panic => exact fun h => h
  | .diverge => exact fun _ => trivial
  | .ok (m2, false) =>
    rintro ⟨h2, _, hf⟩
    refine ⟨⟨_, _, h2⟩, fun σ hσ => ?_⟩
    obtain ⟨σ', ha, hb, _⟩ := sel_ext ho σ
    refine hf rfl σ' (sats_append.2 ⟨sats_append.2 ⟨(sats_congr hov fun v hv => ha v fun hx => (ho.fresh v hx).1 hv).2 hσ, sats_sel.2 hb⟩, fun c hc => by cases hc⟩)
  | .ok (m2, true) =>
    rintro ⟨h2, ht, _⟩
    obtain ⟨hn2, hs2⟩ := ht rfl
    have hc2 := h2.cur hn2 hs2
    have hb2 := trueOf_eq ho h2 hN
    simp only
    rw [hb2]
    by_cases hz : cntV m2.asg (sm.map Prod.fst) = 0
    · rw [if_pos hz]
      obtain ⟨d, er, e, hE⟩ := ccAlk_encodes cc.alk false (vars := sm.map Prod.fst) (rhs := 1) (s := ⟨cnt, []⟩) ho.length hw0 ho.selOld (fun _ => ho.nodup)
      obtain ⟨hcl, _⟩ := ccAlk_clean ho.newVars hcl0 ho.inner e
      have ee : encodeConstraint cc 0 ⟨sm.map Prod.fst, .ge, 1⟩ ⟨cnt, []⟩ = .ok er := by
        unfold encodeConstraint
        simp only
        rw [e]; rfl
      rw [ee]
      simp only
      obtain ⟨m3, N', ew, h3, more, hN'⟩ := h2.write ho hle0 hE.le hcl
      have hNN' : ∀ s ∈ sm.map Prod.fst, s ∈ N' := fun s hs => by rw [hN']; exact List.mem_append_left _ (hN s hs)
      rw [ew]
      simp only
      have hup : Allows X o sm cnt 1 er := (hall0 1).encodes ho (Nat.le_refl _) hle0 fun σ hσ hcσ => (hE.iff σ).2 ⟨hσ, hcσ⟩
      have hsol := h3.solve hm fuel
      revert hsol
      match m3.solve C fuel [] [] with
      | .panic => exact fun h => h
      | .diverge => exact fun _ => trivial
      | .ok (m4, false) =>
        rintro ⟨h4, _, hf⟩
        exact hc2.out ho hov h4 hN' fun σ hσ => by have := hup.unsat ho hov (hf rfl) hσ; omega
      | .ok (m4, true) =>
        rintro ⟨h4, ht, _⟩
        obtain ⟨hn4, hs4⟩ := ht rfl
        have hpos : 1 ≤ cntV m4.asg (sm.map Prod.fst) := ((hE.iff _).1 ⟨_, Agree.refl _ _, (sats_append.1 hs4).2⟩).2
        simp only
        rw [trueOf_eq ho h4 hNN']
        exact optRest_ok hm cc fuel ho hov h4 hNN' hcl hE.le hE.wf (h4.cur hn4 hs4) hpos fun σ hσ hcσ => hup σ hσ (by omega)
    · rw [if_neg hz]
      by_cases hall : cntV m2.asg (sm.map Prod.fst) = (sm.map Prod.fst).length
      · rw [if_pos hall]
        exact hc2.out (more := []) ho hov h2 (by simp) fun σ _ => by rw [hall]; exact List.countP_le_length
      · rw [if_neg hall]
        exact optRest_ok hm cc fuel ho hov h2 hN hcl0 hle0 hw0 hc2 (by omega) (hall0 _)

/-- **Optimization.**  Without a result the clauses have no model; otherwise the result is the restriction of an optimal model.  An incremental solver is as before. -/
theorem optimize_ok (hm : C.clauseMin ≠ .none) (cc : CcCfg) (fuel : Nat) (ho : OptOK X o sm cnt) {m : Mini F} (h : NHolds C X m) :
    match m.optimize C cc fuel o sm cnt with
    | .panic => False
    | .diverge => True
    | .ok (m', r) => (C.incremental = true → NHolds C X.after m') ∧
      match r with
      | none => ∀ σ, ¬ Sats σ X.cls
      | some M => ∃ σ, Optimal X.cls o σ ∧ M = restrictTo (optVars C X.names o) σ := by
  unfold Mini.optimize
  by_cases hi : C.incremental = true
  · rw [if_pos hi]
    obtain ⟨m1, e1, h1, hn1, hs1, st, hst, hstc, hstn⟩ := h.save hm hi
    rw [e1]
    simp only
    have ho1 : OptOK X.after o sm cnt := ⟨ho.lits, ho.nodup, ho.named, ho.fresh, ho.old, ho.small⟩
    have hb := optCompute_ok hm cc fuel ho1 h1
    revert hb
    match m1.optCompute C cc fuel o sm cnt with
    | .panic => exact fun h => h
    | .diverge => exact fun _ => trivial
    | .ok (m2, r) =>
      rintro ⟨⟨cls, N, h2⟩, hr⟩
      simp only
      have hsep : m2.y.Separate X.count := by
        intro st' hst'
        rw [h2.handles, hst] at hst'
        cases hst'
        obtain ⟨st', hst', hnv, hsn⟩ := h2.holds.holds.snap (encS N (X.count, X.names.length, X.cls)) (List.mem_map_of_mem (List.mem_cons_self ..))
        rw [h2.handles] at hst'
        rw [show (encS N (X.count, X.names.length, X.cls)).1 = X.count from rfl, hst] at hst'
        cases hst'
        refine FreshFrom.sep ?_ hsn
        have := (h2.fresh hi).2
        rw [hs1, ← hstc] at this
        rw [hnv]
        exact this
      obtain ⟨more, hN⟩ := h2.more
      obtain ⟨m3, e3, h3⟩ := h2.holds.load hm hi hsep (r := ((X.count, X.names.length, X.cls), X.after.saved)) (by
        show NSpec.cut X.count ((X.count, X.names.length, X.cls) :: X.saved) = _
        unfold NSpec.cut
        rw [if_pos rfl]; rfl)
      rw [e3]
      refine ⟨fun _ => ?_, hr⟩
      have ht : N.take X.names.length = X.names := by rw [hN]; exact List.take_left
      simp only [NSpec.after, ht] at h3 ⊢
      exact h3
  · rw [if_neg hi]
    have hb := optCompute_ok hm cc fuel ho h
    revert hb
    match m.optCompute C cc fuel o sm cnt with
    | .panic => exact fun h => h
    | .diverge => exact fun _ => trivial
    | .ok (m2, r) => exact fun ⟨_, hr⟩ => ⟨fun h => absurd h hi, hr⟩

end

end Verif.Sat
