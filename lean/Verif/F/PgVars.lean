import Verif.F.PgSolverUp
/-
Which variables the clauses of Plaisted and Greenbaum on the solver are about: those of the formula and auxiliary variables.
-/
namespace Verif
namespace PgVars

/-- The variables of the cache are auxiliary; `P` holds for all variables of the clauses. -/
structure VS (P : Var → Prop) (s : PgS) : Prop where
  cache : ∀ f e, s.cache f = some e → ∃ t k, e.v = .aux t k
  out : ∀ c ∈ s.out, ∀ l ∈ c, P l.v

/-- `P` holds for the variables of a clause, if there is one. -/
def RP (P : Var → Prop) (r : Option Clause) : Prop := ∀ c, r = some c → ∀ l ∈ c, P l.v

variable {P : Var → Prop} {s s' : PgS}

theorem getVar_vars (hP : ∀ t k, P (.aux t k)) (h : VS P s) (f : Formula) (pol : Bool) : P (s.getVar f pol).2.1.v ∧ VS P (s.getVar f pol).2.2 := by
  unfold PgS.getVar
  have hset : ∀ e : PgEntry, (e.set pol).2.v = e.v := fun e => by unfold PgEntry.set; cases pol <;> rfl
  cases hc : s.cache f with
  | some e =>
    refine ⟨by obtain ⟨t, k, e'⟩ := h.cache f e hc; simp only [e']; exact hP t k, fun g d hd => ?_, h.out⟩
    simp only [mapPut] at hd
    split at hd
    · cases hd; rw [hset]; exact h.cache f e hc
    · exact h.cache g d hd
  | none =>
    have hn : P s.w.newCnf.1 := hP _ _
    refine ⟨hn, fun g d hd => ?_, h.out⟩
    simp only [mapPut] at hd
    split at hd
    · cases hd; rw [hset]; exact ⟨_, _, rfl⟩
    · exact h.cache g d hd

theorem add_vars (h : VS P s) {c : Clause} (hc : ∀ l ∈ c, P l.v) : VS P (s.add c) :=
  ⟨h.cache, fun d hd => by
    rcases List.mem_append.1 hd with hd | hd
    · exact h.out d hd
    · rw [List.mem_singleton.1 hd]; exact hc⟩

theorem addOp_vars (h : VS P s) {x : Option Lit} {r : Option Clause} (hx : ∀ y, x = some y → P y.v) (hr : RP P r) (e : s.addOp x r = some s') : VS P s' := by
  unfold PgS.addOp at e
  cases x with
  | none =>
    cases r with
    | none => cases e; exact h
    | some c => cases e; exact add_vars h (hr c rfl)
  | some y =>
    cases r with
    | none => cases e
    | some c =>
      cases e
      refine add_vars h fun l hl => ?_
      rcases List.mem_cons.1 hl with rfl | hl
      · exact hx _ rfl
      · exact hr c rfl l hl

/-- The claim for one formula. -/
def Call (P : Var → Prop) (f : Formula) : Prop := (∀ v, Occ v f → P v) → ∀ pol top s r s', VS P s → pgC f pol top s = some (r, s') → VS P s' ∧ RP P r

theorem pgEach_vars {pol top : Bool} {x : Option Lit} (hx : ∀ y, x = some y → P y.v) : ∀ (fs : List Formula) {s s' : PgS}, (∀ f ∈ fs, Call P f) → (∀ f ∈ fs, ∀ v, Occ v f → P v) → VS P s →
    pgEach fs pol top x s = some s' → VS P s'
  | [], _, _, _, _, h, e => by simp only [pgEach, Option.some.injEq] at e; subst e; exact h
  | f :: fs, s, s', hc, ho, h, e => by
    unfold pgEach at e
    split at e
    · cases e
    · rename_i r s1 e1
      obtain ⟨h1, r1⟩ := hc f (by simp) (ho f (by simp)) _ _ _ _ _ h e1
      split at e
      · cases e
      · rename_i s2 e2
        exact pgEach_vars hx fs (fun g hg => hc g (by simp [hg])) (fun g hg => ho g (by simp [hg])) (addOp_vars h1 hx r1 e2) e

theorem pgJoin_vars {pol : Bool} : ∀ (fs : List Formula) {s s' : PgS} {c : Clause}, (∀ f ∈ fs, Call P f) → (∀ f ∈ fs, ∀ v, Occ v f → P v) → VS P s →
    pgJoin fs pol s = some (c, s') → VS P s' ∧ ∀ l ∈ c, P l.v
  | [], _, _, _, _, _, h, e => by
    simp only [pgJoin, Option.some.injEq, Prod.mk.injEq] at e
    obtain ⟨rfl, rfl⟩ := e
    exact ⟨h, by simp⟩
  | f :: fs, s, s', c, hc, ho, h, e => by
    unfold pgJoin at e
    split at e
    · rename_i d s1 e1
      obtain ⟨h1, r1⟩ := hc f (by simp) (ho f (by simp)) _ _ _ _ _ h e1
      split at e
      · cases e
      · rename_i d' s2 e2
        obtain ⟨h2, r2⟩ := pgJoin_vars fs (fun g hg => hc g (by simp [hg])) (fun g hg => ho g (by simp [hg])) h1 e2
        simp only [Option.some.injEq, Prod.mk.injEq] at e
        obtain ⟨rfl, rfl⟩ := e
        refine ⟨h2, fun l hl => ?_⟩
        rcases List.mem_append.1 hl with hl | hl
        · exact r1 _ rfl l hl
        · exact r2 l hl
    · cases e

theorem rp_one {l : Lit} (h : P l.v) : RP P (some [l]) := fun c hc k hk => by cases hc; rw [List.mem_singleton.1 hk]; exact h

theorem pgC_vars (hP : ∀ t k, P (.aux t k)) (f : Formula) : Call P f := by
  induction f using Formula.ind with
  | tru => intro _ pol top s r s' _ e; simp [pgC] at e
  | fls => intro _ pol top s r s' _ e; simp [pgC] at e
  | cc c => intro _ pol top s r s' _ e; simp [pgC] at e
  | pbc p => intro _ pol top s r s' _ e; simp [pgC] at e
  | lit l =>
    intro ho pol top s r s' h e
    simp only [pgC, Option.some.injEq, Prod.mk.injEq] at e
    obtain ⟨rfl, rfl⟩ := e
    refine ⟨h, rp_one ?_⟩
    have : P l.v := ho _ (.lit l.pos)
    cases pol <;> exact this
  | not g ih =>
    intro ho pol top s r s' h e
    rw [pgC] at e
    exact ih (fun v hv => ho v (.not hv)) _ _ _ _ _ h e
  | nary o fs ih =>
    intro ho pol top s r s' h e
    have ho' : ∀ f ∈ fs, ∀ v, Occ v f → P v := fun f hf v hv => ho v (.nary hf hv)
    rw [pgC] at e
    split at e
    · split at e
      · split at e
        · cases e
        · rename_i s1 e1
          simp only [Option.some.injEq, Prod.mk.injEq] at e
          obtain ⟨rfl, rfl⟩ := e
          exact ⟨pgEach_vars (fun _ h => by cases h) fs ih ho' h e1, fun _ h => by cases h⟩
      · obtain ⟨hx, h1⟩ := getVar_vars hP h (.nary o fs) pol
        generalize hg : s.getVar (.nary o fs) pol = q at e hx h1
        obtain ⟨b, x, s1⟩ := q
        cases b with
        | true =>
          simp only [Option.some.injEq, Prod.mk.injEq] at e
          obtain ⟨rfl, rfl⟩ := e
          refine ⟨h1, rp_one ?_⟩
          cases pol <;> exact hx
        | false =>
          simp only at e
          split at e
          · cases e
          · rename_i s2 e2
            simp only [Option.some.injEq, Prod.mk.injEq] at e
            obtain ⟨rfl, rfl⟩ := e
            refine ⟨pgEach_vars (fun y hy => ?_) fs ih ho' h1 e2, rp_one ?_⟩
            · cases hy; cases pol <;> exact hx
            · cases pol <;> exact hx
    · split at e
      · cases e
      · rename_i c s1 e1
        simp only [Option.some.injEq, Prod.mk.injEq] at e
        obtain ⟨rfl, rfl⟩ := e
        obtain ⟨h1, h2⟩ := pgJoin_vars fs ih ho' h e1
        exact ⟨h1, fun d hd => by cases hd; exact h2⟩
  | impl a b iha ihb =>
    intro ho pol top s r s' h e
    have iha := iha fun v hv => ho v (.implL hv)
    have ihb := ihb fun v hv => ho v (.implR hv)
    rw [pgC] at e
    split at e
    · split at e
      · rename_i l s1 e1
        obtain ⟨h1, r1⟩ := iha _ _ _ _ _ h e1
        split at e
        · rename_i l2 s2 e2
          obtain ⟨h2, r2⟩ := ihb _ _ _ _ _ h1 e2
          simp only [Option.some.injEq, Prod.mk.injEq] at e
          obtain ⟨rfl, rfl⟩ := e
          refine ⟨h2, fun c hc k hk => ?_⟩
          cases hc
          rcases List.mem_append.1 hk with hk | hk
          · exact r1 _ rfl k hk
          · exact r2 _ rfl k hk
        · cases e
      · cases e
    · have key : ∀ (q : Bool × Option Lit × PgS), (∀ y, q.2.1 = some y → P y.v) → VS P q.2.2 →
          (match q with
          | (true, x, s) => x.map fun x => (some [x.neg], s)
          | (false, x, s) =>
            match pgC a true top s with
            | none => none
            | some (l, s) =>
              match pgC b false top s with
              | none => none
              | some (r, s) =>
                match s.addOp x l with
                | none => none
                | some s =>
                  match s.addOp x r with
                  | none => none
                  | some s => some (x.map fun x => [x.neg], s)) = some (r, s') → VS P s' ∧ RP P r := by
        rintro ⟨b', x, s1⟩ hx h1 e
        have hrp : ∀ {r : Option Clause}, (x.map fun x => [x.neg]) = r → RP P r := by
          rintro _ rfl c hc l hl
          cases x with
          | none => cases hc
          | some y => cases hc; rw [List.mem_singleton.1 hl]; exact hx y rfl
        cases b' with
        | true =>
          cases x with
          | none => cases e
          | some y =>
            simp only [Option.map_some, Option.some.injEq, Prod.mk.injEq] at e
            obtain ⟨rfl, rfl⟩ := e
            exact ⟨h1, hrp rfl⟩
        | false =>
          simp only at e
          split at e
          · cases e
          · rename_i l s2 e2
            obtain ⟨h2, r2⟩ := iha _ _ _ _ _ h1 e2
            split at e
            · cases e
            · rename_i l3 s3 e3
              obtain ⟨h3, r3⟩ := ihb _ _ _ _ _ h2 e3
              split at e
              · cases e
              · rename_i s4 e4
                split at e
                · cases e
                · rename_i s5 e5
                  simp only [Option.some.injEq, Prod.mk.injEq] at e
                  obtain ⟨e6, rfl⟩ := e
                  exact ⟨addOp_vars (addOp_vars h3 hx r2 e4) hx r3 e5, hrp e6⟩
      refine key _ ?_ ?_ e
      · intro y hy
        split at hy
        · cases hy
        · cases hy; exact (getVar_vars hP h _ _).1
      · split
        · exact h
        · exact (getVar_vars hP h _ _).2
  | equiv a b iha ihb =>
    intro ho pol top s r s' h e
    have iha := iha fun v hv => ho v (.equivL hv)
    have ihb := ihb fun v hv => ho v (.equivR hv)
    rw [pgC] at e
    obtain ⟨q, hq, hx, h1, e⟩ : ∃ q : Bool × Option Lit × PgS, q = (if top then (false, none, s) else
        let r := s.getVar (.equiv a b) pol
        (r.1, some r.2.1, r.2.2)) ∧ (∀ y, q.2.1 = some y → P y.v) ∧ VS P q.2.2 ∧ _ := by
      refine ⟨_, rfl, ?_, ?_, e⟩
      · intro y hy
        split at hy
        · cases hy
        · cases hy; exact (getVar_vars hP h _ _).1
      · split
        · exact h
        · exact (getVar_vars hP h _ _).2
    simp only at e
    rw [← hq] at e
    clear hq
    obtain ⟨b', x, s1⟩ := q
    cases b' with
    | true =>
      cases x with
      | none => cases e
      | some y =>
        simp only [Option.map_some, Option.some.injEq, Prod.mk.injEq] at e
        obtain ⟨rfl, rfl⟩ := e
        refine ⟨h1, rp_one ?_⟩
        cases pol <;> exact hx y rfl
    | false =>
      simp only at e
      split at e
      · rename_i lp s2 e2
        obtain ⟨h2, r2⟩ := iha _ _ _ _ _ h1 e2
        split at e
        · rename_i ln s3 e3
          obtain ⟨h3, r3⟩ := iha _ _ _ _ _ h2 e3
          split at e
          · rename_i rp s4 e4
            obtain ⟨h4, r4⟩ := ihb _ _ _ _ _ h3 e4
            split at e
            · rename_i rn s5 e5
              obtain ⟨h5, r5⟩ := ihb _ _ _ _ _ h4 e5
              have hap : ∀ {c d : Clause}, RP P (some c) → RP P (some d) → ∀ l ∈ c ++ d, P l.v := by
                intro c d hc hd l hl
                rcases List.mem_append.1 hl with hl | hl
                · exact hc _ rfl l hl
                · exact hd _ rfl l hl
              have c1 : ∀ l ∈ (if pol then ln ++ rp else lp ++ rp), P l.v := by cases pol <;> exact hap (by assumption) (by assumption)
              have c2 : ∀ l ∈ (if pol then lp ++ rn else ln ++ rn), P l.v := by cases pol <;> exact hap (by assumption) (by assumption)
              cases x with
              | none =>
                simp only [Option.some.injEq, Prod.mk.injEq] at e
                obtain ⟨rfl, rfl⟩ := e
                exact ⟨add_vars (add_vars h5 c1) c2, fun _ h => by cases h⟩
              | some y =>
                simp only [Option.some.injEq, Prod.mk.injEq] at e
                obtain ⟨rfl, rfl⟩ := e
                have hy : P (if pol then y.neg else y).v := by cases pol <;> exact hx y rfl
                refine ⟨add_vars (add_vars h5 fun l hl => ?_) fun l hl => ?_, rp_one hy⟩
                · rcases List.mem_cons.1 hl with rfl | hl
                  · exact hy
                  · exact c1 l hl
                · rcases List.mem_cons.1 hl with rfl | hl
                  · exact hy
                  · exact c2 l hl
            · cases e
          · cases e
        · cases e
      · cases e

/-- The literals of the clauses of a CNF occur in it. -/
theorem cnfClauses_vars {lits : Formula → List Lit} (one : ∀ d : Formula, ∀ l ∈ lits d, Occ l.v d) {g : Formula} {L : List Clause} (e : cnfClauses lits g = some L) :
    ∀ c ∈ L, ∀ l ∈ c, Occ l.v g := by
  unfold cnfClauses at e
  split at e
  · cases e; simp
  · cases e; intro c hc l hl; rw [List.mem_singleton.1 hc] at hl; exact one _ l hl
  · cases e; intro c hc l hl; rw [List.mem_singleton.1 hc] at hl; exact one _ l hl
  · cases e; intro c hc l hl; rw [List.mem_singleton.1 hc] at hl; exact one _ l hl
  · cases e
    intro c hc l hl
    obtain ⟨d, hd, rfl⟩ := List.mem_map.1 hc
    exact (Formula.occ_nary ..).2 ⟨d, hd, one d l hl⟩
  · cases e

/-- The clauses for a formula are about its variables and auxiliary variables. -/
theorem addCnfToSolver_vars {C : Canon} {cfg : FCfg} (hcfg : cfg.cc.Good) {c0 E w s'} (hw : WInv c0 w E) (full : Bool) {f : Formula} (hp : PTop cfg w.cnt f)
    {cache : Formula → Option PgEntry} (hca : ∀ g e, cache g = some e → ∃ t k, e.v = .aux t k) (e : addCnfToSolver C cfg full f ⟨cache, w, []⟩ = some s') :
    (∀ g e, s'.cache g = some e → ∃ t k, e.v = .aux t k) ∧ ∀ c ∈ s'.out, ∀ l ∈ c, Occ l.v f ∨ ∃ t k, l.v = .aux t k := by
  have hwork : ∃ g w1, (if (!full || (f.containsPbc false fun _ => none).1 == some true) = true then nnf C cfg f w else some (f, w)) = some (g, w1) ∧
      ∀ v, Occ v g → Occ v f ∨ ∃ t k, v = .aux t k := by
    by_cases hb : (!full || (f.containsPbc false fun _ => none).1 == some true) = true
    · rw [if_pos hb]
      obtain ⟨n, w1, E1, e1, h1, x1, k1⟩ := nnf_ok (C := C) hcfg hw hp
      exact ⟨n, w1, e1, k1.aux⟩
    · rw [if_neg hb]
      exact ⟨f, w, rfl, fun _ h => .inl h⟩
  obtain ⟨g, w1, e1, hv⟩ := hwork
  have h0 : VS (fun v => Occ v f ∨ ∃ t k, v = .aux t k) ⟨cache, w1, []⟩ := ⟨hca, fun _ h => (by cases h)⟩
  unfold addCnfToSolver at e
  simp only [e1] at e
  split at e
  · cases eL : cnfClauses (fun c => fnLits.val c) g with
    | none => rw [eL] at e; cases e
    | some L =>
      rw [eL] at e
      cases e
      refine ⟨hca, fun c hc l hl => ?_⟩
      exact hv _ (cnfClauses_vars (fun d l hl => PgUp.OccL.var (((lits_val d).1 l).1 hl)) eL c (by simpa using hc) l hl)
  · have hcall := pgC_vars (P := fun v => Occ v f ∨ ∃ t k, v = .aux t k) (fun t k => .inr ⟨t, k, rfl⟩) g hv
    split at e
    · cases e
    · rename_i s1 e2
      cases e
      have h1 := (hcall _ _ _ _ _ h0 e2).1
      exact ⟨h1.cache, h1.out⟩
    · rename_i c s1 e2
      cases e
      obtain ⟨h1, r1⟩ := hcall _ _ _ _ _ h0 e2
      have h2 := add_vars h1 (r1 c rfl)
      exact ⟨h2.cache, h2.out⟩

end PgVars
end Verif
