import Verif.Sat.MiniBackbone
import Verif.Sat.Optimize
/-
What the solver records for proofs: the clauses as they were added, and lines whose numbers are not 0.
-/
namespace Verif.Sat
open St

/-- Lines of a proof: the numbers after the first are literals. -/
def Lines (p : List (List Int)) : Prop := ∀ c ∈ p, ∀ x ∈ c.tail, x ≠ 0

theorem Lines.append {p q : List (List Int)} (hp : Lines p) (hq : Lines q) : Lines (p ++ q) := fun c hc =>
  (List.mem_append.1 hc).elim (hp c) (hq c)

theorem pgLit_ne (l : Nat) : pgLit l ≠ 0 := by
  unfold pgLit
  split <;> omega

theorem Lines.lits (k : Int) (d : List Nat) : Lines [k :: d.map pgLit] := by
  intro c hc x hx
  rw [List.mem_singleton.1 hc] at hx
  obtain ⟨l, _, rfl⟩ := List.mem_map.1 hx
  exact pgLit_ne l

theorem Lines.zero : Lines [[0]] := by
  intro c hc x hx
  rw [List.mem_singleton.1 hc] at hx
  cases hx

/-- No clause was recorded, and the proof was continued. -/
structure Lg {F : Type} (s s' : St F) : Prop where
  orig : s'.pgOrig = s.pgOrig
  proof : ∃ p, s'.pgProof = s.pgProof ++ p ∧ Lines p

namespace Lg
variable {F : Type} {s s' s'' : St F}

theorem same (h1 : s'.pgOrig = s.pgOrig) (h2 : s'.pgProof = s.pgProof) : Lg s s' := ⟨h1, [], by rw [h2, List.append_nil], fun _ h => by cases h⟩

theorem refl (s : St F) : Lg s s := same rfl rfl

theorem trans (h : Lg s s') (h' : Lg s' s'') : Lg s s'' := by
  obtain ⟨p, e, hp⟩ := h.proof
  obtain ⟨q, e', hq⟩ := h'.proof
  exact ⟨h'.orig.trans h.orig, p ++ q, by rw [e', e, List.append_assoc], hp.append hq⟩

/-- Other changes before and after. -/
theorem of (h : Lg s s') {t t' : St F} (h1 : t.pgOrig = s.pgOrig) (h2 : t.pgProof = s.pgProof) (h3 : t'.pgOrig = s'.pgOrig) (h4 : t'.pgProof = s'.pgProof) : Lg t t' :=
  (same h1.symm h2.symm).trans (h.trans (same h3 h4))

theorem pre {t : St F} (h : Lg t s') (h1 : t.pgOrig = s.pgOrig) (h2 : t.pgProof = s.pgProof) : Lg s s' := (same h1 h2).trans h

end Lg

section
variable {F : Type} [LinearOrder F] [Flt F] {C : Cfg F}

theorem insertVarOrder_lg {v : Nat} {s s' : St F} (h : insertVarOrder v s = some s') : Lg s s' := by
  unfold insertVarOrder at h
  split at h
  · obtain ⟨_, _, rfl⟩ := Option.map_eq_some_iff.1 h
    exact .same rfl rfl
  · cases h; exact .refl _

theorem newVar_lg {sign dvar : Bool} {s s' : St F} (h : newVar sign dvar s = some s') : Lg s s' := by
  unfold newVar at h
  exact (insertVarOrder_lg h).of rfl rfl rfl rfl

theorem prop_lg {s : St F} {x : St F × Option Nat} (h : prop s = some x) : Lg s x.1 := by
  unfold prop at h
  split at h
  · cases h
  · cases h; exact .same rfl rfl

theorem install_lg {d : List Nat} {lrn : Bool} {s s' : St F} (h : install d lrn s = some s') : Lg s s' := by
  unfold install at h
  split at h
  · cases h
  · cases h; exact .same rfl rfl

theorem cancelPop_lg {n : Nat} : ∀ {s s' : St F}, cancelPop n s = some s' → Lg s s' := by
  induction n with
  | zero => intro s s' h; cases h; exact .refl _
  | succ n ih =>
    intro s s' h
    unfold cancelPop at h
    split at h
    · cases h
    · split at h
      · cases h
      · rename_i s1 h1
        exact ((insertVarOrder_lg h1).trans (ih h)).pre rfl rfl

theorem cancelUntil_lg {L : Nat} {s s' : St F} (h : cancelUntil L s = some s') : Lg s s' := by
  unfold cancelUntil at h
  split at h
  · obtain ⟨s1, h1, rfl⟩ := Option.map_eq_some_iff.1 h
    exact (cancelPop_lg h1).of rfl rfl rfl rfl
  · cases h; exact .refl _

theorem bumpVar_lg {v : Nat} {s s' : St F} (h : bumpVar v s = some s') : Lg s s' := by
  unfold bumpVar at h
  simp only at h
  have key : ∀ t : St F, (if t.heap.inHeap v = true then (t.heap.decrease t.act v).map fun h => { t with heap := h } else some t) = some s' → t.pgOrig = s.pgOrig → t.pgProof = s.pgProof → Lg s s' := by
    intro t h h1 h2
    split at h
    · obtain ⟨_, _, rfl⟩ := Option.map_eq_some_iff.1 h
      exact .same h1 h2
    · cases h; exact .same h1 h2
  split at h
  · exact key _ h rfl rfl
  · exact key _ h rfl rfl

theorem bumpClause_lg {id : Nat} {s : St F} : Lg s (bumpClause C id s) := by
  unfold bumpClause
  simp only
  split
  · split <;> exact .same rfl rfl
  · exact .refl _

theorem decay_lg {s : St F} : Lg s (decay C s) := by
  unfold decay
  simp only
  split <;> exact .same rfl rfl

theorem anaLits_lg {ls : List Nat} : ∀ {s : St F} {n : Nat} {out : List Nat} {x : St F × Nat × List Nat}, anaLits ls s n out = some x → Lg s x.1 := by
  induction ls with
  | nil => intro s n out x h; cases h; exact .refl _
  | cons l ls ih =>
    intro s n out x h
    unfold anaLits at h
    split at h
    · split at h
      · cases h
      · rename_i s1 h1
        simp only at h
        split at h
        · exact (bumpVar_lg h1).trans ((ih h).of rfl rfl rfl rfl)
        · exact (bumpVar_lg h1).trans ((ih h).of rfl rfl rfl rfl)
    · exact ih h

theorem anaLoop_lg {t : List Nat} : ∀ {s : St F} {n : Nat} {out : List Nat} {x : Nat × St F × List Nat}, anaLoop C t s n out = some x → Lg s x.2.1 := by
  induction t with
  | nil => intro s n out x h; cases h
  | cons l t ih =>
    intro s n out x h
    unfold anaLoop at h
    split at h
    · simp only at h
      split at h
      · cases h; exact .same rfl rfl
      · split at h
        · cases h
        · split at h
          · cases h
          · rename_i h1
            exact ((bumpClause_lg.trans (anaLits_lg h1)).trans (ih h)).pre rfl rfl
    · exact ih h

theorem simplifyClause_lg {p : Nat} {out : List Nat} {s : St F} {x : St F × List Nat} (h : simplifyClause C p out s = some x) : Lg s x.1 := by
  unfold simplifyClause at h
  split at h
  · cases h
  · cases h; exact .same rfl rfl

theorem analyze_lg {id : Nat} {s : St F} {x : St F × List Nat} (h : analyze C id s = some x) : Lg s x.1 := by
  unfold analyze at h
  split at h
  · cases h
  · rename_i h1
    split at h
    · cases h
    · rename_i h2
      exact (bumpClause_lg.trans (anaLits_lg h1)).trans ((anaLoop_lg h2).trans (simplifyClause_lg h))

theorem analyzeFinal_lg {p : Nat} {s : St F} : Lg s (analyzeFinal p s) := by
  unfold analyzeFinal
  split <;> exact .same rfl rfl

theorem pickHeap_lg {fuel : Nat} : ∀ {s : St F} {x : St F × Option Nat}, pickHeap fuel s = some x → Lg s x.1 := by
  induction fuel with
  | zero => intro s x h; cases h
  | succ n ih =>
    intro s x h
    unfold pickHeap at h
    split at h
    · cases h; exact .refl _
    · split at h
      · cases h
      · simp only at h
        split at h
        · cases h; exact .same rfl rfl
        · exact (ih h).of rfl rfl rfl rfl

theorem pickBranch_lg {s : St F} {x : St F × Option Nat} (h : pickBranch s = some x) : Lg s x.1 := by
  unfold pickBranch at h
  simp only at h
  split at h
  · cases h; exact .same rfl rfl
  · split at h
    · cases h
    · rename_i h1
      cases h
      exact (pickHeap_lg h1).of rfl rfl rfl rfl
    · rename_i h1
      cases h
      exact (pickHeap_lg h1).of rfl rfl rfl rfl

theorem detach_lg {lrn : Bool} {id : Nat} {s s' : St F} (h : detach lrn id s = some s') : Lg s s' := by
  unfold detach at h
  split at h
  · cases h; exact .same rfl rfl
  · cases h

theorem removeClause_lg {lrn : Bool} {id : Nat} {s s' : St F} (h : removeClause C lrn id s = some s') : Lg s s' := by
  unfold removeClause at h
  simp only at h
  have key : ∀ t : St F, (detach lrn id (if locked t id = true then { t with reason := upd t.reason (vr ((t.data id).headD 0)) none } else t)) = some s' → Lg s t → Lg s s' := by
    intro t h ht
    split at h
    · exact ht.trans ((detach_lg h).of rfl rfl rfl rfl)
    · exact ht.trans (detach_lg h)
  by_cases hp : C.proofGen = true
  · rw [if_pos hp] at h
    exact key _ h ⟨rfl, _, rfl, Lines.lits _ _⟩
  · rw [if_neg hp] at h
    exact key _ h (.refl _)

theorem remSatLoop_lg {lrn : Bool} {ids : List Nat} : ∀ {s : St F} {x : St F × List Nat}, remSatLoop C lrn ids s = some x → Lg s x.1 := by
  induction ids with
  | nil => intro s x h; cases h; exact .refl _
  | cons id ids ih =>
    intro s x h
    unfold remSatLoop at h
    split at h
    · split at h
      · cases h
      · rename_i h1
        exact (removeClause_lg h1).trans (ih h)
    · simp only at h
      obtain ⟨y, h1, rfl⟩ := Option.map_eq_some_iff.1 h
      exact (ih h1).of rfl rfl rfl rfl

theorem remSat_lg {s s' : St F} (h : remSat C s = some s') : Lg s s' := by
  unfold remSat at h
  split at h
  · cases h
  · rename_i h1
    simp only at h
    split at h
    · obtain ⟨y, h2, rfl⟩ := Option.map_eq_some_iff.1 h
      exact (remSatLoop_lg h1).trans ((remSatLoop_lg h2).of rfl rfl rfl rfl)
    · cases h; exact (remSatLoop_lg h1).of rfl rfl rfl rfl

theorem simplifyDb_lg {s : St F} {x : St F × Bool} (h : simplifyDb C s = some x) : Lg s x.1 := by
  unfold simplifyDb at h
  split at h
  · cases h; exact .refl _
  · split at h
    · cases h
    · rename_i h1
      split at h
      · cases h
      · cases h; exact (remSat_lg h1).of rfl rfl rfl rfl

theorem simplify_lg {s : St F} {x : St F × Bool} (h : simplify C s = some x) : Lg s x.1 := by
  unfold simplify at h
  split at h
  · cases h; exact .refl _
  · split at h
    · cases h
    · rename_i h1
      cases h; exact (prop_lg h1).of rfl rfl rfl rfl
    · rename_i h1
      exact (prop_lg h1).trans (simplifyDb_lg h)

theorem reduceLoop_lg {half : Nat} {extra : F} {ids : List Nat} : ∀ {i : Nat} {s : St F} {x : St F × List Nat}, reduceLoop C half extra ids i s = some x → Lg s x.1 := by
  induction ids with
  | nil => intro i s x h; cases h; exact .refl _
  | cons id ids ih =>
    intro i s x h
    unfold reduceLoop at h
    split at h
    · split at h
      · cases h
      · rename_i h1
        exact (removeClause_lg h1).trans (ih h)
    · obtain ⟨y, h1, rfl⟩ := Option.map_eq_some_iff.1 h
      have := ih h1
      exact this

theorem reduceDb_lg {s s' : St F} (h : reduceDb C s = some s') : Lg s s' := by
  unfold reduceDb at h
  split at h
  · simp only at h
    split at h
    · cases h
    · split at h
      · obtain ⟨y, h1, rfl⟩ := Option.map_eq_some_iff.1 h
        exact (reduceLoop_lg h1).of rfl rfl rfl rfl
      · cases h
  · cases h

theorem record_lg {cl : List Nat} {s s' : St F} (h : record C cl s = some s') : Lg s s' := by
  unfold record at h
  split at h
  · cases h
  · cases h; exact decay_lg.pre rfl rfl
  · split at h
    · cases h
    · rename_i h1
      cases h
      exact (install_lg h1).trans (decay_lg.pre rfl rfl)

theorem learn_lg {id : Nat} {s s' : St F} (h : learn C id s = some s') : Lg s s' := by
  unfold learn at h
  split at h
  · cases h
  · rename_i h1
    split at h
    · cases h
    · rename_i s1 cl _ s2 h2
      refine (analyze_lg h1).trans ((cancelUntil_lg h2).trans (Lg.trans (s' := { s2 with pgProof := if C.proofGen then s2.pgProof ++ [1 :: cl.map pgLit] else s2.pgProof }) ?_ ((record_lg h).of rfl rfl rfl rfl)))
      by_cases hp : C.proofGen = true
      · simp only [hp, if_true]
        exact ⟨rfl, _, rfl, Lines.lits _ _⟩
      · simp only [hp]
        exact .refl _

theorem assumeLoop_lg {n : Nat} : ∀ {s : St F}, match assumeLoop n s with | .next _ s' => Lg s s' | .fail _ s' => Lg s s' | .done s' => Lg s s' := by
  induction n with
  | zero => intro s; exact .refl _
  | succ n ih =>
    intro s
    unfold assumeLoop
    simp only
    split
    · rename_i heq
      have := ih (s := { s with lim := s.trail.length :: s.lim })
      split at heq
      · rw [heq] at this; exact this.of rfl rfl rfl rfl
      · cases heq
      · injection heq with _ e; rw [← e]; exact .refl _
    · rename_i heq
      have := ih (s := { s with lim := s.trail.length :: s.lim })
      split at heq
      · rw [heq] at this; exact this.of rfl rfl rfl rfl
      · injection heq with _ e; rw [← e]; exact .refl _
      · cases heq
    · rename_i heq
      have := ih (s := { s with lim := s.trail.length :: s.lim })
      split at heq
      · rw [heq] at this; exact this.of rfl rfl rfl rfl
      · cases heq
      · cases heq

/-- The state after an iteration. -/
def St.Step.Lg (s : St F) : St.Step F → Prop
  | .again s' => Sat.Lg s s'
  | .answer s' _ => Sat.Lg s s'
  | .panic => True

theorem branch_lg {s : St F} : St.Step.Lg s (branch s) := by
  unfold branch
  have h := assumeLoop_lg (n := s.assumptions.length - s.lim.length) (s := s)
  revert h
  generalize assumeLoop (s.assumptions.length - s.lim.length) s = r
  intro h
  match r, h with
  | .fail p s1, h => exact Lg.trans h analyzeFinal_lg
  | .next l s1, h => exact Lg.trans h (.same rfl rfl)
  | .done s1, h =>
    simp only
    split
    · trivial
    · rename_i h1; exact Lg.trans h (pickBranch_lg h1)
    · rename_i h1; exact Lg.trans h ((pickBranch_lg h1).of rfl rfl rfl rfl)

theorem St.Step.Lg.trans {s s' : St F} {r : St.Step F} (h : Sat.Lg s s') (h' : St.Step.Lg s' r) : St.Step.Lg s r := by
  match r, h' with
  | .again _, h' => exact Sat.Lg.trans h h'
  | .answer _ _, h' => exact Sat.Lg.trans h h'
  | .panic, _ => trivial

theorem noConflict_lg {cnt : Bool} {s : St F} : St.Step.Lg s (noConflict C cnt s) := by
  unfold noConflict
  split
  · split
    · trivial
    · rename_i h1; exact cancelUntil_lg h1
  · split
    · exact branch_lg
    · split
      · trivial
      · rename_i h1
        show Lg _ _
        split at h1
        · exact simplify_lg h1
        · cases h1
      · rename_i s1 h1
        have h2 : Lg s s1 := by
          split at h1
          · exact simplify_lg h1
          · cases h1; exact .refl _
        split
        · split
          · trivial
          · rename_i h3
            exact St.Step.Lg.trans (h2.trans (reduceDb_lg h3)) branch_lg
        · exact St.Step.Lg.trans h2 branch_lg

theorem searchLoop_lg {fuel : Nat} : ∀ {n : Nat} {s : St F} {x : St F × Option Bool}, searchLoop C fuel n s = .ok x → Lg s x.1 := by
  induction fuel with
  | zero => intro n s x h; cases h
  | succ fuel ih =>
    intro n s x h
    unfold searchLoop at h
    split at h
    · cases h
    · rename_i h1
      split at h
      · cases h; exact prop_lg h1
      · split at h
        · cases h
        · rename_i h2
          exact (prop_lg h1).trans ((learn_lg h2).trans (ih h))
    · rename_i s1 h1
      have h2 := noConflict_lg (C := C) (cnt := n == 0) (s := s1)
      split at h
      · cases h
      · rename_i heq; rw [heq] at h2; cases h; exact (prop_lg h1).trans h2
      · rename_i heq; rw [heq] at h2; exact (prop_lg h1).trans (Lg.trans h2 (ih h))

theorem search_lg {fuel n : Nat} {s : St F} {x : St F × Option Bool} (h : search C fuel n s = .ok x) : Lg s x.1 := by
  unfold search at h
  split at h
  · cases h; exact .refl _
  · exact (searchLoop_lg h).of rfl rfl rfl rfl

theorem restartLoop_lg {fuel0 fuel : Nat} : ∀ {k : Nat} {s : St F} {x : St F × Bool}, restartLoop C fuel0 fuel k s = .ok x → Lg s x.1 := by
  induction fuel with
  | zero => intro k s x h; cases h
  | succ fuel ih =>
    intro k s x h
    unfold restartLoop at h
    split at h
    · cases h
    · split at h
      · cases h
      · cases h
      · rename_i h1; cases h; exact search_lg h1
      · rename_i h1; exact (search_lg h1).trans (ih h)

theorem solve_lg {fuel : Nat} {s : St F} {x : St F × Bool} (h : solve C fuel s = .ok x) : Lg s x.1 := by
  unfold solve at h
  simp only at h
  split at h
  · cases h; exact .same rfl rfl
  · split at h
    · cases h
    · cases h
    · rename_i s1 b h1
      split at h
      · cases h
      · rename_i h2
        cases h
        refine ((restartLoop_lg h1).trans (Lg.trans ?_ (cancelUntil_lg h2))).pre rfl rfl
        by_cases hp : (C.proofGen && s1.assumptions.isEmpty && !b) = true
        · simp only [hp, if_true]
          exact ⟨rfl, _, rfl, Lines.zero⟩
        · simp only [hp]
          exact .same rfl rfl

theorem solveWith_lg {fuel : Nat} {as : List Nat} {s : St F} {x : St F × Bool} (h : solveWith C fuel as s = .ok x) : Lg s x.1 := by
  unfold solveWith at h
  split at h
  · rename_i h1; cases h; exact (solve_lg h1).of rfl rfl rfl rfl
  · cases h
  · cases h

theorem solveSel_lg {fuel : Nat} {sel as : List Nat} {s : St F} {x : St F × Bool} (h : Sess.solveSel C fuel sel as s = .ok x) : Lg s x.1 := by
  unfold Sess.solveSel at h
  split at h
  · rename_i h1; cases h; exact (solveWith_lg h1).of rfl rfl rfl rfl
  · cases h
  · cases h

theorem addRest_lg {qs : List Nat} {s : St F} {x : St F × Bool} (h : addRest C qs s = some x) : Lg s x.1 := by
  unfold addRest at h
  split at h
  · cases h
    by_cases hp : C.proofGen = true
    · simp only [hp, if_true]; exact ⟨rfl, _, rfl, Lines.zero⟩
    · simp only [hp]; exact .same rfl rfl
  · split at h
    · cases h
    · rename_i s1 confl h1
      cases h
      refine ((prop_lg h1).trans ?_).pre rfl rfl
      by_cases hp : (confl.isSome && C.proofGen) = true
      · simp only [hp, if_true]; exact ⟨rfl, _, rfl, Lines.zero⟩
      · simp only [hp]; exact .same rfl rfl
  · split at h
    · cases h
    · rename_i h1; cases h; exact (install_lg h1).of rfl rfl rfl rfl

theorem addClause_lg (hp : C.proofGen = true) {ps : List Nat} {s : St F} {x : St F × Bool} (h : addClause C ps s = some x) :
    x.1.pgOrig = s.pgOrig ++ [ps.map pgLit] ∧ ∃ p, x.1.pgProof = s.pgProof ++ p ∧ Lines p := by
  have key : Lg { s with pgOrig := s.pgOrig ++ [ps.map pgLit] } x.1 := by
    unfold addClause at h
    simp only [hp, if_true, Bool.true_and] at h
    split at h
    · cases h; exact .refl _
    · split at h
      · cases h; exact .refl _
      · rename_i qs _
        split at h
        · have h2 := addRest_lg h
          refine Lg.trans ?_ h2
          refine ⟨rfl, [1 :: qs.map pgLit, -1 :: (isort ps).map pgLit], rfl, ?_⟩
          exact (Lines.lits 1 qs).append (Lines.lits (-1) (isort ps))
        · exact addRest_lg h
  exact ⟨key.orig, key.proof⟩

theorem backLoop_lg {n : Nat} : ∀ {v : Nat} {s s' : St F}, backLoop n v s = some s' → Lg s s' := by
  induction n with
  | zero => intro v s s' h; cases h; exact .refl _
  | succ n ih =>
    intro v s s' h
    unfold backLoop at h
    split at h
    · cases h
    · rename_i h1
      exact ((insertVarOrder_lg h1).trans (ih h)).pre rfl rfl

theorem heapCut_lg {v n : Nat} : ∀ {s s' : St F}, heapCut v n s = some s' → Lg s s' := by
  induction n with
  | zero => intro s s' h; cases h; exact .refl _
  | succ n ih =>
    intro s s' h
    unfold heapCut at h
    split at h
    · cases h
    · exact (ih h).of rfl rfl rfl rfl

theorem detachAll_lg {lrn : Bool} {ids : List Nat} : ∀ {s s' : St F}, detachAll lrn ids s = some s' → Lg s s' := by
  induction ids with
  | nil => intro s s' h; cases h; exact .refl _
  | cons id ids ih =>
    intro s s' h
    unfold detachAll at h
    split at h
    · cases h
    · rename_i h1
      exact (detach_lg h1).trans (ih h)

theorem reUnit_lg {ls : List Nat} : ∀ {s s' : St F}, reUnit ls s = some s' → Lg s s' := by
  induction ls with
  | nil => intro s s' h; cases h; exact .refl _
  | cons l ls ih =>
    intro s s' h
    unfold reUnit at h
    split at h
    · split at h
      · cases h
      · rename_i h1
        exact ((prop_lg h1).trans ((ih h).pre rfl rfl)).pre rfl rfl
    · cases h; exact .refl _

/-- What is recorded after loading. -/
theorem load_lg (hp : C.proofGen = true) {st : Saved} {s s' : St F} (h : load C st s = some s') :
    s'.pgOrig = s.pgOrig.take st.orig ∧ ∃ p, s'.pgProof = (s.pgProof ++ p).take st.proof ∧ Lines p := by
  unfold load at h
  split at h
  · split at h
    · cases h
    · rename_i h1
      simp only at h
      split at h
      · cases h
      · rename_i h2
        split at h
        · cases h
        · rename_i h3
          split at h
          · cases h
          · rename_i h4
            obtain ⟨t, h5, rfl⟩ := Option.map_eq_some_iff.1 h
            simp only [hp, if_true]
            have := (backLoop_lg h1).trans (((heapCut_lg h2).trans (((detachAll_lg h3).trans
              (((detachAll_lg h4).trans ((reUnit_lg h5).pre rfl rfl)).pre rfl rfl)).pre rfl rfl)).pre rfl rfl)
            obtain ⟨p, e, hl⟩ := this.proof
            exact ⟨by rw [this.orig], p, by rw [e], hl⟩
  · cases h

end
end Verif.Sat
