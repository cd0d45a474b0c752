import Verif.Sat.Log
/-
Which variables have level 0 though they are not assigned: none, unless a state is loaded (`complete_backtrack` keeps `level`).
-/
namespace Verif.Sat
open St

/-- Where the literals above level 0 begin. -/
def Core.bot (s : Core) : Nat := s.lim.getLastD s.trail.length

/-- What is looked at here. -/
def Core.zt (s : Core) : (Nat → Option Nat) × (Nat → Option Bool) × List Nat × List Nat := (s.level, s.asg, s.trail, s.lim)

/-- A variable of level 0 is assigned. -/
structure ZInv (s : Core) : Prop where
  zero : ∀ v, s.level v = some 0 → s.asg v ≠ none
  above : ∀ x ∈ s.trail.take (s.trail.length - s.bot), s.level (vr x) ≠ some 0
  bot : s.bot ≤ s.trail.length
  lims : ∀ n ∈ s.lim, s.bot ≤ n

theorem ZInv.of_zt {s s' : Core} (h : ZInv s) (e : s'.zt = s.zt) : ZInv s' := by
  unfold Core.zt at e
  simp only [Prod.mk.injEq] at e
  obtain ⟨e1, e2, e3, e4⟩ := e
  have hb : s'.bot = s.bot := by unfold Core.bot; rw [e3, e4]
  exact ⟨fun v => by rw [e1, e2]; exact h.zero v, by rw [e3, hb, e1]; exact h.above, by rw [hb, e3]; exact h.bot, by rw [hb, e4]; exact h.lims⟩

theorem ZInv.enqueue {s : Core} (h : ZInv s) (l : Nat) (r : Option Nat) : ZInv (s.enqueue l r) := by
  have hz : ∀ v, upd s.level (vr l) (some s.lim.length) v = some 0 → upd s.asg (vr l) (some (!sgn l)) v ≠ none := by
    intro v hv
    unfold upd at hv ⊢
    split
    · exact fun h => by cases h
    · next hne => rw [if_neg hne] at hv; exact h.zero v hv
  cases hl : s.lim with
  | nil =>
    have hb : (s.enqueue l r).bot = (s.enqueue l r).trail.length := by unfold Core.bot Core.enqueue; simp [hl]
    refine ⟨hz, ?_, Nat.le_of_eq hb, ?_⟩
    · rw [hb, Nat.sub_self]; intro x hx; cases hx
    · intro n hn
      have : (s.enqueue l r).lim = [] := hl
      rw [this] at hn; cases hn
  | cons a t =>
    have hb : (s.enqueue l r).bot = s.bot := by unfold Core.bot Core.enqueue; simp only [hl]; simp [List.getLastD]
    have hbt := h.bot
    refine ⟨hz, ?_, ?_, by rw [hb]; exact h.lims⟩
    · rw [hb]
      show ∀ x ∈ (l :: s.trail).take (s.trail.length + 1 - s.bot), upd s.level (vr l) (some s.lim.length) (vr x) ≠ some 0
      rw [show s.trail.length + 1 - s.bot = (s.trail.length - s.bot) + 1 by omega, List.take_succ_cons]
      intro x hx
      unfold upd
      split
      · rw [hl]; simp
      · next hne =>
        rcases List.mem_cons.1 hx with rfl | hx
        · exact absurd rfl hne
        · exact h.above x hx
    · rw [hb]
      show s.bot ≤ s.trail.length + 1
      omega

/-- A new decision level. -/
theorem ZInv.push {s : Core} (h : ZInv s) : ZInv { s with lim := s.trail.length :: s.lim } := by
  have hb : ({ s with lim := s.trail.length :: s.lim } : Core).bot = s.bot := by
    unfold Core.bot
    cases hl : s.lim with
    | nil => rfl
    | cons a t => simp
  refine ⟨h.zero, by rw [hb]; exact h.above, by rw [hb]; exact h.bot, ?_⟩
  rw [hb]
  intro n hn
  rcases List.mem_cons.1 hn with rfl | hn
  · exact h.bot
  · exact h.lims n hn

/-- No variable gets level 0 without being assigned. -/
def Zg {F : Type} (s s' : St F) : Prop := ZInv s.toCore → ZInv s'.toCore

namespace Zg
variable {F : Type} {s s' s'' : St F}

theorem same (e : s'.zt = s.zt) : Zg s s' := fun h => h.of_zt e

theorem refl (s : St F) : Zg s s := id

theorem trans (h : Zg s s') (h' : Zg s' s'') : Zg s s'' := h' ∘ h

theorem of (h : Zg s s') {t t' : St F} (h1 : t.zt = s.zt) (h2 : t'.zt = s'.zt) : Zg t t' := (same h1.symm).trans (h.trans (same h2))

theorem pre {t : St F} (h : Zg t s') (h1 : t.zt = s.zt) : Zg s s' := (same h1).trans h

end Zg

theorem visit_zg {p j id b c0 c1 : Nat} {r : List Nat} {s : Core} (h : ZInv s) :
    match Core.visit p j id b c0 c1 r s with | .next _ s' => ZInv s' | .confl _ s' => ZInv s' := by
  generalize e : Core.visit p j id b c0 c1 r s = x
  unfold Core.visit at e
  simp only at e
  split at e
  · rw [← e]; exact h.of_zt rfl
  · split at e
    · rw [← e]; exact h.of_zt rfl
    · split at e
      · rw [← e]; exact h.of_zt rfl
      · rw [← e]; exact ZInv.enqueue (s := { s with data := upd s.data id (c0 :: c1 :: r), watches := upd s.watches p ((s.watches p).set j (id, c0)) }) (h.of_zt rfl) _ _

theorem scan_zg {p fuel : Nat} : ∀ {j : Nat} {s : Core} {x : Core × Option Nat}, Core.scan p fuel j s = some x → ZInv s → ZInv x.1 := by
  induction fuel with
  | zero => intro j s x h; cases h
  | succ fuel ih =>
    intro j s x h hz
    unfold Core.scan at h
    split at h
    · cases h; exact hz
    · split at h
      · exact ih h hz
      · split at h
        · rename_i id b _ _ _ c0 c1 r _
          split at h
          · rename_i heq
            refine ih h ?_
            split at heq
            · have := visit_zg (p := p) (j := j) (id := id) (b := b) (c0 := c1) (c1 := c0) (r := r) hz; rw [heq] at this; exact this
            · have := visit_zg (p := p) (j := j) (id := id) (b := b) (c0 := c0) (c1 := c1) (r := r) hz; rw [heq] at this; exact this
          · rename_i heq
            cases h
            split at heq
            · have := visit_zg (p := p) (j := j) (id := id) (b := b) (c0 := c1) (c1 := c0) (r := r) hz; rw [heq] at this; exact this
            · have := visit_zg (p := p) (j := j) (id := id) (b := b) (c0 := c0) (c1 := c1) (r := r) hz; rw [heq] at this; exact this
        · cases h

theorem propLoop_zg {fuel : Nat} : ∀ {n : Nat} {s : Core} {x : Core × Option Nat × Nat}, Core.propLoop fuel n s = some x → ZInv s → ZInv x.1 := by
  induction fuel with
  | zero => intro n s x h; cases h
  | succ fuel ih =>
    intro n s x h hz
    unfold Core.propLoop at h
    split at h
    · simp only at h
      split at h
      · cases h
      · rename_i h1; cases h; exact scan_zg h1 (hz.of_zt rfl)
      · rename_i h1; exact ih h (scan_zg h1 (hz.of_zt rfl))
    · cases h; exact hz

section
variable {F : Type} [LinearOrder F] [Flt F] {C : Cfg F}

theorem insertVarOrder_zg {v : Nat} {s s' : St F} (h : insertVarOrder v s = some s') : Zg s s' := by
  unfold insertVarOrder at h
  split at h
  · obtain ⟨_, _, rfl⟩ := Option.map_eq_some_iff.1 h
    exact .same rfl
  · cases h; exact .refl _

theorem newVar_zg {sign dvar : Bool} {s s' : St F} (h : newVar sign dvar s = some s') : Zg s s' := by
  unfold newVar at h
  refine Zg.trans (fun hz => ?_) (insertVarOrder_zg h)
  refine ⟨fun v hv => ?_, fun x hx => ?_, hz.bot, hz.lims⟩
  · change upd s.level s.nvars none v = some 0 at hv
    show upd s.asg s.nvars none v ≠ none
    unfold upd at hv ⊢
    split
    · next e => rw [if_pos e] at hv; cases hv
    · next e => rw [if_neg e] at hv; exact hz.zero v hv
  · show upd s.level s.nvars none (vr x) ≠ some 0
    unfold upd
    split
    · exact fun h => by cases h
    · exact hz.above x hx

theorem prop_zg {s : St F} {x : St F × Option Nat} (h : prop s = some x) : Zg s x.1 := by
  unfold prop at h
  split at h
  · cases h
  · rename_i h1
    cases h
    exact fun hz => propLoop_zg h1 hz

theorem install_zg {d : List Nat} {lrn : Bool} {s s' : St F} (h : install d lrn s = some s') : Zg s s' := by
  unfold install at h
  split at h
  · cases h
  · rename_i c h1
    cases h
    unfold Core.attach at h1
    split at h1
    · cases h1; exact .same rfl
    · cases h1

theorem insertVarOrder_zt {v : Nat} {s s' : St F} (h : insertVarOrder v s = some s') : s'.zt = s.zt := by
  unfold insertVarOrder at h
  split at h
  · obtain ⟨_, _, rfl⟩ := Option.map_eq_some_iff.1 h
    rfl
  · cases h; rfl

theorem cancelPop_zt {n : Nat} : ∀ {s s' : St F}, cancelPop n s = some s' →
    s'.level = s.level ∧ s'.trail = s.trail.drop n ∧ s'.lim = s.lim ∧ ∀ v, (∀ x ∈ s.trail.take n, vr x ≠ v) → s'.asg v = s.asg v := by
  induction n with
  | zero => intro s s' h; cases h; exact ⟨rfl, rfl, rfl, fun _ _ => rfl⟩
  | succ n ih =>
    intro s s' h
    unfold cancelPop at h
    split at h
    · cases h
    · rename_i l t ht
      split at h
      · cases h
      · rename_i s1 h1
        have e := insertVarOrder_zt h1
        unfold Core.zt at e
        simp only [Prod.mk.injEq] at e
        obtain ⟨e1, e2, e3, e4⟩ := e
        obtain ⟨k1, k2, k3, k4⟩ := ih h
        refine ⟨k1.trans e1, by rw [k2, e3, ht]; rfl, k3.trans e4, fun v hv => ?_⟩
        rw [ht, List.take_succ_cons] at hv
        rw [k4 v (fun x hx => hv x (List.mem_cons_of_mem _ (by rw [e3] at hx; exact hx))), e2]
        exact upd_ne _ _ (Ne.symm (hv l (by simp)))

theorem cancelUntil_zg {L : Nat} {s s' : St F} (h : cancelUntil L s = some s') : Zg s s' := by
  unfold cancelUntil at h
  split at h
  · rename_i hL
    obtain ⟨s1, h1, rfl⟩ := Option.map_eq_some_iff.1 h
    obtain ⟨k1, k2, k3, k4⟩ := cancelPop_zt h1
    intro hz
    have hmem : s.limAt L ∈ s.lim := by
      unfold Core.limAt
      rw [List.getD_eq_getElem?_getD, List.getElem?_eq_getElem (by omega)]
      exact List.getElem_mem _
    have hge := hz.lims _ hmem
    have hbt := hz.bot
    have hw : ∀ v, s1.level v = some 0 → s1.asg v ≠ none := by
      intro v hv
      rw [k1] at hv
      rw [k4 v]
      · exact hz.zero v hv
      · intro x hx e
        refine hz.above x ?_ (by rw [e]; exact hv)
        exact (List.take_subset_take_left _ (by omega)) hx
    by_cases h0 : L = 0
    · subst h0
      have hlim : s.lim.drop (s.lim.length - 0) = [] := by simp
      refine ⟨hw, ?_, ?_, ?_⟩
      · show ∀ x ∈ s1.trail.take (s1.trail.length - (s.lim.drop (s.lim.length - 0)).getLastD s1.trail.length), _
        rw [hlim]
        intro x hx
        simp at hx
      · show (s.lim.drop (s.lim.length - 0)).getLastD s1.trail.length ≤ s1.trail.length
        rw [hlim]
        exact Nat.le_refl _
      · show ∀ n ∈ s.lim.drop (s.lim.length - 0), _
        rw [hlim]
        intro n hn
        cases hn
    · have hlast : (s.lim.drop (s.lim.length - L)).getLastD s1.trail.length = s.bot := by
        unfold Core.bot
        rw [List.getLastD_eq_getLast?, List.getLastD_eq_getLast?, List.getLast?_drop, if_neg (by omega)]
        cases hl : s.lim with
        | nil => rw [hl] at hL; simp at hL
        | cons a t => simp [List.getLast?_cons]
      have hlen : s1.trail.length = s.trail.length - (s.trail.length - s.limAt L) := by rw [k2, List.length_drop]
      refine ⟨hw, ?_, ?_, ?_⟩
      · show ∀ x ∈ s1.trail.take (s1.trail.length - (s.lim.drop (s.lim.length - L)).getLastD s1.trail.length), s1.level (vr x) ≠ some 0
        rw [hlast, k1]
        intro x hx
        refine hz.above x ?_
        rw [k2, List.take_drop] at hx
        refine List.take_subset_take_left _ ?_ (List.mem_of_mem_drop hx)
        rw [List.length_drop]
        omega
      · show (s.lim.drop (s.lim.length - L)).getLastD s1.trail.length ≤ s1.trail.length
        rw [hlast]
        omega
      · show ∀ n ∈ s.lim.drop (s.lim.length - L), (s.lim.drop (s.lim.length - L)).getLastD s1.trail.length ≤ n
        rw [hlast]
        exact fun n hn => hz.lims n (List.mem_of_mem_drop hn)
  · cases h; exact .refl _

theorem bumpVar_zg {v : Nat} {s s' : St F} (h : bumpVar v s = some s') : Zg s s' := by
  unfold bumpVar at h
  simp only at h
  have key : ∀ t : St F, (if t.heap.inHeap v = true then (t.heap.decrease t.act v).map fun h => { t with heap := h } else some t) = some s' → t.zt = s.zt → Zg s s' := by
    intro t h h1
    split at h
    · obtain ⟨_, _, rfl⟩ := Option.map_eq_some_iff.1 h
      exact .same h1
    · cases h; exact .same h1
  split at h
  · exact key _ h rfl
  · exact key _ h rfl

theorem bumpClause_zg {id : Nat} {s : St F} : Zg s (bumpClause C id s) := by
  unfold bumpClause
  simp only
  split
  · split <;> exact .same rfl
  · exact .refl _

theorem decay_zg {s : St F} : Zg s (decay C s) := by
  unfold decay
  simp only
  split <;> exact .same rfl

theorem anaLits_zg {ls : List Nat} : ∀ {s : St F} {n : Nat} {out : List Nat} {x : St F × Nat × List Nat}, anaLits ls s n out = some x → Zg s x.1 := by
  induction ls with
  | nil => intro s n out x h; cases h; exact .refl _
  | cons l ls ih =>
    intro s n out x h
    unfold anaLits at h
    split at h
    · split at h
      · cases h
      · rename_i s1 h1
        simp only at h
        split at h
        · exact (bumpVar_zg h1).trans ((ih h).of rfl rfl)
        · exact (bumpVar_zg h1).trans ((ih h).of rfl rfl)
    · exact ih h

theorem anaLoop_zg {t : List Nat} : ∀ {s : St F} {n : Nat} {out : List Nat} {x : Nat × St F × List Nat}, anaLoop C t s n out = some x → Zg s x.2.1 := by
  induction t with
  | nil => intro s n out x h; cases h
  | cons l t ih =>
    intro s n out x h
    unfold anaLoop at h
    split at h
    · simp only at h
      split at h
      · cases h; exact .same rfl
      · split at h
        · cases h
        · split at h
          · cases h
          · rename_i h1
            exact ((bumpClause_zg.trans (anaLits_zg h1)).trans (ih h)).pre rfl
    · exact ih h

theorem simplifyClause_zg {p : Nat} {out : List Nat} {s : St F} {x : St F × List Nat} (h : simplifyClause C p out s = some x) : Zg s x.1 := by
  unfold simplifyClause at h
  split at h
  · cases h
  · cases h; exact .same rfl

theorem analyze_zg {id : Nat} {s : St F} {x : St F × List Nat} (h : analyze C id s = some x) : Zg s x.1 := by
  unfold analyze at h
  split at h
  · cases h
  · rename_i h1
    split at h
    · cases h
    · rename_i h2
      exact (bumpClause_zg.trans (anaLits_zg h1)).trans ((anaLoop_zg h2).trans (simplifyClause_zg h))

theorem analyzeFinal_zg {p : Nat} {s : St F} : Zg s (analyzeFinal p s) := by
  unfold analyzeFinal
  split <;> exact .same rfl

theorem pickHeap_zg {fuel : Nat} : ∀ {s : St F} {x : St F × Option Nat}, pickHeap fuel s = some x → Zg s x.1 := by
  induction fuel with
  | zero => intro s x h; cases h
  | succ n ih =>
    intro s x h
    unfold pickHeap at h
    split at h
    · cases h; exact .refl _
    · split at h
      · cases h
      · simp only at h
        split at h
        · cases h; exact .same rfl
        · exact (ih h).of rfl rfl

theorem pickBranch_zg {s : St F} {x : St F × Option Nat} (h : pickBranch s = some x) : Zg s x.1 := by
  unfold pickBranch at h
  simp only at h
  split at h
  · cases h; exact .same rfl
  · split at h
    · cases h
    · rename_i h1
      cases h
      exact (pickHeap_zg h1).of rfl rfl
    · rename_i h1
      cases h
      exact (pickHeap_zg h1).of rfl rfl

theorem detach_zg {lrn : Bool} {id : Nat} {s s' : St F} (h : detach lrn id s = some s') : Zg s s' := by
  unfold detach at h
  split at h
  · cases h; exact .same rfl
  · cases h

theorem removeClause_zg {lrn : Bool} {id : Nat} {s s' : St F} (h : removeClause C lrn id s = some s') : Zg s s' := by
  unfold removeClause at h
  simp only at h
  have key : ∀ t : St F, (detach lrn id (if locked t id = true then { t with reason := upd t.reason (vr ((t.data id).headD 0)) none } else t)) = some s' → Zg s t → Zg s s' := by
    intro t h ht
    split at h
    · exact ht.trans ((detach_zg h).of rfl rfl)
    · exact ht.trans (detach_zg h)
  by_cases hp : C.proofGen = true
  · rw [if_pos hp] at h
    exact key _ h (.same rfl)
  · rw [if_neg hp] at h
    exact key _ h (.refl _)

theorem remSatLoop_zg {lrn : Bool} {ids : List Nat} : ∀ {s : St F} {x : St F × List Nat}, remSatLoop C lrn ids s = some x → Zg s x.1 := by
  induction ids with
  | nil => intro s x h; cases h; exact .refl _
  | cons id ids ih =>
    intro s x h
    unfold remSatLoop at h
    split at h
    · split at h
      · cases h
      · rename_i h1
        exact (removeClause_zg h1).trans (ih h)
    · simp only at h
      obtain ⟨y, h1, rfl⟩ := Option.map_eq_some_iff.1 h
      exact (ih h1).of rfl rfl

theorem remSat_zg {s s' : St F} (h : remSat C s = some s') : Zg s s' := by
  unfold remSat at h
  split at h
  · cases h
  · rename_i h1
    simp only at h
    split at h
    · obtain ⟨y, h2, rfl⟩ := Option.map_eq_some_iff.1 h
      exact (remSatLoop_zg h1).trans ((remSatLoop_zg h2).of rfl rfl)
    · cases h; exact (remSatLoop_zg h1).of rfl rfl

theorem simplifyDb_zg {s : St F} {x : St F × Bool} (h : simplifyDb C s = some x) : Zg s x.1 := by
  unfold simplifyDb at h
  split at h
  · cases h; exact .refl _
  · split at h
    · cases h
    · rename_i h1
      split at h
      · cases h
      · cases h; exact (remSat_zg h1).of rfl rfl

theorem simplify_zg {s : St F} {x : St F × Bool} (h : simplify C s = some x) : Zg s x.1 := by
  unfold simplify at h
  split at h
  · cases h; exact .refl _
  · split at h
    · cases h
    · rename_i h1
      cases h; exact (prop_zg h1).of rfl rfl
    · rename_i h1
      exact (prop_zg h1).trans (simplifyDb_zg h)

theorem reduceLoop_zg {half : Nat} {extra : F} {ids : List Nat} : ∀ {i : Nat} {s : St F} {x : St F × List Nat}, reduceLoop C half extra ids i s = some x → Zg s x.1 := by
  induction ids with
  | nil => intro i s x h; cases h; exact .refl _
  | cons id ids ih =>
    intro i s x h
    unfold reduceLoop at h
    split at h
    · split at h
      · cases h
      · rename_i h1
        exact (removeClause_zg h1).trans (ih h)
    · obtain ⟨y, h1, rfl⟩ := Option.map_eq_some_iff.1 h
      have := ih h1
      exact this

theorem reduceDb_zg {s s' : St F} (h : reduceDb C s = some s') : Zg s s' := by
  unfold reduceDb at h
  split at h
  · simp only at h
    split at h
    · cases h
    · split at h
      · obtain ⟨y, h1, rfl⟩ := Option.map_eq_some_iff.1 h
        exact (reduceLoop_zg h1).of rfl rfl
      · cases h
  · cases h

theorem record_zg {cl : List Nat} {s s' : St F} (h : record C cl s = some s') : Zg s s' := by
  unfold record at h
  split at h
  · cases h
  · rename_i l; cases h; exact Zg.trans (s' := { s with toCore := { s.toCore.enqueue l none with units := s.units ++ [l] } }) (fun hz => (hz.enqueue l none).of_zt rfl) decay_zg
  · split at h
    · cases h
    · rename_i l _ _ _ _ h1
      cases h
      refine (install_zg h1).trans (Zg.trans (fun hz => ?_) decay_zg)
      exact (hz.enqueue l (some s.next)).of_zt rfl

theorem learn_zg {id : Nat} {s s' : St F} (h : learn C id s = some s') : Zg s s' := by
  unfold learn at h
  split at h
  · cases h
  · rename_i h1
    split at h
    · cases h
    · rename_i s1 cl _ s2 h2
      refine (analyze_zg h1).trans ((cancelUntil_zg h2).trans (Zg.trans (s' := { s2 with pgProof := if C.proofGen then s2.pgProof ++ [1 :: cl.map pgLit] else s2.pgProof }) ?_ ((record_zg h).of rfl rfl)))
      by_cases hp : C.proofGen = true
      · simp only [hp, if_true]
        exact .same rfl
      · simp only [hp]
        exact .refl _

theorem assumeLoop_zg {n : Nat} : ∀ {s : St F}, match assumeLoop n s with | .next _ s' => Zg s s' | .fail _ s' => Zg s s' | .done s' => Zg s s' := by
  induction n with
  | zero => intro s; exact .refl _
  | succ n ih =>
    intro s
    unfold assumeLoop
    simp only
    split
    · rename_i heq
      have := ih (s := { s with lim := s.trail.length :: s.lim })
      split at heq
      · rw [heq] at this; exact fun hz => this hz.push
      · cases heq
      · injection heq with _ e; rw [← e]; exact .refl _
    · rename_i heq
      have := ih (s := { s with lim := s.trail.length :: s.lim })
      split at heq
      · rw [heq] at this; exact fun hz => this hz.push
      · injection heq with _ e; rw [← e]; exact .refl _
      · cases heq
    · rename_i heq
      have := ih (s := { s with lim := s.trail.length :: s.lim })
      split at heq
      · rw [heq] at this; exact fun hz => this hz.push
      · cases heq
      · cases heq

theorem decide_zg {l : Nat} {s : St F} : Zg s (decide_ l s) := fun hz => ZInv.enqueue hz.push l none

/-- The state after an iteration. -/
def St.Step.Zg (s : St F) : St.Step F → Prop
  | .again s' => Sat.Zg s s'
  | .answer s' _ => Sat.Zg s s'
  | .panic => True

theorem branch_zg {s : St F} : St.Step.Zg s (branch s) := by
  unfold branch
  have h := assumeLoop_zg (n := s.assumptions.length - s.lim.length) (s := s)
  revert h
  generalize assumeLoop (s.assumptions.length - s.lim.length) s = r
  intro h
  match r, h with
  | .fail p s1, h => exact Zg.trans h analyzeFinal_zg
  | .next l s1, h => exact Zg.trans h decide_zg
  | .done s1, h =>
    simp only
    split
    · trivial
    · rename_i h1; exact Zg.trans h (pickBranch_zg h1)
    · rename_i h1; exact Zg.trans h (Zg.trans (pickBranch_zg h1) decide_zg)

theorem St.Step.Zg.trans {s s' : St F} {r : St.Step F} (h : Sat.Zg s s') (h' : St.Step.Zg s' r) : St.Step.Zg s r := by
  match r, h' with
  | .again _, h' => exact Sat.Zg.trans h h'
  | .answer _ _, h' => exact Sat.Zg.trans h h'
  | .panic, _ => trivial

theorem noConflict_zg {cnt : Bool} {s : St F} : St.Step.Zg s (noConflict C cnt s) := by
  unfold noConflict
  split
  · split
    · trivial
    · rename_i h1; exact cancelUntil_zg h1
  · split
    · exact branch_zg
    · split
      · trivial
      · rename_i h1
        show Zg _ _
        split at h1
        · exact simplify_zg h1
        · cases h1
      · rename_i s1 h1
        have h2 : Zg s s1 := by
          split at h1
          · exact simplify_zg h1
          · cases h1; exact .refl _
        split
        · split
          · trivial
          · rename_i h3
            exact St.Step.Zg.trans (h2.trans (reduceDb_zg h3)) branch_zg
        · exact St.Step.Zg.trans h2 branch_zg

theorem searchLoop_zg {fuel : Nat} : ∀ {n : Nat} {s : St F} {x : St F × Option Bool}, searchLoop C fuel n s = .ok x → Zg s x.1 := by
  induction fuel with
  | zero => intro n s x h; cases h
  | succ fuel ih =>
    intro n s x h
    unfold searchLoop at h
    split at h
    · cases h
    · rename_i h1
      split at h
      · cases h; exact prop_zg h1
      · split at h
        · cases h
        · rename_i h2
          exact (prop_zg h1).trans ((learn_zg h2).trans (ih h))
    · rename_i s1 h1
      have h2 := noConflict_zg (C := C) (cnt := n == 0) (s := s1)
      split at h
      · cases h
      · rename_i heq; rw [heq] at h2; cases h; exact (prop_zg h1).trans h2
      · rename_i heq; rw [heq] at h2; exact (prop_zg h1).trans (Zg.trans h2 (ih h))

theorem search_zg {fuel n : Nat} {s : St F} {x : St F × Option Bool} (h : search C fuel n s = .ok x) : Zg s x.1 := by
  unfold search at h
  split at h
  · cases h; exact .refl _
  · exact (searchLoop_zg h).of rfl rfl

theorem restartLoop_zg {fuel0 fuel : Nat} : ∀ {k : Nat} {s : St F} {x : St F × Bool}, restartLoop C fuel0 fuel k s = .ok x → Zg s x.1 := by
  induction fuel with
  | zero => intro k s x h; cases h
  | succ fuel ih =>
    intro k s x h
    unfold restartLoop at h
    split at h
    · cases h
    · split at h
      · cases h
      · cases h
      · rename_i h1; cases h; exact search_zg h1
      · rename_i h1; exact (search_zg h1).trans (ih h)

theorem solve_zg {fuel : Nat} {s : St F} {x : St F × Bool} (h : solve C fuel s = .ok x) : Zg s x.1 := by
  unfold solve at h
  simp only at h
  split at h
  · cases h; exact .same rfl
  · split at h
    · cases h
    · cases h
    · rename_i s1 b h1
      split at h
      · cases h
      · rename_i h2
        cases h
        refine ((restartLoop_zg h1).trans (Zg.trans ?_ (cancelUntil_zg h2))).pre rfl
        by_cases hp : (C.proofGen && s1.assumptions.isEmpty && !b) = true
        · simp only [hp, if_true]
          exact .same rfl
        · simp only [hp]
          exact .same rfl

theorem solveWith_zg {fuel : Nat} {as : List Nat} {s : St F} {x : St F × Bool} (h : solveWith C fuel as s = .ok x) : Zg s x.1 := by
  unfold solveWith at h
  split at h
  · rename_i h1; cases h; exact (solve_zg h1).of rfl rfl
  · cases h
  · cases h

theorem solveSel_zg {fuel : Nat} {sel as : List Nat} {s : St F} {x : St F × Bool} (h : Sess.solveSel C fuel sel as s = .ok x) : Zg s x.1 := by
  unfold Sess.solveSel at h
  split at h
  · rename_i h1; cases h; exact (solveWith_zg h1).of rfl rfl
  · cases h
  · cases h

theorem addRest_zg {qs : List Nat} {s : St F} {x : St F × Bool} (h : addRest C qs s = some x) : Zg s x.1 := by
  unfold addRest at h
  split at h
  · cases h
    by_cases hp : C.proofGen = true
    · simp only [hp, if_true]; exact .same rfl
    · simp only [hp]; exact .same rfl
  · split at h
    · cases h
    · rename_i s1 confl h1
      cases h
      refine Zg.trans (fun hz => hz.enqueue _ none) ((prop_zg h1).trans ?_)
      by_cases hp : (confl.isSome && C.proofGen) = true
      · simp only [hp, if_true]; exact .same rfl
      · simp only [hp]; exact .same rfl
  · split at h
    · cases h
    · rename_i h1; cases h; exact (install_zg h1).of rfl rfl

theorem addClause_zg {ps : List Nat} {s : St F} {x : St F × Bool} (h : addClause C ps s = some x) : Zg s x.1 := by
  unfold addClause at h
  by_cases hp : C.proofGen = true
  · simp only [hp, if_true, Bool.true_and] at h
    split at h
    · cases h; exact .same rfl
    · split at h
      · cases h; exact .same rfl
      · split at h
        · exact (addRest_zg h).pre rfl
        · exact (addRest_zg h).pre rfl
  · simp only [hp, Bool.false_and, Bool.false_eq_true, if_false] at h
    split at h
    · cases h; exact .same rfl
    · split at h
      · cases h; exact .same rfl
      · exact addRest_zg h

end
end Verif.Sat
