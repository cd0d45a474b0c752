import Verif.Props.Bdd
/-
C60: CNF by way of a BDD (`CnfAlgorithm::Bdd` and `CancellableCnfAlgorithm::BddWithHandler`).
-/
namespace Verif
namespace Bdd
open ER

/-- `CancellableCnfAlgorithm::BddWithHandler`, cnf/mod.rs 125-130: a kernel with as many variables as the formula has,
`from_formula_with_handler`, `Bdd::cnf`.  `none` is a panic, `some (none, _)` an abort by the handler.  The code uses
tables of 10 000 entries (rounded up to a prime); here their sizes are parameters. -/
def cnfH (C : Canon) (cfg : FCfg) (hd : Nat → Bool) (size csize : Nat) (grow : Nat → Nat → Nat) (f : Formula) (w : World) : Option (Option Formula × World) :=
  (Kernel.new (fnVars.val f).length size csize grow).bind fun k => (build C cfg hd f ⟨k, w, 0⟩).bind fun p =>
    match p.1 with
    | none => some (none, p.2.w)
    | some x => (normalForm C true x p.2.k).map fun q => (some q.1, p.2.w)

/-- `CnfAlgorithm::transform` for `CnfAlgorithm::Bdd`, cnf/mod.rs 42-45 and 64-67. -/
def cnf (C : Canon) (cfg : FCfg) (size csize : Nat) (grow : Nat → Nat → Nat) (f : Formula) (w : World) : Option (Formula × World) :=
  if f.isCnfF then some (f, w) else (cnfH C cfg nop size csize grow f w).bind fun p => p.1.map fun g => (g, p.2)

section
variable {C : Canon} {cfg : FCfg} {c : AuxTy → Nat}

/-- The factory is as before. -/
def Same (w : World) (r : BR Nat) : Prop := ∀ o s', r = some (o, s') → s'.w = w

theorem same_bseq {w : World} {r : BR Nat} {q : Nat → BSt → BR Nat} (h : Same w r) (hq : ∀ a s, s.w = w → Same w (q a s)) : Same w (bseq r q) := by
  intro o s' e
  unfold bseq at e
  split at e
  · cases e
  · cases e; exact h none _ rfl
  · rename_i a s; exact hq a s (h _ _ rfl) o s' e

theorem same_kop {w : World} {s : BSt} (hs : s.w = w) (g : Kernel Var → Option (Nat × Kernel Var)) : Same w (kop g s) := by
  intro o s' e
  unfold kop at e
  obtain ⟨p, _, e⟩ := Option.map_eq_some_iff.1 e
  cases e; exact hs

theorem same_addRef {w : World} {s : BSt} (hs : s.w = w) (h : Nat → Bool) (x : Nat) : Same w (addRefH h x s) := by
  intro o s' e
  unfold addRefH at e
  split at e
  · cases e; exact hs
  · obtain ⟨p, _, e⟩ := Option.map_eq_some_iff.1 e
    cases e; exact hs

theorem same_binop {w : World} {s : BSt} (hs : s.w = w) (h : Nat → Bool) (op : Opr) (a b : Nat) : Same w (binop h op a b s) := by
  unfold binop
  refine same_bseq (same_kop hs _) fun n s hs => same_bseq (same_addRef hs _ _) fun r s hs o s' e => ?_
  obtain ⟨k, _, e⟩ := Option.bind_eq_some_iff.1 e
  obtain ⟨k', _, e⟩ := Option.map_eq_some_iff.1 e
  cases e; exact hs

theorem same_build {con : Formula → BSt → BR Nat} {h : Nat → Bool} {w : World} (f : Formula) : NoCon f → ∀ s : BSt, s.w = w → Same w (buildG con h f s) := by
  induction f using Formula.ind with
  | tru => intro _ s hs o s' e; simp only [buildG] at e; cases e; exact hs
  | fls => intro _ s hs o s' e; simp only [buildG] at e; cases e; exact hs
  | lit l =>
    intro _ s hs o s' e
    simp only [buildG, buildLit] at e
    obtain ⟨p, _, e⟩ := Option.bind_eq_some_iff.1 e
    obtain ⟨x, _, e⟩ := Option.map_eq_some_iff.1 e
    cases e; exact hs
  | not f ih =>
    intro hn s hs
    unfold buildG
    refine same_bseq (ih (noCon_of hn (by simp [Formula.operands])) s hs) fun a s hs => same_bseq (same_kop hs _) fun n s hs => same_bseq (same_addRef hs _ _) fun r s hs o s' e => ?_
    obtain ⟨k, _, e⟩ := Option.map_eq_some_iff.1 e
    cases e; exact hs
  | impl l r hl hr =>
    intro hn s hs
    unfold buildG
    exact same_bseq (hl (noCon_of hn (by simp [Formula.operands])) s hs) fun a s hs => same_bseq (hr (noCon_of hn (by simp [Formula.operands])) s hs) fun b s hs => same_binop hs _ _ _ _
  | equiv l r hl hr =>
    intro hn s hs
    unfold buildG
    exact same_bseq (hl (noCon_of hn (by simp [Formula.operands])) s hs) fun a s hs => same_bseq (hr (noCon_of hn (by simp [Formula.operands])) s hs) fun b s hs => same_binop hs _ _ _ _
  | nary o fs ih =>
    intro hn s hs
    unfold buildG
    have hop : ∀ g ∈ fs, NoCon g := fun g hg => noCon_of hn (by simpa [Formula.operands] using hg)
    have key : ∀ (gs : List Formula), (∀ g ∈ gs, g ∈ fs) → ∀ acc (s : BSt), s.w = w → Same w (buildL con h o gs acc s) := by
      intro gs
      induction gs with
      | nil => intro _ acc s hs o s' e; simp only [buildL] at e; cases e; exact hs
      | cons g gs ih2 =>
        intro hg acc s hs
        unfold buildL
        exact same_bseq (ih g (hg g (by simp)) (hop g (hg g (by simp))) s hs) fun b s hs => same_bseq (same_binop hs _ _ _ _) fun r s hs => ih2 (fun g' h' => hg g' (by simp [h'])) r s hs
    cases fs with
    | nil => intro o s' e; simp only [buildN] at e; cases e
    | cons f fs =>
      unfold buildN
      exact same_bseq (ih f (by simp) (hop f (by simp)) s hs) fun a s hs => key fs (fun g hg => by simp [hg]) a s hs
  | cc c => intro hn; exact ((hn _ (.refl _)).1 c rfl).elim
  | pbc p => intro hn; exact ((hn _ (.refl _)).2 p rfl).elim

/-- What holds after building the BDD of `f` in a kernel with exactly `f`'s number of variables. -/
theorem full_idx (hcfg : cfg.cc.Good) {s hs} (h : BReach C cfg c s hs) {x : Nat} {f : Formula} (hx : (x, f) ∈ hs) (hn : NoCon f) (hv : s.k.varnum = (fnVars.val f).length) :
    s.k.idx.length = s.k.varnum ∧ ∀ v, v ∈ s.k.idx ↔ Occ v f := by
  obtain ⟨E, i⟩ := h.inv hcfg
  obtain ⟨F, a, b, r, g⟩ := i.rep (x, f) hx
  have hsub : fnVars.val f ⊆ s.k.idx := fun v hv => r hn v (((vars_val f).1 v).1 hv)
  have sp := List.subperm_of_subset (vars_val f).2 hsub
  have hle := sp.length_le
  have hl := i.pub.idxLen
  refine ⟨by omega, fun v => ⟨fun hm => ?_, r hn v⟩⟩
  have hp := sp.perm_of_length_le (by omega)
  exact ((vars_val f).1 v).1 (hp.mem_iff.2 hm)

/-- **C60**, the cancellable variant: for a formula without constraints and any handler, node table, cache and growth
policy, in every reachable state of the factory, the conversion does not panic and leaves the factory's counters and
caches alone; unless the handler aborts, the result is an equivalent CNF over variables of the formula. -/
theorem C60_with_handler (hcfg : cfg.cc.Good) {w es rs} (h : TReach C cfg c w es rs) {f : Formula} (hin : Input cfg w.cnt f) (hn : NoCon f) (hd : Nat → Bool)
    {size csize : Nat} {grow : Nat → Nat → Nat} (hs : 3 ≤ size) (hg : ∀ g n, n < grow g n) :
    ∃ r, cnfH C cfg hd size csize grow f w = some (r, w) ∧ ((∀ n, hd n = false) → r ≠ none) ∧
      ∀ g, r = some g → IsCnf g ∧ (∀ v, Occ v g → Occ v f) ∧ ∀ σ, g.eval σ = f.eval σ := by
  obtain ⟨k, ek, hp, hv, hi⟩ := new_ok (V := Var) (nv := (fnVars.val f).length) (csize := csize) hs hg
  have h0 : BReach C cfg c ⟨k, w, 0⟩ [] := .num h hs hg ek
  obtain ⟨t1, _⟩ := C36_total hcfg h0 hin hn (fnVars.val f) (by simp [hi]) (fun v hv => ((vars_val f).1 v).2 hv) (by show _ ≤ k.varnum; omega)
  unfold cnfH
  rw [ek, Option.bind_some]
  cases e : build C cfg hd f ⟨k, w, 0⟩ with
  | none => exact (t1 hd e).elim
  | some p =>
    obtain ⟨o, s'⟩ := p
    have hw : s'.w = w := same_build f hn _ rfl _ _ e
    cases o with
    | none =>
      refine ⟨none, by rw [← hw]; rfl, fun hno _ => ?_, fun g hg => (nomatch hg)⟩
      have : hd = nop := funext fun n => by rw [hno n]; rfl
      subst this
      obtain ⟨_, x, s2, e2⟩ := C36_total hcfg h0 hin hn (fnVars.val f) (by simp [hi]) (fun v hv => ((vars_val f).1 v).2 hv) (by show _ ≤ k.varnum; omega)
      rw [e] at e2; cases e2
    | some x =>
      have hr : BReach C cfg c s' [(x, f)] := .step h0 (.build hin e)
      have hvn : s'.k.varnum = (fnVars.val f).length := by
        obtain ⟨E, i⟩ := h0.inv hcfg
        rcases build_ok (room := False) (vs := []) (C := C) hcfg hd hin.top i.pub i.w (fun h => h.elim) (fun h => h.elim) with ⟨e', _⟩ | ⟨s2, E2, e', _⟩ | ⟨x2, s2, E2, e', _, st, _⟩
        · rw [e] at e'; cases e'
        · rw [e] at e'; cases e'
        · rw [e] at e'; cases e'; rw [st.adv.varnum]; exact hv
      obtain ⟨fl, fv⟩ := full_idx hcfg hr (x := x) (by simp) hn hvn
      have hx : Readable C cfg c s' x := .held hr (.inr ⟨f, by simp⟩)
      obtain ⟨g, k', en, k1, k2, k3⟩ := C40_normal_form hcfg hx fl true
      refine ⟨some g, by simp [en, hw], fun _ => by simp, fun g' hg' => ?_⟩
      cases hg'
      refine ⟨by simpa using k1, fun v hv => (fv v).1 (k2 v hv), fun σ => ?_⟩
      have := C36_construction hcfg h0 hin hn hd e σ
      rw [k3 σ] at this
      exact Option.some.inj this

/-- **C60**: `CnfAlgorithm::Bdd` of a formula without constraints never panics, leaves the factory's
counters and caches alone, and gives an equivalent CNF over
variables of the formula, without auxiliary variables. -/
theorem C60_bdd (hcfg : cfg.cc.Good) {w es rs} (h : TReach C cfg c w es rs) {f : Formula} (hin : Input cfg w.cnt f) (hn : NoCon f)
    {size csize : Nat} {grow : Nat → Nat → Nat} (hs : 3 ≤ size) (hg : ∀ g n, n < grow g n) :
    ∃ g, cnf C cfg size csize grow f w = some (g, w) ∧ IsCnf g ∧ (∀ v, Occ v g → Occ v f) ∧ ∀ σ, g.eval σ = f.eval σ := by
  unfold cnf
  by_cases hc : f.isCnfF = true
  · rw [if_pos hc]
    exact ⟨f, rfl, (isCnfF_iff hin.norm).1 hc, fun _ h => h, fun _ => rfl⟩
  · rw [if_neg hc]
    obtain ⟨r, e, h1, h2⟩ := C60_with_handler (csize := csize) hcfg h hin hn nop hs hg
    cases r with
    | none => exact (h1 (fun _ => rfl) rfl).elim
    | some g => exact ⟨g, by rw [e]; rfl, h2 g rfl⟩

end

/-! ### Witnesses -/

/-- A formula with an equivalence. -/
def exIff : Formula := .equiv (xv 0) (xOr [xAnd [xv 1, xv 2 false], xv 3])

/-- The hypotheses of `C60_bdd` are met by a formula that is no CNF. -/
example : Plain xXor ∧ ¬ xXor.isCnfF = true := ⟨plain_xor, by decide⟩
example : ((cnf canon0 exB 50 7 growR exIff (World.fresh fun _ => 0)).map fun p => p.1.operands.length) = some 5 := by decide +kernel
example : ((cnf canon0 exB 50 7 growR xXor (World.fresh fun _ => 0)).map (·.1)) = some (xAnd [xOr [xv 0, xv 1], xOr [xv 0 false, xv 1 false]]) := by decide +kernel

def exCc : CC := ⟨[.named 0, .named 1, .named 2, .named 3], .le, 2⟩

/-- **C60** fails for constraints: the kernel has one variable for each variable of the formula and none for the
auxiliary variables of the constraint's encoding, so `x0 + x1 + x2 + x3 <= 2` panics. -/
theorem C60_constraint_panics : ∃ (cfg : FCfg) (w : World) (f : Formula), cfg.cc.Good ∧ TReach canon0 cfg (fun _ => 0) w [] [] ∧ Input cfg w.cnt f ∧ cnf canon0 cfg 50 7 growR f w = none := by
  have hs : ∀ g, Sub g (Formula.cc exCc) → g = .cc exCc := by
    intro g hg
    rcases sub_operands.1 hg with h | ⟨k, hk, _⟩
    · exact h
    · simp [Formula.operands] at hk
  refine ⟨exB, World.fresh fun _ => 0, .cc exCc, trivial, .fresh, ⟨.cc ⟨by decide, by decide, by decide⟩, ⟨fun c hc => ?_, fun p hp => ?_⟩, fun v hv => ?_⟩, by decide +kernel⟩
  · have h := hs _ hc
    injection h with h; subst h; exact ⟨by decide, by decide, fun _ => by decide⟩
  · have h := hs _ hp; simp at h
  · cases hv with
    | cc hv => simp only [exCc, List.mem_cons, List.not_mem_nil, or_false] at hv; rcases hv with rfl | rfl | rfl | rfl <;> trivial

end Bdd
end Verif
