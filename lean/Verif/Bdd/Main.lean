import Verif.Bdd.Enum
/-
Restriction and quantification of handles (src/knowledge_compilation/bdd/bdd_main.rs).
-/
namespace Verif
namespace Bdd
open ER

/-- `NopBddHandler`, bdd_handler.rs 12-22. -/
def nop : Nat → Bool := fun _ => false

/-- `bdd_from_literals`, bdd_main.rs 243-246 (and `bdd_from_variables`,
238-241, for positive literals); the reference taken is never released. -/
def fromLits (C : Canon) (cfg : FCfg) (ls : List Lit) (s : BSt) : BR Nat := build C cfg nop (Formula.mkAnd C (ls.map .lit)) s

/-- `Bdd::restrict`, bdd_main.rs 136-139. -/
def restrictH (C : Canon) (cfg : FCfg) (r : Nat) (ls : List Lit) (s : BSt) : BR Nat :=
  bseq (fromLits C cfg ls s) fun x s => kop (fun k => k.restrict r x) s

/-- `Bdd::exists`, bdd_main.rs 143-146. -/
def existsH (C : Canon) (cfg : FCfg) (r : Nat) (vs : List Var) (s : BSt) : BR Nat :=
  bseq (fromLits C cfg (vs.map fun v => ⟨v, true⟩) s) fun x s => kop (fun k => k.exist r x) s

/-- `Bdd::for_all`, bdd_main.rs 150-153. -/
def forAllH (C : Canon) (cfg : FCfg) (r : Nat) (vs : List Var) (s : BSt) : BR Nat :=
  bseq (fromLits C cfg (vs.map fun v => ⟨v, true⟩) s) fun x s => kop (fun k => k.forAll r x) s

/-! ### Trees of conjunctions of literals -/

/-- The literals fixed by `A` hold. -/
def Holds (A : Nat → Option Bool) (ρ : Nat → Bool) : Prop := ∀ v b, A v = some b → ρ v = b

theorem leaf_of_false {nv b : Nat} {t : BT} (hr : t.Red) (ho : BT.Ord nv b t) (h : ∀ ρ, t.eval ρ = false) : t = .leaf false :=
  BT.canonical nv (b := b) (Nat.sub_le _ _) ho trivial hr trivial fun ρ => by rw [h]; rfl

theorem chain {nv : Nat} : ∀ (t : BT) (b : Nat) (A : Nat → Option Bool), t.Red → BT.Ord nv b t → (∀ ρ, t.eval ρ = true ↔ Holds A ρ) →
    (∀ v, t.slits.lookup v = A v) ∧ ((∀ v, A v ≠ some false) → ∀ v, v ∈ t.hiLevels ↔ A v = some true)
  | .leaf x, b, A, _, _, h => by
    have hA : ∀ v, A v = none := fun v => by
      cases hv : A v with
      | none => rfl
      | some y =>
        have h1 := (h fun w => (A w).getD false).2 fun w z hz => by simp only [hz]; rfl
        have h2 := (h fun w => !(A w).getD false).1 (by rw [show BT.eval _ (.leaf x) = x from rfl] at h1 ⊢; exact h1) v y hv
        simp only [hv] at h2
        cases y <;> simp at h2
    refine ⟨fun v => by rw [hA]; rfl, fun _ v => by simp [BT.hiLevels, hA]⟩
  | .node v lo hi, b, A, hr, ho, h => by
    obtain ⟨r1, r2, r3⟩ := hr
    obtain ⟨o1, o2, o3, o4⟩ := ho
    have ev : ∀ ρ x, (BT.node v lo hi).eval (BT.set ρ v x) = if x then hi.eval ρ else lo.eval ρ := fun ρ x => by
      have : BT.set ρ v x v = x := by simp [BT.set]
      rw [BT.eval, this, BT.eval_set_lt o4 (by omega), BT.eval_set_lt o3 (by omega)]
    have hset : ∀ ρ x, Holds A (BT.set ρ v x) ↔ (∀ y, A v = some y → x = y) ∧ Holds (upd A v none) ρ := fun ρ x => by
      constructor
      · intro g
        refine ⟨fun y hy => by have := g v y hy; simpa [BT.set] using this, fun w y hy => ?_⟩
        by_cases e : w = v
        · rw [e, upd_same] at hy; cases hy
        · rw [upd_ne e] at hy
          have := g w y hy
          simpa [BT.set, e] using this
      · rintro ⟨g1, g2⟩ w y hy
        by_cases e : w = v
        · subst e; simp [BT.set, g1 y hy]
        · simp only [BT.set, e, if_false]
          exact g2 w y (by rw [upd_ne e]; exact hy)
    have hhi : ∀ ρ, hi.eval ρ = true ↔ (∀ y, A v = some y → true = y) ∧ Holds (upd A v none) ρ := fun ρ => by
      rw [← hset ρ true, ← h, ev]; simp
    have hlo : ∀ ρ, lo.eval ρ = true ↔ (∀ y, A v = some y → false = y) ∧ Holds (upd A v none) ρ := fun ρ => by
      rw [← hset ρ false, ← h, ev]; simp
    cases hv : A v with
    | none =>
      refine (r1 (BT.canonical nv (b := v + 1) (Nat.sub_le _ _) o3 o4 r2 r3 fun ρ => ?_)).elim
      rw [Bool.eq_iff_iff, hhi, hlo, hv]
      simp
    | some y =>
      cases y with
      | true =>
        have el : lo = .leaf false := leaf_of_false r2 o3 fun ρ => by
          rw [Bool.eq_false_iff]; intro g
          have := ((hlo ρ).1 g).1 true hv
          simp at this
        obtain ⟨i1, i2⟩ := chain hi (v + 1) (upd A v none) r3 o4 fun ρ => by rw [hhi, hv]; simp
        refine ⟨fun w => ?_, fun hp w => ?_⟩
        · simp only [BT.slits, el, if_true, List.lookup_cons]
          by_cases e : w = v
          · subst e; simp [hv]
          · rw [show (w == v) = false by simpa using e]
            simp only
            rw [i1, upd_ne e]
        · simp only [BT.hiLevels, List.mem_cons]
          by_cases e : w = v
          · subst e; simp [hv]
          · rw [i2 (fun u => by by_cases e : u = v; { rw [e, upd_same]; simp }; { rw [upd_ne e]; exact hp u }) w, upd_ne e]
            simp [e]
      | false =>
        have eh : hi = .leaf false := leaf_of_false r3 o4 fun ρ => by
          rw [Bool.eq_false_iff]; intro g
          have := ((hhi ρ).1 g).1 false hv
          simp at this
        have el : lo ≠ .leaf false := fun e => r1 (e.trans eh.symm)
        obtain ⟨i1, _⟩ := chain lo (v + 1) (upd A v none) r2 o3 fun ρ => by rw [hlo, hv]; simp
        refine ⟨fun w => ?_, fun hp w => (hp v hv).elim⟩
        simp only [BT.slits, el, if_false, List.lookup_cons]
        by_cases e : w = v
        · subst e; simp [hv]
        · rw [show (w == v) = false by simpa using e]
          simp only
          rw [i1, upd_ne e]

/-! ### Assignments and valuations of the levels -/

/-- The assignment given by a valuation of the levels, `σ` elsewhere. -/
def asgOf (idx : List Var) (ρ : Nat → Bool) (σ : Asg) : Asg := fun v => if v ∈ idx then ρ (idx.idxOf v) else σ v

theorem agr_asgOf {idx : List Var} (hn : idx.Nodup) (ρ : Nat → Bool) (σ : Asg) : Agr idx ρ (asgOf idx ρ σ) := fun i v hv => by
  obtain ⟨hi, e⟩ := List.getElem?_eq_some_iff.1 hv
  unfold asgOf
  rw [← e, if_pos (List.getElem_mem _), hn.idxOf_getElem]

/-- The valuation of the levels given by an assignment, `ρ` elsewhere. -/
def valOf (idx : List Var) (σ : Asg) (ρ : Nat → Bool) : Nat → Bool := fun i => (idx[i]?.map σ).getD (ρ i)

theorem agr_valOf (idx : List Var) (σ : Asg) (ρ : Nat → Bool) : Agr idx (valOf idx σ ρ) σ := fun i v hv => by unfold valOf; rw [hv]; rfl

/-- Restriction of an assignment by literals. -/
def fixL (ls : List Lit) (σ : Asg) : Asg := fun v => if ⟨v, true⟩ ∈ ls then true else if ⟨v, false⟩ ∈ ls then false else σ v

/-- No variable in both phases. -/
def Consist (ls : List Lit) : Prop := ∀ v, ¬ (⟨v, true⟩ ∈ ls ∧ ⟨v, false⟩ ∈ ls)

/-- The literals as fixed levels. -/
def litLv (idx : List Var) (ls : List Lit) : Nat → Option Bool := fun i => idx[i]?.bind fun v => if ⟨v, true⟩ ∈ ls then some true else if ⟨v, false⟩ ∈ ls then some false else none

theorem eval_lits (C : Canon) (ls : List Lit) (σ : Asg) : (Formula.mkAnd C (ls.map .lit)).eval σ = true ↔ ∀ l ∈ ls, σ l.v = l.pos := by
  rw [Formula.eval_mkAnd, List.all_eq_true]
  simp only [List.mem_map, forall_exists_index, and_imp, forall_apply_eq_imp_iff₂]
  refine forall₂_congr fun l _ => ?_
  cases l with
  | mk v p => cases p <;> simp [Formula.eval, Lit.eval]

theorem noCon_lits (C : Canon) (ls : List Lit) : NoCon (Formula.mkAnd C (ls.map .lit)) := NoCon.mkNary fun f hf => by
  obtain ⟨l, _, rfl⟩ := List.mem_map.1 hf
  exact noCon_lit l

theorem mem_ls {ls : List Lit} (hc : Consist ls) (v : Var) (b : Bool) : ⟨v, b⟩ ∈ ls ↔ (if (⟨v, true⟩ : Lit) ∈ ls then some true else if (⟨v, false⟩ : Lit) ∈ ls then some false else none) = some b := by
  have := hc v
  by_cases h1 : (⟨v, true⟩ : Lit) ∈ ls <;> by_cases h2 : (⟨v, false⟩ : Lit) ∈ ls <;> cases b <;> simp_all

/-- What is known about the BDD of a consistent conjunction of literals. -/
theorem lits_tree {C : Canon} {k : Kernel Var} {H : List Nat} {E : List Ent} (hp : Pub k H) {ls : List Lit} (hc : Consist ls) {x : Nat} (hr : Rep k E x (Formula.mkAnd C (ls.map .lit))) :
    (∀ l ∈ ls, l.v ∈ k.idx) ∧ ∃ t, Den k x t ∧ BT.Ord k.varnum 0 t ∧ (∀ v, t.slits.lookup v = litLv k.idx ls v) ∧ ((∀ l ∈ ls, l.pos = true) → ∀ v, v ∈ t.hiLevels ↔ litLv k.idx ls v = some true) := by
  obtain ⟨F, ⟨t, d, o, e⟩, lF, _, hF⟩ := hr
  have hF' : ∀ ρ σ, Agr k.idx ρ σ → (F ρ = true ↔ ∀ l ∈ ls, σ l.v = l.pos) := fun ρ σ hg => by
    rw [hF ρ σ hg (.inr (noCon_lits C ls)), eval_lits]
  have hreg : ∀ l ∈ ls, l.v ∈ k.idx := fun l hl => by
    by_contra hni
    -- two assignments that differ only outside the registered variables
    let σ : Asg := fixL ls fun _ => false
    have h1 : ∀ m ∈ ls, σ m.v = m.pos := fun m hm => by
      have := hc m.v
      cases m with
      | mk v p =>
        show fixL ls _ v = p
        unfold fixL
        cases p <;> simp_all
    have h2 := (hF' (valOf k.idx σ fun _ => false) σ (agr_valOf _ _ _)).2 h1
    have h3 := (hF' (valOf k.idx σ fun _ => false) (fun v => if v = l.v then !σ v else σ v) fun i v hv => by
      have hne : v ≠ l.v := fun e => hni (e ▸ List.mem_of_getElem? hv)
      rw [agr_valOf _ _ _ i v hv]; simp only [if_neg hne]).1 h2 l hl
    simp only [if_true, h1 l hl] at h3
    cases l.pos <;> simp at h3
  refine ⟨hreg, t, d, o, ?_⟩
  obtain ⟨c1, c2⟩ := chain (nv := k.varnum) t 0 (litLv k.idx ls) (hp.den_red d) o fun ρ => by
    rw [e, hF' ρ _ (agr_asgOf hp.idxNd ρ fun _ => false)]
    constructor
    · intro h i b hb
      unfold litLv at hb
      cases hi : k.idx[i]? with
      | none => rw [hi] at hb; cases hb
      | some v =>
        rw [hi] at hb
        have hm := (mem_ls hc v b).2 hb
        rw [agr_asgOf hp.idxNd ρ (fun _ => false) i v hi]
        exact h _ hm
    · intro h l hl
      have hi : k.idx[k.idx.idxOf l.v]? = some l.v := by
        have := List.idxOf_lt_length_iff.2 (hreg l hl)
        rw [List.getElem?_eq_getElem this, List.getElem_idxOf]
      rw [← agr_asgOf hp.idxNd ρ (fun _ => false) _ _ hi]
      refine h _ _ ?_
      unfold litLv
      rw [hi]
      exact (mem_ls hc l.v l.pos).1 hl
  refine ⟨c1, fun hpos => c2 fun v => ?_⟩
  unfold litLv
  cases hi : k.idx[v]? with
  | none => simp
  | some x =>
    intro hx
    have := hpos _ ((mem_ls hc x false).2 hx)
    simp at this

/-- Index `n` represents the function `g` of the assignments in `P`. -/
def RepF (k : Kernel Var) (n : Nat) (P : Asg → Prop) (g : Asg → Prop) : Prop :=
  ∃ F, Is k n F ∧ Lv k.idx.length F ∧ ∀ ρ σ, Agr k.idx ρ σ → P σ → (F ρ = true ↔ g σ)

theorem Rep.toF {k : Kernel Var} {E : List Ent} {n : Nat} {f : Formula} (h : Rep k E n f) : RepF k n (fun σ => EncOk E σ ∨ NoCon f) fun σ => f.eval σ = true := by
  obtain ⟨F, a, b, _, c⟩ := h
  exact ⟨F, a, b, fun ρ σ hg hc => by rw [c ρ σ hg hc]⟩

theorem ov_lit {idx : List Var} {ls : List Lit} {ρ : Nat → Bool} {L : List (Nat × Bool)} {σ : Asg} (hL : ∀ v, L.lookup v = litLv idx ls v) (hg : Agr idx ρ σ) : Agr idx (ov L ρ) (fixL ls σ) := fun i v hv => by
  unfold ov
  rw [hL]
  unfold litLv fixL
  rw [hv]
  simp only [Option.bind_some]
  split
  · rfl
  · split
    · rfl
    · exact hg i v hv

theorem Pub.exact {k k' : Kernel V} {H : List Nat} (h : Pub k H) (hk : KInv k') (h1 : k'.stack = k.stack) (h2 : k'.varnum = k.varnum) (h3 : k'.cap = k.cap) (h4 : k'.idx = k.idx) (h5 : k'.ref = k.ref) (h6 : ∀ n t, Prot k n → Den k n t → Den k' n t) : Pub k' H ∧ Adv H k k' :=
  ⟨{ toKInv := hk, capEq := by rw [h3, h2]; exact h.capEq, stkLen := by rw [h1, h2]; exact h.stkLen, rc := fun n hn g => by rw [h5]; exact h.rc n hn g, rmax := by rw [h5]; exact h.rmax, idxNd := by rw [h4]; exact h.idxNd, idxLen := by rw [h4, h2]; exact h.idxLen },
   ⟨h2, by rw [h4]; exact List.prefix_rfl, fun n hn t hd => h6 n t (h.prot hn) hd⟩⟩

theorem Pub.misc {k k' : Kernel V} {H : List Nat} (h : Pub k H) (hk : KInv k') (he : MiscEq k k') : Pub k' H ∧ Adv H k k' := by
  have ht := he.tab
  refine h.exact hk ?_ ?_ ?_ ?_ ?_ fun n t _ d => ht.dext _ _ d <;> rw [he]

/-- Quantified formulas as functions of the assignment. -/
def QuantA (op : Opr) (vs : List Var) (g : Asg → Prop) (σ : Asg) : Prop :=
  if op = .or then ∃ τ : Asg, (∀ v, v ∉ vs → τ v = σ v) ∧ g τ else ∀ τ : Asg, (∀ v, v ∉ vs → τ v = σ v) → g τ

/-- Never aborted by the handler. -/
def NoAb {α : Type} (r : BR α) : Prop := ∀ s, r ≠ some (none, s)

theorem NoAb.bseq {α β : Type} {r : BR α} {g : α → BSt → BR β} (h : NoAb r) (hg : ∀ a s, NoAb (g a s)) : NoAb (bseq r g) := fun s e => by
  unfold Bdd.bseq at e
  split at e
  · cases e
  · exact h _ rfl
  · exact hg _ _ _ e

theorem noAb_map {α β : Type} {o : Option β} {g : β → α × BSt} : NoAb (o.map fun b => (some (g b).1, (g b).2)) := fun s e => by
  cases o <;> simp at e

theorem noAb_bind {α β : Type} {o : Option β} {g : β → BR α} (h : ∀ b, NoAb (g b)) : NoAb (o.bind g) := fun s e => by
  cases o with
  | none => cases e
  | some b => exact h b s e

theorem noAb_add (x : Nat) (s : BSt) : NoAb (addRefH nop x s) := fun s' e => by
  unfold addRefH nop at e
  simp only [Bool.false_eq_true, if_false] at e
  cases h : s.k.addRef x <;> rw [h] at e <;> simp at e

theorem noAb_kop {α : Type} (g : Kernel Var → Option (α × Kernel Var)) (s : BSt) : NoAb (kop g s) := fun s' e => by
  unfold kop at e
  cases h : g s.k <;> rw [h] at e <;> simp at e

theorem noAb_binop (op : Opr) (a b : Nat) (s : BSt) : NoAb (binop nop op a b s) :=
  (noAb_kop _ s).bseq fun n s => (noAb_add n s).bseq fun r s => noAb_bind fun k s' e => by
    cases h : k.delRef b <;> rw [h] at e <;> simp at e

theorem noAb_lit (l : Lit) (s : BSt) : NoAb (buildLit l s) := noAb_bind fun p s' e => by
  cases h : (if l.pos then p.2.ithVar p.1 else p.2.nithVar p.1) <;> rw [h] at e <;> simp at e

theorem noAb_buildL {con : Formula → BSt → BR Nat} {o : Op} : ∀ {fs : List Formula} (acc : Nat) (s : BSt), (∀ f ∈ fs, ∀ s, NoAb (buildG con nop f s)) → NoAb (buildL con nop o fs acc s)
  | [], acc, s, _ => by unfold buildL; intro s' e; cases e
  | f :: fs, acc, s, h => by
    unfold buildL
    exact (h f (by simp) s).bseq fun b s => (noAb_binop _ _ _ _).bseq fun r s => noAb_buildL r s fun g hg => h g (by simp [hg])

theorem noAb_buildG {con : Formula → BSt → BR Nat} (hc : ∀ f s, NoAb (con f s)) (f : Formula) : ∀ s, NoAb (buildG con nop f s) := by
  induction f using Formula.ind with
  | tru => intro s s' e; simp [buildG] at e
  | fls => intro s s' e; simp [buildG] at e
  | lit l => intro s; unfold buildG; exact noAb_lit l s
  | not f ih =>
    intro s; unfold buildG
    exact (ih s).bseq fun a s => (noAb_kop _ s).bseq fun n s => (noAb_add n s).bseq fun r s s' e => by
      cases h : s.k.delRef a <;> rw [h] at e <;> simp at e
  | impl l r hl hr => intro s; unfold buildG; exact (hl s).bseq fun a s => (hr s).bseq fun b s => noAb_binop _ _ _ _
  | equiv l r hl hr => intro s; unfold buildG; exact (hl s).bseq fun a s => (hr s).bseq fun b s => noAb_binop _ _ _ _
  | nary o fs ih =>
    intro s; unfold buildG
    cases fs with
    | nil => unfold buildN; intro s' e; cases e
    | cons f fs =>
      unfold buildN
      exact (ih f (by simp) s).bseq fun a s => noAb_buildL a s fun g hg => ih g (by simp [hg])
  | cc c => intro s; unfold buildG; exact hc _ s
  | pbc p => intro s; unfold buildG; exact hc _ s

theorem noAb_build (C : Canon) (cfg : FCfg) (f : Formula) (s : BSt) : NoAb (build C cfg nop f s) :=
  noAb_buildG (con := buildCon C cfg nop) (fun f s => by
    unfold buildCon
    exact noAb_bind fun p => noAb_buildG (con := fun _ _ => none) (fun f s s' e => by cases e) p.1 _) f s

section
variable {c0 : AuxTy → Nat} {C : Canon} {cfg : FCfg}

/-- There is no room for these variables in the kernel. -/
def Full' (k : Kernel Var) (xs : List Var) : Prop := ∀ vs : List Var, (∀ v ∈ k.idx, v ∈ vs) → (∀ v ∈ xs, v ∈ vs) → ¬ vs.length ≤ k.varnum

/-- Outcome of an operation on a handle. -/
def HOut (c0 : AuxTy → Nat) (H : List Nat) (s : BSt) (E : List Ent) (P g : Asg → Prop) (panics : Prop) (r : BR Nat) : Prop :=
  (r = none ∧ panics) ∨ ∃ x s' E', r = some (some x, s') ∧ Pub s'.k H ∧ Step c0 False [] H s E s' E' ∧ RepF s'.k x P g

theorem build_nop (hcfg : cfg.cc.Good) {f : Formula} {H : List Nat} {s : BSt} {E : List Ent} (ht : PTop cfg s.w.cnt f) (hp : Pub s.k H) (hw : WInv c0 s.w E) :
    (build C cfg nop f s = none ∧ ∀ xs, (∀ v, Occ v f → v ∈ xs) → NoCon f → Full' s.k xs) ∨
    ∃ x s' E', build C cfg nop f s = some (some x, s') ∧ Pub s'.k (x :: H) ∧ Step c0 False [] H s E s' E' ∧ Rep s'.k E' x f := by
  cases hb : build C cfg nop f s with
  | none =>
    refine .inl ⟨rfl, fun xs hx hn vs h1 h2 hlen => ?_⟩
    rcases build_ok (room := True) (vs := vs) (C := C) hcfg nop ht hp hw (fun _ => h1) fun _ => ⟨hlen, hn, fun v hv => h2 v (hx v hv)⟩ with ⟨_, h⟩ | ⟨s', E', e, _⟩ | ⟨x, s', E', e, _⟩
    · exact h trivial
    · rw [hb] at e; cases e
    · rw [hb] at e; cases e
  | some p =>
    rcases build_ok (room := False) (vs := []) (C := C) hcfg nop ht hp hw (fun h => h.elim) fun h => h.elim with ⟨e, _⟩ | ⟨s', E', e, _⟩ | ⟨x, s', E', e, h⟩
    · rw [hb] at e; cases e
    · exact (noAb_build C cfg f s s' e).elim
    · exact .inr ⟨x, s', E', by rw [← hb]; exact e, h⟩

theorem fromLits_ok (hcfg : cfg.cc.Good) {ls : List Lit} {H : List Nat} {s : BSt} {E : List Ent} (ho : ∀ l ∈ ls, (cER s.w.cnt).Old l.v) (hp : Pub s.k H) (hw : WInv c0 s.w E) :
    (fromLits C cfg ls s = none ∧ Full' s.k (ls.map (·.v))) ∨
    ∃ x s' E', fromLits C cfg ls s = some (some x, s') ∧ Pub s'.k (x :: H) ∧ Step c0 False [] H s E s' E' ∧ Rep s'.k E' x (Formula.mkAnd C (ls.map .lit)) := by
  have hocc : ∀ v, Occ v (Formula.mkAnd C (ls.map .lit)) → ∃ l ∈ ls, l.v = v := fun v hv => by
    obtain ⟨f, hf, hv⟩ := Formula.occ_mkNary hv
    obtain ⟨l, hl, rfl⟩ := List.mem_map.1 hf
    cases hv
    exact ⟨_, hl, rfl⟩
  rcases build_nop (C := C) (f := Formula.mkAnd C (ls.map .lit)) hcfg ⟨Formula.norm_mkNary C _ fun f hf => by obtain ⟨l, _, rfl⟩ := List.mem_map.1 hf; exact .lit l, fit_noCon (noCon_lits C ls), fun v hv => by obtain ⟨l, hl, rfl⟩ := hocc v hv; exact ho l hl⟩ hp hw with ⟨e, h⟩ | h
  · exact .inl ⟨e, h _ (fun v hv => by obtain ⟨l, hl, rfl⟩ := hocc v hv; exact List.mem_map.2 ⟨l, hl, rfl⟩) (noCon_lits C ls)⟩
  · exact .inr h

/-- `Bdd::restrict`. -/
theorem restrictH_ok (hcfg : cfg.cc.Good) {ls : List Lit} {H : List Nat} {s : BSt} {E : List Ent} (ho : ∀ l ∈ ls, (cER s.w.cnt).Old l.v) (hp : Pub s.k H) (hw : WInv c0 s.w E) (hc : Consist ls) {r : Nat} (hr : r < 2 ∨ r ∈ H) {P g : Asg → Prop} (hf : RepF s.k r P g) :
    HOut c0 H s E (fun σ => P (fixL ls σ)) (fun σ => g (fixL ls σ)) (Full' s.k (ls.map (·.v))) (restrictH C cfg r ls s) := by
  unfold restrictH
  rcases fromLits_ok (C := C) (cfg := cfg) hcfg ho hp hw with ⟨e, h⟩ | ⟨x, s1, E1, e, p1, st1, r1⟩
  · rw [e]; exact .inl ⟨rfl, h⟩
  rw [e]
  obtain ⟨hreg, tv, dv, ov', c1, _⟩ := lits_tree p1 hc r1
  obtain ⟨F, ⟨t, d, o, ef⟩, lF, hF⟩ := hf
  have d1 := st1.adv.den r hr t d
  have o1 : BT.Ord s1.k.varnum 0 t := by rw [st1.adv.varnum]; exact o
  obtain ⟨y, k2, e2, hk2, ⟨t2, d2, o2, v2⟩, q1, q2, q3, q4, _, q5, q6⟩ := restrict_ok' p1.toKInv d1 o1 (p1.prot (hr.imp id fun h => by simp [h])) dv ov' (p1.prot (.inr (by simp))) (by have := p1.capEq; have := p1.stkLen; omega)
  obtain ⟨p2, a2⟩ := p1.exact hk2 q1 q2 q3 q4 q5 q6
  refine .inr ⟨y, { s1 with k := k2 }, E1, by simp [bseq, kop, e2], p2.tail, st1.trans ⟨a2.sub fun n hn => by simp [hn], st1.winv, GExt.refl _ _, fun h => h.elim⟩, fun ρ => F (ov tv.slits ρ), ⟨t2, d2, o2, fun ρ => by rw [v2]; exact ef _⟩, ?_, fun ρ σ hg hP => ?_⟩
  · show Lv k2.idx.length _
    rw [q4]
    intro ρ ρ' h
    refine lF _ _ fun i hi => ?_
    unfold ov
    have := st1.adv.idx.length_le
    rw [h i (by omega)]
  · have hg : Agr s1.k.idx ρ σ := by have hg : Agr k2.idx ρ σ := hg; rw [q4] at hg; exact hg
    exact hF _ _ ((ov_lit c1 hg).prefix st1.adv.idx) hP

theorem mem_litLv {idx : List Var} {vs : List Var} {i : Nat} : litLv idx (vs.map fun v => ⟨v, true⟩) i = some true ↔ ∃ v, idx[i]? = some v ∧ v ∈ vs := by
  unfold litLv
  cases h : idx[i]? with
  | none => simp
  | some v =>
    simp only [Option.bind_some, Option.some.injEq, exists_eq_left']
    have h1 : ((⟨v, true⟩ : Lit) ∈ vs.map fun v => (⟨v, true⟩ : Lit)) ↔ v ∈ vs := by simp
    have h2 : (⟨v, false⟩ : Lit) ∉ vs.map fun v => (⟨v, true⟩ : Lit) := by simp
    rw [if_neg h2]
    by_cases hv : v ∈ vs
    · rw [if_pos (h1.2 hv)]; simp [hv]
    · rw [if_neg (fun h => hv (h1.1 h))]; simp [hv]

/-- `Bdd::exists` and `Bdd::for_all`. -/
theorem quantH_ok (hcfg : cfg.cc.Good) {op : Opr} (hop : op = .or ∨ op = .and) {vs : List Var} {H : List Nat} {s : BSt} {E : List Ent} (ho : ∀ v ∈ vs, (cER s.w.cnt).Old v) (hp : Pub s.k H) (hw : WInv c0 s.w E) {r : Nat} (hr : r < 2 ∨ r ∈ H) {P g : Asg → Prop} (hf : RepF s.k r P g) :
    HOut c0 H s E (fun σ => ∀ τ : Asg, (∀ v, v ∉ vs → τ v = σ v) → P τ) (QuantA op vs g) (Full' s.k vs) (if op = .or then existsH C cfg r vs s else forAllH C cfg r vs s) := by
  have hc : Consist (vs.map fun v => (⟨v, true⟩ : Lit)) := fun v h => by simp at h
  have hquant : (if op = .or then existsH C cfg r vs s else forAllH C cfg r vs s) = bseq (fromLits C cfg (vs.map fun v => ⟨v, true⟩) s) fun x s => kop (fun k => if x < 2 then some (r, k) else (k.varset2vartable x).bind fun k => Kernel.quantRec op (if op = .or then x * 8 else x * 8 + 1) (k.varnum + 1) r k) s := by
    rcases hop with rfl | rfl
    · rfl
    · rfl
  rw [hquant]
  rcases fromLits_ok (C := C) (cfg := cfg) (ls := vs.map fun v => ⟨v, true⟩) hcfg (fun l hl => by obtain ⟨v, hv, rfl⟩ := List.mem_map.1 hl; exact ho v hv) hp hw with ⟨e, h⟩ | ⟨x, s1, E1, e, p1, st1, r1⟩
  · rw [e]
    refine .inl ⟨rfl, fun ws h1 h2 => h ws h1 fun v hv => h2 v ?_⟩
    simpa using hv
  rw [e]
  obtain ⟨hreg, tv, dv, ov', _, c2⟩ := lits_tree p1 hc r1
  have hS : ∀ i, i ∈ tv.hiLevels ↔ ∃ v, s1.k.idx[i]? = some v ∧ v ∈ vs := fun i => by rw [c2 (by simp) i, mem_litLv]
  obtain ⟨F, ⟨t, d, o, ef⟩, lF, hF⟩ := hf
  have d1 := st1.adv.den r hr t d
  have o1 : BT.Ord s1.k.varnum 0 t := by rw [st1.adv.varnum]; exact o
  have hid : QId op x (if op = .or then x * 8 else x * 8 + 1) := by
    rcases hop with rfl | rfl
    · exact .inl ⟨rfl, by simp⟩
    · exact .inr ⟨rfl, by simp⟩
  obtain ⟨y, k2, e2, hk2, ⟨t2, d2, o2, v2⟩, q1, q2, q3, q4, _, q5, q6⟩ := quant_ok' p1.toKInv hid d1 o1 (p1.prot (hr.imp id fun h => by simp [h])) dv ov' (p1.prot (.inr (by simp))) (by have := p1.capEq; have := p1.stkLen; omega)
  obtain ⟨p2, a2⟩ := p1.exact hk2 q1 q2 q3 q4 q5 q6
  refine .inr ⟨y, { s1 with k := k2 }, E1, by simp only [bseq, kop, e2, Option.map_some], p2.tail, st1.trans ⟨a2.sub fun n hn => by simp [hn], st1.winv, GExt.refl _ _, fun h => h.elim⟩, qF op tv.hiLevels (fun ρ => t.eval ρ), ⟨t2, d2, o2, v2⟩, ?_, fun ρ σ hg hP => ?_⟩
  · show Lv k2.idx.length _
    rw [q4]
    have lt : Lv s1.k.idx.length fun ρ => t.eval ρ := fun ρ ρ' h => by show t.eval ρ = t.eval ρ'; rw [ef, ef]; exact lF ρ ρ' fun i hi => h i (by have := st1.adv.idx.length_le; omega)
    -- replace the levels that do not matter
    have swap : ∀ ρ ρ' τ : Nat → Bool, (∀ i, i < s1.k.idx.length → ρ i = ρ' i) → (∀ v, v ∉ tv.hiLevels → τ v = ρ v) → ∃ τ' : Nat → Bool, (∀ v, v ∉ tv.hiLevels → τ' v = ρ' v) ∧ t.eval τ' = t.eval τ := fun ρ ρ' τ h hτ => by
      refine ⟨fun i => if i < s1.k.idx.length then τ i else ρ' i, fun v hv => ?_, lt _ _ fun i hi => by simp [hi]⟩
      by_cases hlt : v < s1.k.idx.length
      · simp only [hlt, if_true]; rw [hτ v hv, h v hlt]
      · simp only [hlt, if_false]
    have half : ∀ ρ ρ', (∀ i, i < s1.k.idx.length → ρ i = ρ' i) → qF op tv.hiLevels (fun ρ => t.eval ρ) ρ = true → qF op tv.hiLevels (fun ρ => t.eval ρ) ρ' = true := fun ρ ρ' h => by
      unfold qF
      rcases hop with rfl | rfl
      · simp only [exF_iff]
        rintro ⟨τ, a, b⟩
        obtain ⟨τ', a', b'⟩ := swap ρ ρ' τ h a
        exact ⟨τ', a', by show t.eval τ' = true; rw [b']; exact b⟩
      · simp only [faF_iff]
        intro g τ a
        obtain ⟨τ', a', b'⟩ := swap ρ' ρ τ (fun i hi => (h i hi).symm) a
        have := g τ' a'
        show t.eval τ = true
        rw [← b']; exact this
    intro ρ ρ' h
    rw [Bool.eq_iff_iff]
    exact ⟨half ρ ρ' h, half ρ' ρ fun i hi => (h i hi).symm⟩
  · have hg : Agr s1.k.idx ρ σ := by have hg : Agr k2.idx ρ σ := hg; rw [q4] at hg; exact hg
    have nd := p1.idxNd
    -- valuations and assignments that differ on the quantified variables
    have down : ∀ τ' : Nat → Bool, (∀ i, i ∉ tv.hiLevels → τ' i = ρ i) → ∃ τ : Asg, (∀ v, v ∉ vs → τ v = σ v) ∧ Agr s1.k.idx τ' τ := fun τ' h => by
      refine ⟨asgOf s1.k.idx τ' σ, fun v hv => ?_, agr_asgOf nd _ _⟩
      unfold asgOf
      by_cases hm : v ∈ s1.k.idx
      · have hi : s1.k.idx[s1.k.idx.idxOf v]? = some v := by
          have := List.idxOf_lt_length_iff.2 hm
          rw [List.getElem?_eq_getElem this, List.getElem_idxOf]
        rw [if_pos hm, h _ fun hh => ?_, hg _ _ hi]
        obtain ⟨w, e1, e2⟩ := (hS _).1 hh
        rw [hi] at e1; cases e1
        exact hv e2
      · rw [if_neg hm]
    have up : ∀ τ : Asg, (∀ v, v ∉ vs → τ v = σ v) → ∃ τ' : Nat → Bool, (∀ i, i ∉ tv.hiLevels → τ' i = ρ i) ∧ Agr s1.k.idx τ' τ := fun τ h => by
      refine ⟨valOf s1.k.idx τ ρ, fun i hi => ?_, agr_valOf _ _ _⟩
      unfold valOf
      cases hx : s1.k.idx[i]? with
      | none => rfl
      | some v =>
        show τ v = ρ i
        rw [h v fun hv => hi ((hS i).2 ⟨v, hx, hv⟩), hg i v hx]
    have val : ∀ τ' τ, Agr s1.k.idx τ' τ → (∀ v, v ∉ vs → τ v = σ v) → (t.eval τ' = true ↔ g τ) := fun τ' τ ha hv => by
      rw [ef]; exact hF τ' τ (ha.prefix st1.adv.idx) (hP τ hv)
    unfold qF QuantA
    rcases hop with rfl | rfl
    · simp only [exF_iff, if_true]
      constructor
      · rintro ⟨τ', a, b⟩
        obtain ⟨τ, a', ag⟩ := down τ' a
        exact ⟨τ, a', (val τ' τ ag a').1 b⟩
      · rintro ⟨τ, a, b⟩
        obtain ⟨τ', a', ag⟩ := up τ a
        exact ⟨τ', a', (val τ' τ ag a).2 b⟩
    · rw [if_neg (by decide)]
      simp only [faF_iff]
      constructor
      · intro h τ a
        obtain ⟨τ', a', ag⟩ := up τ a
        exact (val τ' τ ag a).1 (h τ' a')
      · intro h τ' a
        obtain ⟨τ, a', ag⟩ := down τ' a
        exact (val τ' τ ag a').2 (h τ a')

end
end Bdd
end Verif
