import Verif.Bdd.New
import Verif.F.CnfAlg
/-
Building a BDD from a formula (src/knowledge_compilation/bdd/bdd_main.rs).
-/
namespace Verif
namespace Bdd
open ER

/-- Kernel, formula factory, and the number of references the handler has
seen. -/
structure BSt where
  k : Kernel Var
  w : World
  refs : Nat

/-- Result of a computation that may panic (`none`) or be aborted by the
handler (`some (none, _)`). -/
abbrev BR (α : Type) := Option (Option α × BSt)

/-- The `?` operator. -/
def bseq {α β : Type} (r : BR α) (g : α → BSt → BR β) : BR β :=
  match r with
  | none => none
  | some (none, s) => some (none, s)
  | some (some a, s) => g a s

/-- An operation of the kernel. -/
def kop {α : Type} (g : Kernel Var → Option (α × Kernel Var)) (s : BSt) : BR α := (g s.k).map fun p => (some p.1, { s with k := p.2 })

/-- `add_ref` with a handler, bdd_kernel.rs 203-214.  The handler is told the
number of references so far and decides whether to abort: `NopBddHandler`
never, `NumberOfNodesBddHandler` when the bound is reached
(bdd_handler.rs 21, 38-43). -/
def addRefH (h : Nat → Bool) (x : Nat) (s : BSt) : BR Nat :=
  if h (s.refs + 1) then some (none, { s with refs := s.refs + 1 })
  else (s.k.addRef x).map fun k => (some x, { s with k := k, refs := s.refs + 1 })

/-- Two operands replaced by the result (bdd_main.rs 189-194, 201-205). -/
def binop (h : Nat → Bool) (op : Opr) (a b : Nat) (s : BSt) : BR Nat :=
  bseq (kop (fun k => k.apply op a b) s) fun n s =>
  bseq (addRefH h n s) fun r s =>
  (s.k.delRef a).bind fun k => (k.delRef b).map fun k => (some r, { s with k := k })

/-- bdd_main.rs 175-178. -/
def buildLit (l : Lit) (s : BSt) : BR Nat :=
  (s.k.varIndex l.v).bind fun p => (if l.pos then p.2.ithVar p.1 else p.2.nithVar p.1).map fun x => (some x, { s with k := p.2 })

mutual
/-- `build_rec`, bdd_main.rs 170-211; `con` is the treatment of constraints. -/
def buildG (con : Formula → BSt → BR Nat) (h : Nat → Bool) : Formula → BSt → BR Nat
  | .fls, s => some (some 0, s)
  | .tru, s => some (some 1, s)
  | .lit l, s => buildLit l s
  | .not f, s =>
    bseq (buildG con h f s) fun a s =>
    bseq (kop (fun k => k.not a) s) fun n s =>
    bseq (addRefH h n s) fun r s =>
    (s.k.delRef a).map fun k => (some r, { s with k := k })
  | .impl l r, s => bseq (buildG con h l s) fun a s => bseq (buildG con h r s) fun b s => binop h .imp a b s
  | .equiv l r, s => bseq (buildG con h l s) fun a s => bseq (buildG con h r s) fun b s => binop h .equiv a b s
  | .nary o fs, s => buildN con h o fs s
  | .cc c, s => con (.cc c) s
  | .pbc p, s => con (.pbc p) s
/-- Line 198. -/
def buildN (con : Formula → BSt → BR Nat) (h : Nat → Bool) (o : Op) : List Formula → BSt → BR Nat
  | [], _ => none
  | f :: fs, s => bseq (buildG con h f s) fun a s => buildL con h o fs a s
/-- Lines 199-206. -/
def buildL (con : Formula → BSt → BR Nat) (h : Nat → Bool) (o : Op) : List Formula → Nat → BSt → BR Nat
  | [], acc, s => some (some acc, s)
  | f :: fs, acc, s => bseq (buildG con h f s) fun b s => bseq (binop h (match o with | .conj => .and | .disj => .or) acc b s) fun r s => buildL con h o fs r s
end

/-- Line 209; the negation normal form contains no further constraint. -/
def buildCon (C : Canon) (cfg : FCfg) (h : Nat → Bool) (f : Formula) (s : BSt) : BR Nat :=
  (nnf C cfg f s.w).bind fun p => buildG (fun _ _ => none) h p.1 { s with w := p.2 }

/-- `build_rec`. -/
def build (C : Canon) (cfg : FCfg) (h : Nat → Bool) (f : Formula) (s : BSt) : BR Nat := buildG (buildCon C cfg h) h f s

/-! ### Meaning of an index as a formula -/

/-- A valuation of the levels agrees with an assignment of the registered
variables. -/
def Agr (idx : List Var) (ρ : Nat → Bool) (σ : Asg) : Prop := ∀ (i : Nat) (v : Var), idx[i]? = some v → ρ i = σ v

/-- A function of the first `m` levels. -/
def Lv (m : Nat) (F : (Nat → Bool) → Bool) : Prop := ∀ ρ ρ', (∀ i, i < m → ρ i = ρ' i) → F ρ = F ρ'

theorem Lv.mono {m n : Nat} {F : (Nat → Bool) → Bool} (h : Lv m F) (hm : m ≤ n) : Lv n F := fun ρ ρ' e => h ρ ρ' fun i hi => e i (by omega)

/-- Index `n` represents `f`: without constraints exactly; with constraints,
if the auxiliary variables are as intended.  The variables of a formula without constraints are registered. -/
def Rep (k : Kernel Var) (E : List Ent) (n : Nat) (f : Formula) : Prop :=
  ∃ F, Is k n F ∧ Lv k.idx.length F ∧ (NoCon f → ∀ v, Occ v f → v ∈ k.idx) ∧ ∀ ρ σ, Agr k.idx ρ σ → EncOk E σ ∨ NoCon f → F ρ = f.eval σ

theorem Agr.prefix {i j : List Var} (h : i <+: j) {ρ : Nat → Bool} {σ : Asg} (ha : Agr j ρ σ) : Agr i ρ σ := fun n v hv => by
  obtain ⟨t, rfl⟩ := h
  have hlt : n < i.length := by
    rcases Nat.lt_or_ge n i.length with h | h
    · exact h
    · rw [List.getElem?_eq_none h] at hv; cases hv
  exact ha n v (by rw [List.getElem?_append_left hlt]; exact hv)

theorem Rep.adv {k k' : Kernel Var} {H : List Nat} {c c' : AuxTy → Nat} {E E' : List Ent} {n : Nat} {f : Formula} (h : Rep k E n f) (ha : Adv H k k') (hn : n < 2 ∨ n ∈ H) (hx : GExt c E c' E') : Rep k' E' n f := by
  obtain ⟨F, ⟨t, d, o, e⟩, lF, rF, hF⟩ := h
  exact ⟨F, ⟨t, ha.den n hn t d, by rw [ha.varnum]; exact o, e⟩, lF.mono ha.idx.length_le, fun hn v hv => ha.idx.subset (rF hn v hv), fun ρ σ hg he => hF ρ σ (hg.prefix ha.idx) (he.imp hx.ok id)⟩

/-- All handles stay valid. -/
structure Step (c0 : AuxTy → Nat) (room : Prop) (vs : List Var) (H : List Nat) (s : BSt) (E : List Ent) (s' : BSt) (E' : List Ent) : Prop where
  adv : Adv H s.k s'.k
  winv : WInv c0 s'.w E'
  gext : GExt s.w.cnt E s'.w.cnt E'
  vars : room → ∀ v ∈ s'.k.idx, v ∈ vs

/-- Outcome of building `f`: `room` says that there are enough variables. -/
def BOut (c0 : AuxTy → Nat) (room : Prop) (vs : List Var) (H : List Nat) (s : BSt) (E : List Ent) (f : Formula) (r : BR Nat) : Prop :=
  (r = none ∧ ¬ room) ∨
  (∃ s' E', r = some (none, s') ∧ Pub s'.k H ∧ Step c0 room vs H s E s' E') ∨
  (∃ x s' E', r = some (some x, s') ∧ Pub s'.k (x :: H) ∧ Step c0 room vs H s E s' E' ∧ Rep s'.k E' x f)

section
variable {c0 : AuxTy → Nat} {room : Prop} {vs : List Var}

theorem Step.rfl {H : List Nat} {s : BSt} {E : List Ent} (hw : WInv c0 s.w E) (hv : room → ∀ v ∈ s.k.idx, v ∈ vs) : Step c0 room vs H s E s E := ⟨.rfl, hw, GExt.refl _ _, hv⟩
theorem Step.trans {H : List Nat} {s1 s2 s3 : BSt} {E1 E2 E3 : List Ent} (h1 : Step c0 room vs H s1 E1 s2 E2) (h2 : Step c0 room vs H s2 E2 s3 E3) : Step c0 room vs H s1 E1 s3 E3 :=
  ⟨h1.adv.trans h2.adv, h2.winv, h1.gext.trans h2.gext, h2.vars⟩
theorem Step.sub {H H' : List Nat} {s1 s2 : BSt} {E1 E2 : List Ent} (h1 : Step c0 room vs H s1 E1 s2 E2) (hs : ∀ n ∈ H', n ∈ H) : Step c0 room vs H' s1 E1 s2 E2 :=
  ⟨h1.adv.sub hs, h1.winv, h1.gext, h1.vars⟩

theorem Pub.perm {k : Kernel V} {H H' : List Nat} (h : Pub k H) (hp : H.Perm H') : Pub k H' :=
  { h with rc := fun n hn h2 => by rw [← hp.count_eq]; exact h.rc n (hp.mem_iff.2 hn) h2 }

theorem Pub.tail {k : Kernel V} {H : List Nat} {n : Nat} (h : Pub k (n :: H)) : Pub k H :=
  { h with rc := fun m hm h2 => (h.rc m (List.mem_cons_of_mem _ hm) h2).imp id fun e => Nat.le_trans (List.Sublist.count_le m (List.sublist_cons_self n H)) e }

theorem Pub.const {k : Kernel V} {H : List Nat} {n : Nat} (h : Pub k H) (hn : n < 2) : Pub k (n :: H) := by
  refine { h with rc := fun m hm h2 => ?_ }
  rcases List.mem_cons.1 hm with rfl | hm'
  · omega
  · rw [List.count_cons_of_ne (by omega)]; exact h.rc m hm' h2

theorem delRef_perm {k : Kernel V} {H H' : List Nat} (h : Pub k H) {n : Nat} {t : BT} (hp : H.Perm (n :: H')) (hd : Den k n t) : ∃ k', k.delRef n = some k' ∧ Pub k' H' ∧ (∀ m t, Den k m t → Den k' m t) ∧ k'.varnum = k.varnum ∧ k'.idx = k.idx := by
  have hn : n ∈ H := hp.mem_iff.2 List.mem_cons_self
  obtain ⟨k', e, hp', r⟩ := delRef_ok h hn hd
  refine ⟨k', e, hp'.perm ?_, r⟩
  exact List.Perm.cons_inv ((List.perm_cons_erase hn).symm.trans hp)

theorem apply_pub {k : Kernel V} {H : List Nat} (h : Pub k H) (op : Opr) {a b : Nat} {F G : (Nat → Bool) → Bool} (ha : a < 2 ∨ a ∈ H) (hb : b < 2 ∨ b ∈ H) (sa : Is k a F) (sb : Is k b G) :
    ∃ x k', k.apply op a b = some (x, k') ∧ Pub k' H ∧ Adv H k k' ∧ k'.idx = k.idx ∧ Is k' x fun ρ => op.fn (F ρ) (G ρ) := by
  obtain ⟨p0, a0⟩ := h.initRef
  obtain ⟨ta, da, oa, ea⟩ := sa
  obtain ⟨tb, db, ob, eb⟩ := sb
  have oa' : BT.Ord k.initRef.varnum 0 ta := oa
  have ob' : BT.Ord k.initRef.varnum 0 tb := ob
  obtain ⟨x, k', e, hk, hkeep, hs⟩ := applyRec_ok op (2 * k.varnum + 1) k.initRef a b 0 ta tb p0.toKInv (a0.den a ha _ da) (a0.den b hb _ db) oa' ob' (p0.prot ha) (p0.prot hb)
    (by have := oa.depth_le (Nat.zero_le _); have := ob.depth_le (Nat.zero_le _); omega)
    (by have := p0.capEq; have : k.initRef.stack.length = 0 := rfl; omega)
  obtain ⟨p1, a1⟩ := p0.keep hk hkeep
  exact ⟨x, k', e, p1, a0.trans a1, hkeep.idx, hs.congr fun σ => by rw [ea, eb]⟩

theorem not_pub {k : Kernel V} {H : List Nat} (h : Pub k H) {a : Nat} {F : (Nat → Bool) → Bool} (ha : a < 2 ∨ a ∈ H) (sa : Is k a F) :
    ∃ x k', k.not a = some (x, k') ∧ Pub k' H ∧ Adv H k k' ∧ k'.idx = k.idx ∧ Is k' x fun ρ => !F ρ := by
  obtain ⟨ta, da, oa, ea⟩ := sa
  obtain ⟨x, k', e, hk, hkeep, hs⟩ := notRec_ok (k.varnum + 1) k a 0 ta h.toKInv da oa (h.prot ha)
    (by have := oa.depth_le (Nat.zero_le _); omega) (by have := h.capEq; have := h.stkLen; omega)
  obtain ⟨p1, a1⟩ := h.keep hk hkeep
  exact ⟨x, k', e, p1, a1, hkeep.idx, hs.congr fun σ => by rw [ea]⟩

/-- The state with another kernel. -/
theorem Step.kernel {H : List Nat} {s : BSt} {E : List Ent} (hw : WInv c0 s.w E) (hv : room → ∀ v ∈ s.k.idx, v ∈ vs) {k' : Kernel Var} {n : Nat} (ha : Adv H s.k k') (hi : k'.idx = s.k.idx) :
    Step c0 room vs H s E { s with k := k', refs := n } E := ⟨ha, hw, GExt.refl _ _, fun r => by show ∀ v ∈ k'.idx, _; rw [hi]; exact hv r⟩

theorem binop_ok {h : Nat → Bool} {op : Opr} {a b : Nat} {s : BSt} {E : List Ent} {H : List Nat} {fa fb f : Formula} (hp : Pub s.k (b :: a :: H)) (hw : WInv c0 s.w E) (hv : room → ∀ v ∈ s.k.idx, v ∈ vs)
    (ra : Rep s.k E a fa) (rb : Rep s.k E b fb) (hn : NoCon f → NoCon fa ∧ NoCon fb) (hocc : ∀ v, Occ v f → Occ v fa ∨ Occ v fb) (he : ∀ σ, f.eval σ = op.fn (fa.eval σ) (fb.eval σ)) :
    BOut c0 room vs H s E f (binop h op a b s) := by
  obtain ⟨F, sF, lF, rF, hF⟩ := ra
  obtain ⟨G, sG, lG, rG, hG⟩ := rb
  obtain ⟨x, k1, e1, p1, a1, i1, s1⟩ := apply_pub hp op (a := a) (b := b) (.inr (by simp)) (.inr (by simp)) sF sG
  unfold binop bseq kop
  simp only [e1, Option.map_some]
  unfold addRefH
  by_cases hab : h (s.refs + 1)
  · simp only [hab, if_true]
    exact .inr (.inl ⟨_, E, rfl, p1.tail.tail, (Step.kernel hw hv a1 i1).sub fun n hn => by simp [hn]⟩)
  · have hab' : h (s.refs + 1) = false := by simpa using hab
    obtain ⟨t1, d1, o1, v1⟩ := s1
    obtain ⟨k2, e2, p2, x2, n2, i2⟩ := addRef_ok p1 d1
    simp only [hab', Bool.false_eq_true, if_false, e2, Option.map_some]
    obtain ⟨ta, da, oa, va⟩ := sF
    obtain ⟨tb, db, ob, vb⟩ := sG
    have da2 := x2 _ _ (a1.den a (.inr (by simp)) _ da)
    obtain ⟨k3, e3, p3, x3, n3, i3⟩ := delRef_perm (H' := x :: b :: H) p2 (by
      refine (List.Perm.cons x (List.Perm.swap a b H)).trans ?_
      exact List.Perm.swap a x (b :: H)) da2
    have db3 := x3 _ _ (x2 _ _ (a1.den b (.inr (by simp)) _ db))
    obtain ⟨k4, e4, p4, x4, n4, i4⟩ := delRef_perm (H' := x :: H) p3 (List.Perm.swap b x H) db3
    simp only [e3, Option.bind_some, e4, Option.map_some]
    have hadv : Adv H s.k k4 := ⟨by rw [n4, n3, n2, a1.varnum], by rw [i4, i3, i2, i1]; exact List.prefix_rfl, fun n hn t hd => x4 _ _ (x3 _ _ (x2 _ _ (a1.den n (hn.imp id fun h => by simp [h]) t hd)))⟩
    refine .inr (.inr ⟨x, _, E, rfl, p4, Step.kernel hw hv hadv (by rw [i4, i3, i2, i1]), ?_⟩)
    refine ⟨fun ρ => op.fn (F ρ) (G ρ), ⟨t1, x4 _ _ (x3 _ _ (x2 _ _ d1)), by show BT.Ord k4.varnum 0 t1; rw [n4, n3, n2]; exact o1, v1⟩, ?_, fun hc v hv => ?_, fun ρ σ hg hc => ?_⟩
    · show Lv k4.idx.length _
      rw [i4, i3, i2, i1]
      exact fun ρ ρ' e => by simp only [lF ρ ρ' e, lG ρ ρ' e]
    · show v ∈ k4.idx
      rw [i4, i3, i2, i1]
      exact (hocc v hv).elim (rF (hn hc).1 v) (rG (hn hc).2 v)
    have hg' : Agr s.k.idx ρ σ := by have hg : Agr k4.idx ρ σ := hg; rw [i4, i3, i2, i1] at hg; exact hg
    show op.fn (F ρ) (G ρ) = _
    rw [he, hF ρ σ hg' (hc.imp id fun h => (hn h).1), hG ρ σ hg' (hc.imp id fun h => (hn h).2)]

/-- Enough variables for `f`. -/
structure Room (k : Kernel Var) (vs : List Var) (f : Formula) : Prop where
  len : vs.length ≤ k.varnum
  noCon : NoCon f
  occ : ∀ v, Occ v f → v ∈ vs

theorem Room.sub {k k' : Kernel Var} {f g : Formula} (h : Room k vs f) (hk : k'.varnum = k.varnum) (hs : Sub g f) : Room k' vs g :=
  ⟨by rw [hk]; exact h.len, h.noCon.sub hs, fun v hv => h.occ v (hv.sub hs)⟩

theorem varIndex_ok {k : Kernel Var} {H : List Nat} (hp : Pub k H) (x : Var) : (k.varIndex x = none ∧ x ∉ k.idx ∧ k.varnum ≤ k.idx.length) ∨
    ∃ i k', k.varIndex x = some (i, k') ∧ Pub k' H ∧ Adv H k k' ∧ k'.idx[i]? = some x ∧ i < k'.varnum ∧ (∀ v ∈ k'.idx, v = x ∨ v ∈ k.idx) := by
  unfold Kernel.varIndex
  by_cases h1 : x ∈ k.idx
  · rw [if_pos h1]
    have hlt := List.idxOf_lt_length_iff.2 h1
    refine .inr ⟨_, k, rfl, hp, .rfl, ?_, by have := hp.idxLen; omega, fun v hv => .inr hv⟩
    rw [List.getElem?_eq_getElem hlt, List.getElem_idxOf]
  · rw [if_neg h1]
    by_cases h2 : k.idx.length < k.varnum
    · rw [if_pos h2]
      have te : TabEq k { k with idx := k.idx ++ [x] } := ⟨rfl, rfl, rfl, rfl, rfl, rfl, rfl, rfl, rfl, rfl, rfl, rfl⟩
      refine .inr ⟨_, _, rfl, { toKInv := hp.toKInv.tab te hp.stk hp.ac hp.qc hp.mc hp.qs, capEq := hp.capEq, stkLen := hp.stkLen, rc := hp.rc, rmax := hp.rmax, idxNd := ?_, idxLen := ?_ }, ⟨rfl, List.prefix_append _ _, fun n _ t hd => te.dext _ _ hd⟩, ?_, h2, ?_⟩
      · show (k.idx ++ [x]).Nodup
        rw [List.nodup_append]
        refine ⟨hp.idxNd, by simp, fun a ha b hb => ?_⟩
        rw [List.mem_singleton] at hb
        rintro rfl
        exact h1 (hb ▸ ha)
      · show (k.idx ++ [x]).length ≤ k.varnum
        simp; omega
      · show (k.idx ++ [x])[k.idx.length]? = some x
        simp
      · intro v hv
        have hv : v ∈ k.idx ++ [x] := hv
        simp at hv; tauto
    · rw [if_neg h2]
      exact .inl ⟨rfl, h1, by omega⟩

theorem buildLit_ok {l : Lit} {s : BSt} {E : List Ent} {H : List Nat} (hp : Pub s.k H) (hw : WInv c0 s.w E) (hv : room → ∀ v ∈ s.k.idx, v ∈ vs) (hr : room → Room s.k vs (.lit l)) :
    BOut c0 room vs H s E (.lit l) (buildLit l s) := by
  unfold buildLit
  rcases varIndex_ok hp l.v with ⟨e, h1, h2⟩ | ⟨i, k1, e, p1, a1, hi, hlt, hvs⟩
  · refine .inl ⟨by rw [e]; rfl, fun r => ?_⟩
    have hl : l.v ∈ vs := (hr r).occ l.v (by cases l; exact .lit _)
    have hnd : (l.v :: s.k.idx).Nodup := List.nodup_cons.2 ⟨h1, hp.idxNd⟩
    have hsub : l.v :: s.k.idx ⊆ vs := by
      intro v hm
      rcases List.mem_cons.1 hm with rfl | hm
      · exact hl
      · exact hv r v hm
    have h3 := (List.subperm_of_subset hnd hsub).length_le
    have h4 := (hr r).len
    simp only [List.length_cons] at h3
    omega
  · rw [e]
    simp only [Option.bind_some]
    obtain ⟨⟨d0, r0⟩, d1, r1⟩ := p1.vr i hlt
    have hil : i < k1.idx.length := (List.getElem?_eq_some_iff.1 hi).1
    have step : Step c0 room vs H s E { s with k := k1 } E := ⟨a1, hw, GExt.refl _ _, fun r v hm => by
      rcases hvs v hm with rfl | hm
      · exact (hr r).occ l.v (by cases l; exact .lit _)
      · exact hv r v hm⟩
    have pub : ∀ n, k1.ref n = maxRef → Pub k1 (n :: H) := fun n hn => by
      refine { p1 with rc := fun m hm h2 => ?_ }
      by_cases h : m = n
      · exact .inl (by rw [h]; exact hn)
      · rw [List.count_cons_of_ne (Ne.symm h)]
        exact p1.rc m ((List.mem_cons.1 hm).resolve_left h) h2
    have reg : ∀ v, Occ v (.lit l) → v ∈ k1.idx := fun v hv => by
      cases hv; exact List.mem_of_getElem? hi
    cases hpos : l.pos with
    | true =>
      rw [if_pos rfl]
      unfold Kernel.ithVar
      rw [if_pos hlt]
      refine .inr (.inr ⟨_, _, E, rfl, pub _ r0, step, fun ρ => ρ i, ⟨_, d0, ⟨Nat.zero_le _, hlt, trivial, trivial⟩, fun ρ => by simp [BT.eval]⟩, fun ρ ρ' e => e i hil, fun _ => reg, fun ρ σ hg _ => ?_⟩)
      show ρ i = _
      rw [hg i l.v hi]
      simp [Formula.eval, Lit.eval, hpos]
    | false =>
      rw [if_neg (by simp)]
      unfold Kernel.nithVar
      rw [if_pos hlt]
      refine .inr (.inr ⟨_, _, E, rfl, pub _ r1, step, fun ρ => !ρ i, ⟨_, d1, ⟨Nat.zero_le _, hlt, trivial, trivial⟩, fun ρ => by cases h : ρ i <;> simp [BT.eval, h]⟩, fun ρ ρ' e => by simp only [e i hil], fun _ => reg, fun ρ σ hg _ => ?_⟩)
      show (!ρ i) = _
      rw [hg i l.v hi]
      simp [Formula.eval, Lit.eval, hpos]

theorem BOut.congr {s : BSt} {E : List Ent} {H : List Nat} {f g : Formula} {r : BR Nat} (h : BOut c0 room vs H s E f r) (hn : NoCon g → NoCon f) (hocc : ∀ v, Occ v g → Occ v f) (he : ∀ σ, g.eval σ = f.eval σ) : BOut c0 room vs H s E g r := by
  rcases h with h | h | ⟨x, s', E', e, p, st, F, hF, lF, rF, hr⟩
  · exact .inl h
  · exact .inr (.inl h)
  · exact .inr (.inr ⟨x, s', E', e, p, st, F, hF, lF, fun c v hv => rF (hn c) v (hocc v hv), fun ρ σ hg hc => by rw [he]; exact hr ρ σ hg (hc.imp id hn)⟩)

/-- A computation that continues with a handle. -/
theorem bout_bind {s : BSt} {E : List Ent} {H : List Nat} {f g : Formula} {r : BR Nat} {q : Nat → BSt → BR Nat} (h : BOut c0 room vs H s E f r)
    (hq : ∀ x s' E', Pub s'.k (x :: H) → Step c0 room vs H s E s' E' → Rep s'.k E' x f → BOut c0 room vs H s' E' g (q x s')) : BOut c0 room vs H s E g (bseq r q) := by
  rcases h with ⟨rfl, h⟩ | ⟨s', E', rfl, h⟩ | ⟨x, s', E', rfl, p, st, rp⟩
  · exact .inl ⟨rfl, h⟩
  · exact .inr (.inl ⟨s', E', rfl, h⟩)
  · rcases hq x s' E' p st rp with ⟨e, h⟩ | ⟨s2, E2, e, p2, st2⟩ | ⟨y, s2, E2, e, p2, st2, rp2⟩
    · exact .inl ⟨e, h⟩
    · exact .inr (.inl ⟨s2, E2, e, p2, st.trans st2⟩)
    · exact .inr (.inr ⟨y, s2, E2, e, p2, st.trans st2, rp2⟩)

/-- With one more handle kept alive. -/
theorem bout_bind2 {s : BSt} {E : List Ent} {H : List Nat} {a : Nat} {f g : Formula} {r : BR Nat} {q : Nat → BSt → BR Nat} (h : BOut c0 room vs (a :: H) s E f r)
    (hq : ∀ x s' E', Pub s'.k (x :: a :: H) → Step c0 room vs (a :: H) s E s' E' → Rep s'.k E' x f → BOut c0 room vs H s' E' g (q x s')) : BOut c0 room vs H s E g (bseq r q) := by
  rcases h with ⟨rfl, h⟩ | ⟨s', E', rfl, h, st⟩ | ⟨x, s', E', rfl, p, st, rp⟩
  · exact .inl ⟨rfl, h⟩
  · exact .inr (.inl ⟨s', E', rfl, h.tail, st.sub fun n hn => by simp [hn]⟩)
  · have st' : Step c0 room vs H s E s' E' := st.sub fun n hn => by simp [hn]
    rcases hq x s' E' p st rp with ⟨e, h⟩ | ⟨s2, E2, e, p2, st2⟩ | ⟨y, s2, E2, e, p2, st2, rp2⟩
    · exact .inl ⟨e, h⟩
    · exact .inr (.inl ⟨s2, E2, e, p2, st'.trans st2⟩)
    · exact .inr (.inr ⟨y, s2, E2, e, p2, st'.trans st2, rp2⟩)

theorem noCon_nary {o : Op} {fs : List Formula} (h : ∀ f ∈ fs, NoCon f) : NoCon (.nary o fs) := by
  intro g hs
  rcases (sub_operands).1 hs with rfl | ⟨f, hf, hs⟩
  · exact ⟨fun _ e => (nomatch e), fun _ e => (nomatch e)⟩
  · exact h f (by simpa [Formula.operands] using hf) g hs

theorem evalAll_append (σ : Asg) (a b : List Formula) : Formula.evalAll σ (a ++ b) = (Formula.evalAll σ a && Formula.evalAll σ b) := by
  induction a with
  | nil => simp [Formula.evalAll]
  | cons x a ih => simp [Formula.evalAll, ih, Bool.and_assoc]

theorem evalAny_append (σ : Asg) (a b : List Formula) : Formula.evalAny σ (a ++ b) = (Formula.evalAny σ a || Formula.evalAny σ b) := by
  induction a with
  | nil => simp [Formula.evalAny]
  | cons x a ih => simp [Formula.evalAny, ih, Bool.or_assoc]

section build
variable {cfg : FCfg} {con : Formula → BSt → BR Nat} {h : Nat → Bool} {nc : Prop}

/-- What the recursion needs to know about constraints. -/
def ConOk (cfg : FCfg) (c0 : AuxTy → Nat) (room : Prop) (vs : List Var) (nc : Prop) (con : Formula → BSt → BR Nat) : Prop :=
  ∀ f H s E, IsCon f → (nc → NoCon f) → PTop cfg s.w.cnt f → Pub s.k H → WInv c0 s.w E → (room → ∀ v ∈ s.k.idx, v ∈ vs) → (room → Room s.k vs f) → BOut c0 room vs H s E f (con f s)

/-- What is known about one formula. -/
def FOk (cfg : FCfg) (c0 : AuxTy → Nat) (room : Prop) (vs : List Var) (nc : Prop) (con : Formula → BSt → BR Nat) (h : Nat → Bool) (f : Formula) : Prop :=
  ∀ H s E, (nc → NoCon f) → PTop cfg s.w.cnt f → Pub s.k H → WInv c0 s.w E → (room → ∀ v ∈ s.k.idx, v ∈ vs) → (room → Room s.k vs f) → BOut c0 room vs H s E f (buildG con h f s)

theorem pair_ok {f l r : Formula} {op : Opr} (hl : FOk cfg c0 room vs nc con h l) (hr : FOk cfg c0 room vs nc con h r) (ol : l ∈ f.operands) (or' : r ∈ f.operands) (hocc : ∀ v, Occ v f → Occ v l ∨ Occ v r) (he : ∀ σ, f.eval σ = op.fn (l.eval σ) (r.eval σ))
    {H : List Nat} {s : BSt} {E : List Ent} (hnc : nc → NoCon f) (ht : PTop cfg s.w.cnt f) (hp : Pub s.k H) (hw : WInv c0 s.w E) (hv : room → ∀ v ∈ s.k.idx, v ∈ vs) (hm : room → Room s.k vs f) :
    BOut c0 room vs H s E f (bseq (buildG con h l s) fun a s => bseq (buildG con h r s) fun b s => binop h op a b s) := by
  refine bout_bind (hl H s E (fun c => noCon_of (hnc c) ol) (ht.op ol) hp hw hv fun c => (hm c).sub rfl (op_sub ol)) fun a s1 E1 p1 st1 r1 => ?_
  refine bout_bind2 (hr (a :: H) s1 E1 (fun c => noCon_of (hnc c) or') ((ht.op or').mono st1.gext) p1 st1.winv st1.vars fun c => (hm c).sub st1.adv.varnum (op_sub or')) fun b s2 E2 p2 st2 r2 => ?_
  exact binop_ok p2 st2.winv st2.vars (r1.adv st2.adv (.inr (by simp)) st2.gext) r2 (fun c => ⟨noCon_of c ol, noCon_of c or'⟩) hocc he

theorem buildL_ok {o : Op} : ∀ (fs done : List Formula) (H : List Nat) (s : BSt) (E : List Ent) (acc : Nat), (∀ f ∈ fs, FOk cfg c0 room vs nc con h f) → (nc → ∀ f ∈ fs, NoCon f) → (∀ f ∈ fs, PTop cfg s.w.cnt f) → Pub s.k (acc :: H) → WInv c0 s.w E →
    (room → ∀ v ∈ s.k.idx, v ∈ vs) → (room → ∀ f ∈ fs, Room s.k vs f) → Rep s.k E acc (.nary o done) → BOut c0 room vs H s E (.nary o (done ++ fs)) (buildL con h o fs acc s)
  | [], done, H, s, E, acc, _, _, _, hp, hw, hv, _, hr => by
    rw [List.append_nil]
    unfold buildL
    exact .inr (.inr ⟨acc, s, E, rfl, hp, .rfl hw hv, hr⟩)
  | f :: fs, done, H, s, E, acc, ih, hnc, ht, hp, hw, hv, hm, hr => by
    unfold buildL
    refine bout_bind2 (ih f (by simp) (acc :: H) s E (fun c => hnc c f (by simp)) (ht f (by simp)) hp hw hv fun c => hm c f (by simp)) fun b s1 E1 p1 st1 r1 => ?_
    have hsub : NoCon (.nary o (done ++ [f])) → NoCon (.nary o done) ∧ NoCon f := fun c => ⟨noCon_nary fun g hg => noCon_of c (by simp [Formula.operands, hg]), noCon_of c (by simp [Formula.operands])⟩
    refine bout_bind (f := .nary o (done ++ [f])) (binop_ok p1 st1.winv st1.vars (hr.adv st1.adv (.inr (by simp)) st1.gext) r1 hsub (fun v hv => ?_) ?_) fun x s2 E2 p2 st2 r2 => ?_
    · obtain ⟨g, hg, ho⟩ := (Formula.occ_nary ..).1 hv
      rcases List.mem_append.1 hg with hg | hg
      · exact .inl ((Formula.occ_nary ..).2 ⟨g, hg, ho⟩)
      · rw [List.mem_singleton.1 hg] at ho; exact .inr ho
    · intro σ
      cases o with
      | conj => simp [Formula.eval, evalAll_append, Formula.evalAll, Opr.fn]
      | disj => simp [Formula.eval, evalAny_append, Formula.evalAny, Opr.fn]
    · have := buildL_ok fs (done ++ [f]) H s2 E2 x (fun g hg => ih g (by simp [hg])) (fun c g hg => hnc c g (by simp [hg])) (fun g hg => ((ht g (by simp [hg])).mono st1.gext).mono st2.gext) p2 st2.winv st2.vars
        (fun c g hg => (hm c g (by simp [hg])).sub (st2.adv.varnum.trans st1.adv.varnum) (.refl _)) r2
      rw [List.append_assoc] at this
      exact this

theorem buildG_ok (hcon : ConOk cfg c0 room vs nc con) (f : Formula) : FOk cfg c0 room vs nc con h f := by
  induction f using Formula.ind with
  | tru =>
    intro H s E _ _ hp hw hv _
    exact .inr (.inr ⟨1, s, E, by simp [buildG], hp.const (by omega), .rfl hw hv, fun _ => true, is_true fun _ => rfl, fun _ _ _ => rfl, fun _ v hv => (nomatch hv), fun _ _ _ _ => rfl⟩)
  | fls =>
    intro H s E _ _ hp hw hv _
    exact .inr (.inr ⟨0, s, E, by simp [buildG], hp.const (by omega), .rfl hw hv, fun _ => false, is_false fun _ => rfl, fun _ _ _ => rfl, fun _ v hv => (nomatch hv), fun _ _ _ _ => rfl⟩)
  | lit l =>
    intro H s E _ _ hp hw hv hm
    unfold buildG
    exact buildLit_ok hp hw hv hm
  | not f ih =>
    intro H s E hnc ht hp hw hv hm
    have of : f ∈ (Formula.not f).operands := by simp [Formula.operands]
    unfold buildG
    refine bout_bind (ih H s E (fun c => noCon_of (hnc c) of) (ht.op of) hp hw hv fun c => (hm c).sub rfl (op_sub of)) fun a s1 E1 p1 st1 r1 => ?_
    obtain ⟨F, sF, lF, rF, hF⟩ := r1
    obtain ⟨x, k1, e1, q1, a1, i1, z1⟩ := not_pub p1 (a := a) (.inr (by simp)) sF
    unfold kop bseq
    simp only [e1, Option.map_some]
    unfold addRefH
    by_cases hab : h (s1.refs + 1)
    · simp only [hab, if_true]
      exact .inr (.inl ⟨_, E1, rfl, q1.tail, (Step.kernel st1.winv st1.vars a1 i1).sub fun n hn => by simp [hn]⟩)
    · have hab' : h (s1.refs + 1) = false := by simpa using hab
      obtain ⟨t1, d1, o1, v1⟩ := z1
      obtain ⟨k2, e2, p2, x2, n2, i2⟩ := addRef_ok q1 d1
      simp only [hab', Bool.false_eq_true, if_false, e2, Option.map_some]
      obtain ⟨ta, da, oa, va⟩ := sF
      have da2 := x2 _ _ (a1.den a (.inr (by simp)) _ da)
      obtain ⟨k3, e3, p3, x3, n3, i3⟩ := delRef_perm (H' := x :: H) p2 (List.Perm.swap a x H) da2
      simp only [e3, Option.map_some]
      have hadv : Adv H s1.k k3 := ⟨by rw [n3, n2, a1.varnum], by rw [i3, i2, i1]; exact List.prefix_rfl, fun n hn t hd => x3 _ _ (x2 _ _ (a1.den n (hn.imp id fun h => by simp [h]) t hd))⟩
      refine .inr (.inr ⟨x, _, E1, rfl, p3, Step.kernel st1.winv st1.vars hadv (by rw [i3, i2, i1]), ?_⟩)
      refine ⟨fun ρ => !F ρ, ⟨t1, x3 _ _ (x2 _ _ d1), by show BT.Ord k3.varnum 0 t1; rw [n3, n2]; exact o1, v1⟩, ?_, fun hc v hv => ?_, fun ρ σ hg hc => ?_⟩
      · show Lv k3.idx.length _
        rw [i3, i2, i1]
        exact fun ρ ρ' e => by simp only [lF ρ ρ' e]
      · show v ∈ k3.idx
        rw [i3, i2, i1]
        cases hv with | not hv => exact rF (noCon_of hc of) v hv
      have hg' : Agr s1.k.idx ρ σ := by have hg : Agr k3.idx ρ σ := hg; rw [i3, i2, i1] at hg; exact hg
      show (!F ρ) = !f.eval σ
      rw [hF ρ σ hg' (hc.imp id fun h => noCon_of h of)]
  | impl l r hl hr =>
    intro H s E hnc ht hp hw hv hm
    unfold buildG
    exact pair_ok hl hr (by simp [Formula.operands]) (by simp [Formula.operands]) (fun v hv => by cases hv <;> simp [*]) (fun σ => by simp [Formula.eval, Opr.fn]) hnc ht hp hw hv hm
  | equiv l r hl hr =>
    intro H s E hnc ht hp hw hv hm
    unfold buildG
    exact pair_ok hl hr (by simp [Formula.operands]) (by simp [Formula.operands]) (fun v hv => by cases hv <;> simp [*]) (fun σ => by simp [Formula.eval, Opr.fn]) hnc ht hp hw hv hm
  | nary o fs ih =>
    intro H s E hnc ht hp hw hv hm
    unfold buildG
    have hlen : 2 ≤ fs.length := by cases ht.1 with | nary h _ _ => exact h
    cases fs with
    | nil => simp at hlen
    | cons f fs =>
      unfold buildN
      have hop : ∀ g ∈ f :: fs, g ∈ (Formula.nary o (f :: fs)).operands := fun g hg => by simpa [Formula.operands] using hg
      refine bout_bind (ih f (by simp) H s E (fun c => noCon_of (hnc c) (hop f (by simp))) (ht.op (hop f (by simp))) hp hw hv fun c => (hm c).sub rfl (op_sub (hop f (by simp)))) fun a s1 E1 p1 st1 r1 => ?_
      have r1' : Rep s1.k E1 a (.nary o [f]) := by
        obtain ⟨F, sF, lF, rF, hF⟩ := r1
        refine ⟨F, sF, lF, fun c v hv => rF (noCon_of c (by simp [Formula.operands])) v (by simpa using hv), fun ρ σ hg hc => ?_⟩
        rw [hF ρ σ hg (hc.imp id fun c => noCon_of c (by simp [Formula.operands]))]
        cases o <;> simp [Formula.eval, Formula.evalAll, Formula.evalAny]
      exact buildL_ok fs [f] H s1 E1 a (fun g hg => ih g (by simp [hg])) (fun c g hg => noCon_of (hnc c) (hop g (by simp [hg]))) (fun g hg => (ht.op (hop g (by simp [hg]))).mono st1.gext) p1 st1.winv st1.vars
        (fun c g hg => (hm c).sub st1.adv.varnum (op_sub (hop g (by simp [hg])))) r1'
  | cc c =>
    intro H s E hnc ht hp hw hv hm
    unfold buildG
    exact hcon _ H s E (.inl ⟨c, rfl⟩) hnc ht hp hw hv hm
  | pbc p =>
    intro H s E hnc ht hp hw hv hm
    unfold buildG
    exact hcon _ H s E (.inr ⟨p, rfl⟩) hnc ht hp hw hv hm

end build

theorem fit_noCon {cfg : FCfg} {f : Formula} (h : NoCon f) : Fit cfg f := ⟨fun c hs => ((h _ hs).1 c rfl).elim, fun p hs => ((h _ hs).2 p rfl).elim⟩

theorem buildCon_ok {C : Canon} {cfg : FCfg} (hcfg : cfg.cc.Good) (h : Nat → Bool) : ConOk cfg c0 room vs False (buildCon C cfg h) := by
  intro f H s E hc _ ht hp hw hv hm
  unfold buildCon
  obtain ⟨g, w', E', e, hw', hx, tr⟩ := nnf_ok (C := C) hcfg hw ht
  rw [e]
  have hng : NoCon g := isNnf_noCon tr.shape
  have hnot : ¬ room := fun r => by
    have := (hm r).noCon f (.refl _)
    rcases hc with ⟨c, rfl⟩ | ⟨p, rfl⟩
    · exact this.1 c rfl
    · exact this.2 p rfl
  have hcon0 : ConOk cfg c0 room vs True (fun _ _ => none) := fun f' H s E hc hn _ _ _ _ _ => by
    have := hn trivial f' (.refl _)
    rcases hc with ⟨c, rfl⟩ | ⟨p, rfl⟩
    · exact (this.1 c rfl).elim
    · exact (this.2 p rfl).elim
  have := buildG_ok (h := h) hcon0 g H { s with w := w' } E' (fun _ => hng) ⟨tr.norm, fit_noCon hng, tr.old⟩ hp hw' hv fun r => (hnot r).elim
  have nc : ¬ NoCon f := fun hcc => by
    have := hcc f (.refl _)
    rcases hc with ⟨c, rfl⟩ | ⟨p, rfl⟩
    · exact this.1 c rfl
    · exact this.2 p rfl
  rcases this with ⟨e1, e2⟩ | ⟨s2, E2, e1, p2, st⟩ | ⟨x, s2, E2, e1, p2, st, F, sF, lF, rF, hF⟩
  · exact .inl ⟨e1, e2⟩
  · exact .inr (.inl ⟨s2, E2, e1, p2, st.adv, st.winv, hx.trans st.gext, st.vars⟩)
  · refine .inr (.inr ⟨x, s2, E2, e1, p2, ⟨st.adv, st.winv, hx.trans st.gext, st.vars⟩, F, sF, lF, fun hcc => (nc hcc).elim, fun ρ σ hg hcc => ?_⟩)
    rw [hF ρ σ hg (.inr hng)]
    rcases hcc with hcc | hcc
    · rw [Bool.eq_iff_iff]
      exact ⟨tr.sound σ, tr.compl σ (st.gext.ok hcc)⟩
    · exact (nc hcc).elim

/-- `build_rec` in every state. -/
theorem build_ok {C : Canon} {cfg : FCfg} (hcfg : cfg.cc.Good) (h : Nat → Bool) {f : Formula} {H : List Nat} {s : BSt} {E : List Ent} (ht : PTop cfg s.w.cnt f) (hp : Pub s.k H) (hw : WInv c0 s.w E)
    (hv : room → ∀ v ∈ s.k.idx, v ∈ vs) (hm : room → Room s.k vs f) : BOut c0 room vs H s E f (build C cfg h f s) :=
  buildG_ok (h := h) (buildCon_ok hcfg h) f H s E (fun c => c.elim) ht hp hw hv hm

end

end Bdd
end Verif
