import Verif.Dnnf.Step
import Verif.Sat.Api
/-
The compiler as long as no conflict occurs: every subtree gets a right formula.
-/
namespace Verif.Dnnf
open Verif.Sat Verif.Formula

section
variable {F : Type} [LinearOrder F] [Flt F] {K : Canon} {C : Cfg F} {Φ : List (List Nat)} {L : List (Nat × List Nat)} {N nc : Nat} {nm : List Var} {B : List Nat}
open St

/-- What holds of the clauses `L` (with their numbers), the number of variables and their names. -/
structure Static (L : List (Nat × List Nat)) (N nc : Nat) (nm : List Var) : Prop where
  nd : nm.Nodup
  len : nm.length = N
  rng : ∀ c ∈ L, ∀ l ∈ c.2, l < 2 * N
  dup : ∀ c ∈ L, (c.2.map vr).Nodup
  inj : ∀ c ∈ L, ∀ c' ∈ L, c.1 = c'.1 → c = c'
  ids : ∀ c ∈ L, c.1 < nc

theorem Static.vr_lt (h : Static L N nc nm) {c : Nat × List Nat} (hc : c ∈ L) {l : Nat} (hl : l ∈ c.2) : vr l < N :=
  Sat.vr_lt.2 (h.rng c hc l hl)

/-- Invariant of the compiler without conflicts; `B` are the literals assigned at level 0. -/
structure DInv (Φ : List (List Nat)) (L : List (Nat × List Nat)) (N nc : Nat) (nm : List Var) (B : List Nat) (d : DSt F) : Prop where
  inv : Inv Φ true d.s.units d.s.qhead d.s.toCore
  qh : d.s.qhead = d.s.trail.length
  heap : HInv d.s
  nv : d.s.nvars = N
  base : ∀ l ∈ B, l ∈ d.s.trail
  l1 : ∀ id, id ∈ d.s.clauses ∨ id ∈ d.s.learnts → ∃ c ∈ L, (∀ l ∈ d.s.data id, l ∈ c.2) ∧ ∀ l ∈ c.2, l ∈ d.s.data id ∨ neg l ∈ B
  l2 : ∀ c ∈ L, (∃ l ∈ c.2, l ∈ B) ∨ ∃ id, (id ∈ d.s.clauses ∨ id ∈ d.s.learnts) ∧ d.s.data id ≠ [] ∧ ∀ l ∈ d.s.data id, l ∈ c.2
  cache : ∀ p ∈ d.cache, ∃ (s : Core) (t : DTree), s.nvars = N ∧ (∀ c ∈ t.leaves, c ∈ L) ∧ p.1 = cacheKey nc s t ∧ Exact nm s t [] p.2

/-- The open clauses outside the tree have no open variable in common with the tree. -/
def Iso (L : List (Nat × List Nat)) (s : Core) (t : DTree) : Prop :=
  ∀ c ∈ L, (∀ l ∈ c.2, s.value l ≠ some true) → c ∉ t.leaves → ∀ l ∈ c.2, s.value l = none → vr l ∉ openVars s t

/-- The state is the same as before, as far as the compiler is concerned. -/
structure Back (Φ : List (List Nat)) (L : List (Nat × List Nat)) (N nc : Nat) (nm : List Var) (B : List Nat) (d d' : DSt F) : Prop where
  inv : DInv Φ L N nc nm B d'
  trail : d'.s.trail = d.s.trail
  lim : d'.s.lim = d.s.lim
  lev : ∀ l ∈ d.s.trail, d'.s.level (vr l) = d.s.level (vr l)
  dirty : d'.dirty = false

theorem Back.trans {d d' d'' : DSt F} (h : Back Φ L N nc nm B d d') (h' : Back Φ L N nc nm B d' d'') : Back Φ L N nc nm B d d'' :=
  ⟨h'.inv, h'.trail.trans h.trail, h'.lim.trans h.lim, fun l hl => (h'.lev l (h.trail ▸ hl)).trans (h.lev l hl), h'.dirty⟩

theorem value_eq {Φ Ψ : List (List Nat)} {U V : List Nat} {q q' : Nat} {s s' : Core} (h : Inv Φ true U q s) (h' : Inv Ψ true V q' s') (e : s'.trail = s.trail) :
    s'.value = s.value := by
  funext l
  cases hv : s.value l with
  | none => rw [h'.val_none, e, ← h.val_none, hv]
  | some b =>
    cases b
    · rw [h'.val_false, e, ← h.val_false, hv]
    · rw [h'.val, e, ← h.val, hv]

theorem Back.value {d d' : DSt F} (h : Back Φ L N nc nm B d d') (hi : DInv Φ L N nc nm B d) : d'.s.toCore.value = d.s.toCore.value :=
  value_eq hi.inv h.inv.inv h.trail

theorem Iso.congr {s s' : Core} {t : DTree} (h : Iso L s t) (hv : s'.value = s.value) : Iso L s' t := by
  unfold Iso; rw [hv, openVars_congr hv]; exact h

theorem Iso.adds {s s' : Core} {t : DTree} {new : List Nat} (h : Iso L s t) (ha : Adds s s' new) : Iso L s' t := by
  intro c hc h1 h2 l hl hv ho
  exact h c hc (fun k hk hv => h1 k hk ((ha.val k).2 (.inr hv))) h2 l hl (ha.none_of hv) (ha.openV ho)

theorem Iso.left {s : Core} {l r : DTree} (h : Iso L s (.node l r)) (hs : separator s (.node l r) = []) : Iso L s l := by
  intro c hc h1 h2 k hk hv ho
  by_cases hr : c ∈ r.leaves
  · exact separator_nil hs ho (mem_openVars.2 ⟨c, mem_openLeaves.2 ⟨hr, h1⟩, k, hk, hv, rfl⟩)
  · exact h c hc h1 (by simp [DTree.leaves, h2, hr]) k hk hv (openVars_node.2 (.inl ho))

theorem Iso.right {s : Core} {l r : DTree} (h : Iso L s (.node l r)) (hs : separator s (.node l r) = []) : Iso L s r := by
  intro c hc h1 h2 k hk hv ho
  by_cases hr : c ∈ l.leaves
  · exact separator_nil hs (mem_openVars.2 ⟨c, mem_openLeaves.2 ⟨hr, h1⟩, k, hk, hv, rfl⟩) ho
  · exact h c hc h1 (by simp [DTree.leaves, h2, hr]) k hk hv (openVars_node.2 (.inr ho))

/-- A clause without a true literal has an unassigned one. -/
theorem DInv.open_ {d : DSt F} (h : DInv Φ L N nc nm B d) {c : Nat × List Nat} (hc : c ∈ L) (ho : ∀ l ∈ c.2, d.s.value l ≠ some true) : ∃ l ∈ c.2, d.s.value l = none := by
  by_contra hn
  have hf : ∀ l ∈ c.2, neg l ∈ d.s.trail := by
    intro l hl
    rw [← h.inv.val_false]
    cases hv : d.s.value l with
    | none => exact absurd ⟨l, hl, hv⟩ hn
    | some b => cases b; · rfl
                · exact absurd hv (ho l hl)
  rcases h.l2 c hc with ⟨l, hl, hB⟩ | ⟨id, hid, hne, hsub⟩
  · exact ho l hl ((h.inv.val l).2 (h.base l hB))
  · obtain ⟨l, hl⟩ := List.exists_mem_of_ne_nil _ hne
    have := h.inv.closed h.qh id hid l hl fun y hy _ => hf y (hsub y hy)
    exact ho l (hsub l hl) ((h.inv.val l).2 this)

theorem openVars_lt {s : Core} {t : DTree} (st : Static L N nc nm) (ht : ∀ c ∈ t.leaves, c ∈ L) {v : Nat} (hv : v ∈ openVars s t) : v < N := by
  obtain ⟨c, hc, l, hl, _, rfl⟩ := mem_openVars.1 hv
  exact st.vr_lt (ht c (mem_openLeaves.1 hc).1) hl

/-! ### Deciding -/

/-- What a decision achieves. -/
structure Decided (Φ : List (List Nat)) (L : List (Nat × List Nat)) (N nc : Nat) (nm : List Var) (B : List Nat) (t : DTree) (v : Nat) (ph : Bool) (d d' : DSt F) (new : List Nat) : Prop where
  inv : DInv Φ L N nc nm B d'
  trail : d'.s.trail = new ++ d.s.trail
  adds : Adds d.s.toCore d'.s.toCore new
  mem : mkLit v (!ph) ∈ new
  vars : ∀ l ∈ new, vr l ∈ openVars d.s.toCore t
  ent : ∀ σ, Res nm d.s.toCore t σ → T nm σ (mkLit v (!ph)) → ∀ l ∈ new, T nm σ l
  lim : d'.s.lim = d.s.trail.length :: d.s.lim
  lev : ∀ l ∈ d.s.trail, d'.s.level (vr l) = d.s.level (vr l)
  levv : d'.s.level v = some (d.s.lim.length + 1)
  dirty : d'.dirty = true

theorem handle_confl {id : Nat} {d d' : DSt F} (e : handle C id d = some d') : d'.confl = d.confl + 1 := by
  unfold handle at e
  split at e
  · obtain ⟨⟨s, ls⟩, _, rfl⟩ := Option.map_eq_some_iff.1 e; rfl
  · obtain ⟨s, _, rfl⟩ := Option.map_eq_some_iff.1 e; rfl

theorem propAfter_confl {d d' : DSt F} {ok : Bool} (e : propAfter C d = some (d', ok)) : d'.confl = d.confl + if ok then 0 else 1 := by
  unfold propAfter at e
  obtain ⟨⟨s, r⟩, _, e⟩ := Option.bind_eq_some_iff.1 e
  cases r with
  | none => simp only [Option.some.injEq, Prod.mk.injEq] at e; obtain ⟨rfl, rfl⟩ := e; rfl
  | some id =>
    obtain ⟨d1, e1, e2⟩ := Option.map_eq_some_iff.1 e
    simp only [Prod.mk.injEq] at e2
    obtain ⟨rfl, rfl⟩ := e2
    rw [handle_confl e1]; rfl

theorem decideVar_confl {v : Nat} {ph : Bool} {d d' : DSt F} {ok : Bool} (e : decideVar C v ph d = some (d', ok)) : d'.confl = d.confl + if ok then 0 else 1 := by
  unfold decideVar at e
  have := propAfter_confl e
  exact this

theorem undo_confl {v : Nat} {d d' : DSt F} (e : undo v d = some d') : d'.confl = d.confl := by
  unfold undo at e
  split at e
  · obtain ⟨s, _, rfl⟩ := Option.map_eq_some_iff.1 e; rfl
  · cases e

theorem assertCd_confl {d d' : DSt F} {ok : Bool} (e : assertCd C d = some (d', ok)) : d'.confl = d.confl + if ok then 0 else 1 := by
  unfold assertCd at e
  split at e
  · split at e
    · obtain ⟨s, _, e⟩ := Option.bind_eq_some_iff.1 e
      have := propAfter_confl e
      exact this
    · cases e
  · cases e

/-- Propagation after a decision stays within the open clauses of the tree. -/
theorem new_local {d : DSt F} (h : DInv Φ L N nc nm B d) {t : DTree} (hiso : Iso L d.s.toCore t) {dl : Nat}
    {s0 s1 : Core} (hs0 : s0.trail = dl :: d.s.trail) (hd0 : s0.data = d.s.data) (hcl : s0.clauses = d.s.clauses) (hle : s0.learnts = d.s.learnts)
    {U : List Nat} {q : Nat} (h1 : Inv Φ true U q s1) (hf : Frame s0 s1) (hdl : vr dl ∈ openVars d.s.toCore t) : ∀ (n : Nat) (t1 t2 : List Nat) (l : Nat), t2.length = n →
    s1.trail = t1 ++ l :: t2 → l ∉ d.s.trail → vr l ∈ openVars d.s.toCore t ∧ ∀ σ, Res nm d.s.toCore t σ → T nm σ dl → T nm σ l := by
  have hmono : ∀ x ∈ d.s.trail, x ∈ s1.trail := fun x hx => hf.mem (by rw [hs0]; exact List.mem_cons_of_mem _ hx)
  intro n
  induction n using Nat.strongRecOn with
  | ind n ih =>
    intro t1 t2 l hn ht hnl
    have hlt : l ∈ s1.trail := by rw [ht]; simp
    by_cases hld : l = dl
    · subst hld; exact ⟨hdl, fun _ _ h => h⟩
    obtain ⟨id, hr⟩ := Option.isSome_iff_exists.1 (hf.newr l hlt (by rw [hs0]; simp [hld, hnl]))
    obtain ⟨r, hd, hr2⟩ := h1.rsn t1 l t2 id ht hr
    have hid : id ∈ d.s.clauses ∨ id ∈ d.s.learnts := by
      have := h1.incr rfl l hlt id hr
      rwa [hf.clauses, hf.learnts, hcl, hle] at this
    have hperm : (l :: r).Perm (d.s.data id) := by rw [← hd, ← hd0]; exact hf.perm id
    have hrt : ∀ y ∈ r, y ∉ d.s.trail := fun y hy hyt =>
      h1.not_both (hmono y hyt) (by rw [ht]; exact List.mem_append_right _ (List.mem_cons_of_mem _ (hr2 y hy)))
    have hex : ∃ y ∈ r, neg y ∉ d.s.trail := by
      by_contra hno
      refine hnl (h.inv.closed h.qh id hid l (hperm.mem_iff.1 (by simp)) fun y hy hne => ?_)
      rcases List.mem_cons.1 (hperm.mem_iff.2 hy) with e | hy
      · exact absurd e hne
      · by_contra hc; exact hno ⟨y, hy, hc⟩
    have hih : ∀ y ∈ r, neg y ∉ d.s.trail → vr y ∈ openVars d.s.toCore t ∧ ∀ σ, Res nm d.s.toCore t σ → T nm σ dl → T nm σ (neg y) := by
      intro y hy hny
      obtain ⟨a, b, e⟩ := List.append_of_mem (hr2 y hy)
      have := ih b.length (by rw [← hn, e]; simp; omega) (t1 ++ l :: a) b (neg y) rfl (by rw [ht, e]; simp) hny
      rwa [vr_neg] at this
    obtain ⟨c, hcL, hc1, hc2⟩ := h.l1 id hid
    have hopen : ∀ x ∈ c.2, d.s.value x ≠ some true := by
      intro x hx hv
      have hxt := (h.inv.val x).1 hv
      rcases hc2 x hx with hx' | hx'
      · rcases List.mem_cons.1 (hperm.mem_iff.2 hx') with rfl | hx'
        · exact hnl hxt
        · exact hrt x hx' hxt
      · exact h.inv.not_both hxt (h.base _ hx')
    obtain ⟨y, hy, hny⟩ := hex
    have hcm : c ∈ t.leaves := by
      by_contra hcn
      exact hiso c hcL hopen hcn y (hc1 y (hperm.mem_iff.1 (by simp [hy]))) ((h.inv.val_none y).2 ⟨hrt y hy, hny⟩) (hih y hy hny).1
    have hco : c ∈ openLeaves d.s.toCore t := mem_openLeaves.2 ⟨hcm, hopen⟩
    have hlc : l ∈ c.2 := hc1 l (hperm.mem_iff.1 (by simp))
    refine ⟨mem_openVars.2 ⟨c, hco, l, hlc, (h.inv.val_none l).2 ⟨hnl, fun h' => h1.not_both hlt (hmono _ h')⟩, rfl⟩, fun σ hR hT => ?_⟩
    obtain ⟨x, hx, hxv, hxT⟩ := hR c hco
    obtain ⟨n1, n2⟩ := (h.inv.val_none x).1 hxv
    rcases hc2 x hx with hx' | hx'
    · rcases List.mem_cons.1 (hperm.mem_iff.2 hx') with rfl | hx'
      · exact hxT
      · exact absurd hxT (T_neg.1 ((hih x hx' n2).2 σ hR hT))
    · exact absurd (h.base _ hx') n2

theorem decide_ok {d d' : DSt F} {v : Nat} {ph ok : Bool} (st : Static L N nc nm) (h : DInv Φ L N nc nm B d) {t : DTree} (ht : ∀ c ∈ t.leaves, c ∈ L)
    (hiso : Iso L d.s.toCore t) (hv : v ∈ openVars d.s.toCore t) (e : decideVar C v ph d = some (d', ok)) (hc : d'.confl = d.confl) :
    ok = true ∧ ∃ new, Decided Φ L N nc nm B t v ph d d' new := by
  have hok : ok = true := by
    have := decideVar_confl e
    cases ok
    · simp at this; omega
    · rfl
  subst hok
  refine ⟨rfl, ?_⟩
  have hvN : v < d.s.nvars := h.nv.symm ▸ openVars_lt st ht hv
  have hvv : d.s.value (mkLit v (!ph)) = none := value_none_iff.2 (by rw [vr_mkLit]; exact openVars_none hv)
  obtain ⟨hn1, hn2⟩ := (h.inv.val_none _).1 hvv
  have hlr : mkLit v (!ph) < 2 * d.s.nvars := by rw [← vr_lt, vr_mkLit]; exact hvN
  have i1 := h.inv.newLevel h.qh
  have i2 : Inv Φ true d.s.units d.s.qhead (({ d.s.toCore with lim := d.s.trail.length :: d.s.lim } : Core).enqueue (mkLit v (!ph)) none) :=
    i1.enqueue hn1 hn2 hlr (fun id e => by cases e) (fun _ => .inr ⟨by simp, by simp⟩) (fun e => by cases e)
  unfold decideVar propAfter at e
  obtain ⟨s0, hs0⟩ : ∃ s0 : St F, s0 = { d.s with toCore := ({ d.s.toCore with lim := d.s.trail.length :: d.s.lim } : Core).enqueue (mkLit v (!ph)) none } := ⟨_, rfl⟩
  rw [← hs0] at e
  have hc0 : s0.toCore = ({ d.s.toCore with lim := d.s.trail.length :: d.s.lim } : Core).enqueue (mkLit v (!ph)) none := by rw [hs0]
  have hi0 : Inv Φ true d.s.units s0.qhead s0.toCore := by rw [hc0]; exact i2
  have hh0 : HInv s0 := by
    rw [hs0]
    refine ⟨h.heap.cons, h.heap.rng, h.heap.dec, fun w hw ha => ?_, h.heap.len⟩
    have ha : upd d.s.asg (vr (mkLit v (!ph))) (some (!sgn (mkLit v (!ph)))) w = none := ha
    by_cases ew : w = vr (mkLit v (!ph))
    · subst ew; rw [upd_self] at ha; cases ha
    · rw [upd_ne _ _ ew] at ha
      exact h.heap.mem w hw ha
  obtain ⟨⟨s1, r⟩, ep, hp⟩ := prop_ok hi0 hh0
  simp only [ep, Option.bind_some] at e
  cases r with
  | some id =>
    obtain ⟨d1, _, e2⟩ := Option.map_eq_some_iff.1 e
    simp only [Prod.mk.injEq] at e2
    exact absurd e2.2 (by simp)
  | none =>
    simp only [Option.some.injEq, Prod.mk.injEq, and_true] at e
    subst e
    obtain ⟨q1, j1⟩ := hp.inv rfl
    have fr := hp.frame
    have q1 : s1.qhead = s1.trail.length := q1
    have j1 : Inv Φ true d.s.units s1.qhead s1.toCore := j1
    have fr : Frame s0.toCore s1.toCore := fr
    have tr0 : s0.trail = mkLit v (!ph) :: d.s.trail := by rw [hs0]; rfl
    obtain ⟨new', hnew⟩ := fr.ext
    have htr : s1.trail = (new' ++ [mkLit v (!ph)]) ++ d.s.trail := by rw [hnew, tr0]; simp
    have hun : s1.units = d.s.units := by rw [fr.units, hs0]; rfl
    have hcl : s1.clauses = d.s.clauses := by rw [fr.clauses, hs0]; rfl
    have hle : s1.learnts = d.s.learnts := by rw [fr.learnts, hs0]; rfl
    have hperm : ∀ i, (s1.data i).Perm (d.s.data i) := fun i => by have := fr.perm i; rwa [show s0.data i = d.s.data i by rw [hs0]; rfl] at this
    have hfree : ∀ l ∈ new' ++ [mkLit v (!ph)], d.s.value l = none := by
      intro l hl
      rw [h.inv.val_none]
      have hlt : l ∈ s1.trail := by rw [htr]; exact List.mem_append_left _ hl
      have hnd := j1.nodup
      rw [htr, List.nodup_append] at hnd
      exact ⟨fun h' => hnd.2.2 l hl l h' rfl, fun h' => j1.not_both hlt (by rw [htr]; exact List.mem_append_right _ h')⟩
    have hloc : ∀ l ∈ new' ++ [mkLit v (!ph)], vr l ∈ openVars d.s.toCore t ∧ ∀ σ, Res nm d.s.toCore t σ → T nm σ (mkLit v (!ph)) → T nm σ l := by
      intro l hl
      have hlt : l ∈ s1.trail := by rw [htr]; exact List.mem_append_left _ hl
      obtain ⟨a, b, e⟩ := List.append_of_mem hlt
      exact new_local h hiso tr0 (by rw [hs0]; rfl) (by rw [hs0]; rfl) (by rw [hs0]; rfl) j1 fr (by rw [vr_mkLit]; exact hv) b.length a b l rfl e
        ((h.inv.val_none l).1 (hfree l hl)).1
    refine ⟨new' ++ [mkLit v (!ph)], ⟨⟨?_, q1, hp.heap, ?_, ?_, ?_, ?_, h.cache⟩, htr, ⟨fun l => ?_, hfree⟩, by simp, fun l hl => (hloc l hl).1, fun σ hR hT l hl => (hloc l hl).2 σ hR hT, ?_, ?_, ?_, rfl⟩⟩
    · show Inv Φ true s1.units s1.qhead s1.toCore
      rw [hun]; exact j1
    · show s1.nvars = N
      rw [fr.nvars, hs0]; exact h.nv
    · intro l hl
      show l ∈ s1.trail
      rw [htr]; exact List.mem_append_right _ (h.base l hl)
    · intro id hid
      have hid : id ∈ s1.clauses ∨ id ∈ s1.learnts := hid
      rw [hcl, hle] at hid
      obtain ⟨c, hc, a, b⟩ := h.l1 id hid
      exact ⟨c, hc, fun l hl => a l ((hperm id).mem_iff.1 hl), fun l hl => (b l hl).imp (fun h => (hperm id).mem_iff.2 h) fun h => h⟩
    · intro c hc
      refine (h.l2 c hc).imp (fun h => h) fun ⟨id, a, b, e⟩ => ⟨id, ?_, fun h' => b ?_, fun l hl => e l ((hperm id).mem_iff.1 hl)⟩
      · show id ∈ s1.clauses ∨ id ∈ s1.learnts
        rw [hcl, hle]; exact a
      · have h' : s1.data id = [] := h'
        have := hperm id
        rw [h'] at this
        exact this.symm.eq_nil
    · rw [j1.val, htr, List.mem_append, h.inv.val]
    · show s1.lim = _
      rw [fr.lim, hs0]; rfl
    · intro l hl
      show s1.level (vr l) = _
      rw [fr.lev l (by rw [tr0]; exact List.mem_cons_of_mem _ hl), hs0]
      show upd d.s.level (vr (mkLit v (!ph))) _ (vr l) = _
      rw [upd_ne _ _ (h.inv.vr_ne hn1 hn2 hl)]
    · show s1.level v = _
      have := fr.lev (mkLit v (!ph)) (by rw [tr0]; simp)
      rw [vr_mkLit] at this
      rw [this, hs0]
      show upd d.s.level (vr (mkLit v (!ph))) _ v = _
      rw [vr_mkLit, upd_self]; rfl

/-! ### Undoing a decision -/

theorem cancelUntil_trail {Φ : List (List Nat)} {U : List Nat} {q L : Nat} {s s' : St F} (h : Inv Φ true U q s.toCore) (hh : HInv s) (hL : L < s.lim.length)
    (e : cancelUntil L s = some s') : s'.trail = s.trail.drop (s.trail.length - s.limAt L) := by
  unfold cancelUntil at e
  rw [if_pos hL] at e
  obtain ⟨s1, e1, rfl⟩ := Option.map_eq_some_iff.1 e
  obtain ⟨s2, e2, hp⟩ := cancelPop_ok (s.trail.length - s.limAt L) hh h.rng (Nat.sub_le _ _)
  rw [e1] at e2; injection e2 with e2; subst e2
  obtain ⟨a, ha, _⟩ := hp.core
  show s1.trail = _
  rw [ha]

/-- Undoing a decision brings back the state before it. -/
theorem undo_ok {d d1 d2 d' : DSt F} {v : Nat} {ph : Bool} {t : DTree} {new : List Nat} (h : DInv Φ L N nc nm B d) (hd : Decided Φ L N nc nm B t v ph d d1 new)
    (hb : Back Φ L N nc nm B d1 d2) (e : undo v d2 = some d') : Back Φ L N nc nm B d d' := by
  have htr : d2.s.trail = new ++ d.s.trail := hb.trail.trans hd.trail
  have hlim : d2.s.lim = d.s.trail.length :: d.s.lim := hb.lim.trans hd.lim
  have hlev : d2.s.level v = some (d.s.lim.length + 1) := by
    have := hb.lev _ (by rw [hd.trail]; exact List.mem_append_left _ hd.mem)
    rw [vr_mkLit] at this
    rw [this, hd.levv]
  unfold undo at e
  rw [hlev] at e
  simp only at e
  obtain ⟨s, es, rfl⟩ := Option.map_eq_some_iff.1 e
  have hL : d.s.lim.length < d2.s.lim.length := by rw [hlim]; simp
  obtain ⟨s', es', hc⟩ := cancelUntil_ok hb.inv.inv hb.inv.heap hL
  rw [es] at es'; injection es' with es'; subst es'
  have ht := cancelUntil_trail hb.inv.inv hb.inv.heap hL es
  have hat : d2.s.limAt d.s.lim.length = d.s.trail.length := by unfold Core.limAt; rw [hlim]; simp
  rw [hat, htr] at ht
  have ht : s.trail = d.s.trail := by rw [ht]; simp
  have hl2 : ∀ l ∈ d.s.trail, s.level (vr l) = d.s.level (vr l) := fun l hl => by
    rw [hc.level, hb.lev l (by rw [hd.trail]; exact List.mem_append_right _ hl), hd.lev l hl]
  refine ⟨⟨?_, hc.qh, hc.heap, ?_, ?_, ?_, ?_, hb.inv.cache⟩, ht, ?_, hl2, rfl⟩
  · show Inv Φ true s.units s.qhead s.toCore
    rw [hc.units]; exact hc.inv
  · show s.nvars = N
    rw [hc.nvars]; exact hb.inv.nv
  · intro l hl
    show l ∈ s.trail
    rw [ht]; exact h.base l hl
  · show ∀ id, id ∈ s.clauses ∨ id ∈ s.learnts → _
    intro id hid
    rw [hc.clauses, hc.learnts] at hid
    have := hb.inv.l1 id hid
    show ∃ c ∈ L, (∀ l ∈ s.data id, l ∈ c.2) ∧ ∀ l ∈ c.2, l ∈ s.data id ∨ neg l ∈ B
    rw [hc.data]; exact this
  · show ∀ c ∈ L, (∃ l ∈ c.2, l ∈ B) ∨ ∃ id, (id ∈ s.clauses ∨ id ∈ s.learnts) ∧ s.data id ≠ [] ∧ ∀ l ∈ s.data id, l ∈ c.2
    rw [hc.data, hc.clauses, hc.learnts]; exact hb.inv.l2
  · show s.lim = _
    rw [hc.lim, hlim]; simp

/-! ### The recursion -/

/-- What a call of the compiler achieves, if no conflict occurs in it. -/
def RecOk (Φ : List (List Nat)) (L : List (Nat × List Nat)) (N nc : Nat) (nm : List Var) (B : List Nat) (rec : DTree → DSt F → Option (Formula × DSt F)) : Prop :=
  ∀ t d g d', rec t d = some (g, d') → d.confl ≤ d'.confl ∧ (d'.confl = d.confl → DInv Φ L N nc nm B d → (∀ c ∈ t.leaves, c ∈ L) → Iso L d.s.toCore t →
    Exact nm d.s.toCore t (implied t d) g ∧ Back Φ L N nc nm B d d')

theorem implied_clean {t : DTree} {d : DSt F} (h : d.dirty = false) : implied t d = [] := by
  unfold implied; rw [h]

/-- One branch. -/
theorem branch_ok {rec : DTree → DSt F → Option (Formula × DSt F)} (hrec : RecOk Φ L N nc nm B rec) {t : DTree} {v : Nat} {ph : Bool} {d d' : DSt F} {g : Formula}
    (e : branch C rec t v ph d = some (g, d')) : d.confl ≤ d'.confl ∧ (d'.confl = d.confl → Static L N nc nm → DInv Φ L N nc nm B d → (∀ c ∈ t.leaves, c ∈ L) → Iso L d.s.toCore t →
      v ∈ openVars d.s.toCore t → Back Φ L N nc nm B d d' ∧ ∃ s1 new, Adds d.s.toCore s1 new ∧ Exact nm s1 t new g ∧ mkLit v (!ph) ∈ new ∧
        (∀ l ∈ new, vr l ∈ openVars d.s.toCore t) ∧ ∀ σ, Res nm d.s.toCore t σ → T nm σ (mkLit v (!ph)) → ∀ l ∈ new, T nm σ l) := by
  unfold branch at e
  obtain ⟨⟨d1, ok⟩, e1, e⟩ := Option.bind_eq_some_iff.1 e
  simp only at e
  obtain ⟨⟨g2, d2⟩, e2, e⟩ := Option.bind_eq_some_iff.1 e
  obtain ⟨d3, e3, e⟩ := Option.map_eq_some_iff.1 e
  simp only [Prod.mk.injEq] at e
  obtain ⟨rfl, rfl⟩ := e
  have c1 := decideVar_confl e1
  have c3 : d3.confl = d2.confl := undo_confl e3
  cases ok with
  | false =>
    simp only [Bool.false_eq_true, if_false, Option.some.injEq, Prod.mk.injEq] at e2 c1
    obtain ⟨_, rfl⟩ := e2
    exact ⟨by omega, fun h => by omega⟩
  | true =>
    simp only [if_true] at e2 c1
    obtain ⟨c2, hok⟩ := hrec t d1 g2 d2 e2
    refine ⟨by omega, fun hc st hi ht hiso hv => ?_⟩
    obtain ⟨_, new, hd⟩ := decide_ok st hi ht hiso hv e1 (by omega)
    have himp : implied t d1 = new := by
      unfold implied
      rw [hd.dirty, hd.lim, hd.trail]
      simp only [List.length_append, Nat.add_sub_cancel_right]
      rw [List.take_left', List.filter_eq_self]
      · intro l hl
        exact decide_eq_true (openVars_vars (hd.vars l hl))
      · rfl
    obtain ⟨hex, hb⟩ := hok (by omega) hd.inv ht (hiso.adds hd.adds)
    rw [himp] at hex
    exact ⟨undo_ok hi hd hb e3, d1.s.toCore, new, hd.adds, hex, hd.mem, hd.vars, hd.ent⟩

/-- A child. -/
theorem cnfAux_ok {rec : DTree → DSt F → Option (Formula × DSt F)} (hrec : RecOk Φ L N nc nm B rec) {t : DTree} {d d' : DSt F} {g : Formula}
    (e : cnfAux K nm nc rec t d = some (g, d')) : d.confl ≤ d'.confl ∧ (d'.confl = d.confl → Static L N nc nm → DInv Φ L N nc nm B d → d.dirty = false → (∀ c ∈ t.leaves, c ∈ L) →
      Iso L d.s.toCore t → Exact nm d.s.toCore t [] g ∧ Back Φ L N nc nm B d d') := by
  cases t with
  | leaf id ls =>
    simp only [cnfAux, Option.some.injEq, Prod.mk.injEq] at e
    obtain ⟨rfl, rfl⟩ := e
    refine ⟨Nat.le_refl _, fun _ st hi hdy ht _ => ⟨?_, ⟨hi, rfl, rfl, fun _ _ => rfl, hdy⟩⟩⟩
    have hL : (id, ls) ∈ L := ht _ (by simp [DTree.leaves])
    refine leaf_exact K st.nd (fun l hl => by rw [st.len]; exact st.vr_lt hL hl) (st.dup _ hL) ?_
    by_cases h' : ∃ l ∈ ls, d.s.toCore.value l = some true
    · exact .inl h'
    · exact .inr (hi.open_ hL fun l hl hv => h' ⟨l, hl, hv⟩)
  | node l r =>
    simp only [cnfAux] at e
    split at e
    · rename_i g' hlk
      simp only [Option.some.injEq, Prod.mk.injEq] at e
      obtain ⟨rfl, rfl⟩ := e
      refine ⟨Nat.le_refl _, fun _ st hi hdy ht _ => ⟨?_, ⟨hi, rfl, rfl, fun _ _ => rfl, hdy⟩⟩⟩
      have hm : (cacheKey nc d.s.toCore (.node l r), g') ∈ d.cache := by
        obtain ⟨a, b, hab, _⟩ := List.lookup_eq_some_iff.1 hlk
        rw [hab]; simp
      obtain ⟨s, t', hn, ht', hk, hex⟩ := hi.cache _ hm
      exact exact_key st.inj st.ids (fun c hc l hl => st.vr_lt hc hl) hi.nv hn ht ht' hk hex
    · obtain ⟨⟨g1, d1⟩, e1, e⟩ := Option.map_eq_some_iff.1 e
      simp only [Prod.mk.injEq] at e
      obtain ⟨rfl, rfl⟩ := e
      obtain ⟨c1, hok⟩ := hrec _ _ _ _ e1
      have hcc : (if g1 = .fls then d1 else { d1 with cache := (cacheKey nc d.s.toCore (.node l r), g1) :: d1.cache }).confl = d1.confl := by split <;> rfl
      rw [hcc]
      refine ⟨c1, fun hc st hi hdy ht hiso => ?_⟩
      obtain ⟨hex, hb⟩ := hok hc hi ht hiso
      rw [implied_clean hdy] at hex
      refine ⟨hex, ?_⟩
      rw [if_neg hex.ne_fls]
      have h := hb.inv
      refine ⟨⟨h.inv, h.qh, h.heap, h.nv, h.base, h.l1, h.l2, fun p hp => ?_⟩, hb.trail, hb.lim, hb.lev, hb.dirty⟩
      rcases List.mem_cons.1 hp with rfl | hp
      · exact ⟨d.s.toCore, _, hi.nv, ht, rfl, hex⟩
      · exact h.cache p hp

theorem implied_props {d : DSt F} (h : DInv Φ L N nc nm B d) (t : DTree) : (∀ l ∈ implied t d, l ∈ d.s.trail) ∧ ((implied t d).map vr).Nodup := by
  have hsub : (implied t d).Sublist d.s.trail := by
    unfold implied
    split
    · exact List.filter_sublist.trans (List.take_sublist _ _)
    · exact List.nil_sublist _
  refine ⟨fun l hl => hsub.subset hl, ?_⟩
  have : (d.s.trail.map vr).Nodup := List.Nodup.map_on (fun a ha b hb e => h.inv.trail_inj ha hb e) h.inv.nodup
  exact this.sublist (hsub.map vr)

/-- Without a conflict, `cnf2ddnnf` is right. -/
theorem cnf2ddnnf_ok (st : Static L N nc nm) (fuel : Nat) : RecOk Φ L N nc nm B (cnf2ddnnf K C nm nc fuel) := by
  induction fuel with
  | zero => intro t d g d' e; simp [cnf2ddnnf] at e
  | succ fuel ih =>
    intro t d g d' e
    unfold cnf2ddnnf at e
    simp only at e
    obtain ⟨d0, hd0⟩ : ∃ d0 : DSt F, d0 = { d with dirty := false } := ⟨_, rfl⟩
    rw [← hd0] at e
    have hs0 : d0.s = d.s := by rw [hd0]
    have hf0 : d0.confl = d.confl := by rw [hd0]
    have hdy0 : d0.dirty = false := by rw [hd0]
    have hi0 : DInv Φ L N nc nm B d → DInv Φ L N nc nm B d0 := fun h => by rw [hd0]; exact { h with }
    have himp : ∀ (h : DInv Φ L N nc nm B d), (∀ l ∈ implied t d, vr l < nm.length) ∧ ((implied t d).map vr).Nodup ∧ ∀ l ∈ implied t d, d.s.toCore.value l ≠ none := by
      intro h
      obtain ⟨a, b⟩ := implied_props h t
      refine ⟨fun l hl => ?_, b, fun l hl hv => ?_⟩
      · rw [st.len, ← h.nv]; exact vr_lt.2 (h.inv.rng l (a l hl))
      · rw [(h.inv.val l).2 (a l hl)] at hv; cases hv
    have hback : ∀ d'', Back Φ L N nc nm B d0 d'' → Back Φ L N nc nm B d d'' := fun d'' hb =>
      ⟨hb.inv, by rw [hb.trail, hs0], by rw [hb.lim, hs0], fun l hl => by rw [hb.lev l (by rw [hs0]; exact hl), hs0], hb.dirty⟩
    split at e
    · rename_i hsep
      cases t with
      | leaf id ls =>
        simp only [Option.some.injEq, Prod.mk.injEq] at e
        obtain ⟨rfl, rfl⟩ := e
        refine ⟨Nat.le_of_eq hf0.symm, fun _ hi ht hiso => ⟨?_, hback _ ⟨hi0 hi, rfl, rfl, fun _ _ => rfl, hdy0⟩⟩⟩
        have hL : (id, ls) ∈ L := ht _ (by simp [DTree.leaves])
        have hex := leaf_exact (id := id) (s := d.s.toCore) K st.nd (fun l hl => by rw [st.len]; exact st.vr_lt hL hl) (st.dup _ hL) (by
          by_cases h' : ∃ l ∈ ls, d.s.toCore.value l = some true
          · exact .inl h'
          · exact .inr (hi.open_ hL fun l hl hv => h' ⟨l, hl, hv⟩))
        obtain ⟨p1, p2, p3⟩ := himp hi
        refine exact_conj st.nd p1 p2 p3 (fun v hv => by rw [st.len]; exact openVars_lt st ht hv) (fun σ => ?_) ?_ ?_ (by simp)
        · have := hex.eval σ
          simpa using this
        · intro g hg x hx
          rw [List.mem_singleton] at hg; subst hg
          obtain ⟨v, hv | hv, e⟩ := hex.occ x hx
          · simp at hv
          · exact ⟨v, hv, e⟩
        · intro g hg
          rw [List.mem_singleton] at hg; subst hg
          exact ⟨hex.norm, hex.ddnnf, hex.sat⟩
      | node l r =>
        simp only [conjoin] at e
        have hne : DInv Φ L N nc nm B d → mkAnd K ((implied (.node l r) d).map fun l => .lit (litOf nm l)) ≠ .fls := by
          intro hi e
          obtain ⟨p1, p2, _⟩ := himp hi
          obtain ⟨σ, h⟩ := (imp_ok K st.nd p1 p2).2.2.2.2.1
          rw [e] at h; cases h
        split at e
        · rename_i hfl
          simp only [Option.some.injEq, Prod.mk.injEq] at e
          obtain ⟨_, rfl⟩ := e
          exact ⟨Nat.le_of_eq hf0.symm, fun _ hi => absurd hfl (hne hi)⟩
        · obtain ⟨⟨a, d1⟩, e1, e⟩ := Option.bind_eq_some_iff.1 e
          obtain ⟨c1, ok1⟩ := cnfAux_ok (K := K) ih e1
          simp only at e
          split at e
          · rename_i ha
            simp only [Option.some.injEq, Prod.mk.injEq] at e
            obtain ⟨_, rfl⟩ := e
            refine ⟨by omega, fun hc hi ht hiso => ?_⟩
            obtain ⟨x1, _⟩ := ok1 (by omega) st (hi0 hi) hdy0 (fun c hc => ht c (by simp [DTree.leaves, hc])) (by rw [hs0]; exact hiso.left hsep)
            exact absurd ha x1.ne_fls
          · obtain ⟨⟨b, d2⟩, e2, e⟩ := Option.bind_eq_some_iff.1 e
            obtain ⟨c2, ok2⟩ := cnfAux_ok (K := K) ih e2
            simp only at e
            have main : d2.confl = d.confl → DInv Φ L N nc nm B d → (∀ c ∈ (DTree.node l r).leaves, c ∈ L) → Iso L d.s.toCore (.node l r) →
                Exact nm d.s.toCore l [] a ∧ Exact nm d.s.toCore r [] b ∧ Back Φ L N nc nm B d d2 := by
              intro hc hi ht hiso
              obtain ⟨x1, b1⟩ := ok1 (by omega) st (hi0 hi) hdy0 (fun c hc => ht c (by simp [DTree.leaves, hc])) (by rw [hs0]; exact hiso.left hsep)
              have hv1 := b1.value (hi0 hi)
              obtain ⟨x2, b2⟩ := ok2 (by omega) st b1.inv b1.dirty (fun c hc => ht c (by simp [DTree.leaves, hc])) (by rw [hs0] at hv1; exact (hiso.right hsep).congr hv1)
              rw [hs0] at x1 hv1
              exact ⟨x1, x2.congr hv1.symm, hback _ (b1.trans b2)⟩
            split at e
            · rename_i hb
              simp only [Option.some.injEq, Prod.mk.injEq] at e
              obtain ⟨_, rfl⟩ := e
              refine ⟨by omega, fun hc hi ht hiso => ?_⟩
              exact absurd hb (main hc hi ht hiso).2.1.ne_fls
            · simp only [Option.some.injEq, Prod.mk.injEq] at e
              obtain ⟨rfl, rfl⟩ := e
              refine ⟨by omega, fun hc hi ht hiso => ?_⟩
              obtain ⟨x1, x2, hb⟩ := main hc hi ht hiso
              refine ⟨?_, hb⟩
              obtain ⟨p1, p2, p3⟩ := himp hi
              have o1 : ∀ x, Occ x a → ∃ v ∈ openVars d.s.toCore l, x = nm.getD v default := fun x hx => by
                obtain ⟨v, hv | hv, e⟩ := x1.occ x hx
                · simp at hv
                · exact ⟨v, hv, e⟩
              have o2 : ∀ x, Occ x b → ∃ v ∈ openVars d.s.toCore r, x = nm.getD v default := fun x hx => by
                obtain ⟨v, hv | hv, e⟩ := x2.occ x hx
                · simp at hv
                · exact ⟨v, hv, e⟩
              refine exact_conj st.nd p1 p2 p3 (fun v hv => by rw [st.len]; exact openVars_lt st ht hv) (fun σ => ?_) ?_ ?_ ?_
              · have y1 := x1.eval σ
                have y2 := x2.eval σ
                simp only [List.not_mem_nil, false_imp_iff, implies_true, true_and] at y1 y2
                simp only [List.mem_cons, List.not_mem_nil, or_false, forall_eq_or_imp, forall_eq, y1, y2]
                exact res_node.symm
              · intro g hg x hx
                simp only [List.mem_cons, List.not_mem_nil, or_false] at hg
                rcases hg with rfl | rfl
                · obtain ⟨v, hv, e⟩ := o1 x hx; exact ⟨v, openVars_node.2 (.inl hv), e⟩
                · obtain ⟨v, hv, e⟩ := o2 x hx; exact ⟨v, openVars_node.2 (.inr hv), e⟩
              · intro g hg
                simp only [List.mem_cons, List.not_mem_nil, or_false] at hg
                rcases hg with rfl | rfl
                · exact ⟨x1.norm, x1.ddnnf, x1.sat⟩
                · exact ⟨x2.norm, x2.ddnnf, x2.sat⟩
              · simp only [List.pairwise_cons, List.mem_singleton, forall_eq, List.not_mem_nil, false_imp_iff, implies_true, List.Pairwise.nil, and_true]
                rintro x ⟨h1, h2⟩
                obtain ⟨v, hv, e⟩ := o1 x h1
                obtain ⟨w, hw, e'⟩ := o2 x h2
                have hvw := name_inj st.nd (by rw [st.len]; exact openVars_lt st ht (openVars_node.2 (.inl hv))) (by rw [st.len]; exact openVars_lt st ht (openVars_node.2 (.inr hw))) (e.symm.trans e')
                rw [← hvw] at hw
                exact separator_nil hsep hv hw
    · rename_i hsep
      obtain ⟨v, ev, e⟩ := Option.bind_eq_some_iff.1 e
      obtain ⟨⟨pos, d1⟩, e1, e⟩ := Option.bind_eq_some_iff.1 e
      obtain ⟨c1, ok1⟩ := branch_ok ih e1
      have hvo : DInv Φ L N nc nm B d → (∀ c ∈ t.leaves, c ∈ L) → v ∈ openVars d.s.toCore t := fun hi ht =>
        separator_open (chooseVar_sep ev hsep fun w hw => by rw [hi.nv]; exact openVars_lt st ht (separator_open hw))
      have hret : ∀ (x : DSt F) (g' : Formula) (y : DSt F), retry C (cnf2ddnnf K C nm nc fuel) t x = some (g', y) → x.confl ≤ y.confl := by
        intro x g' y ex
        unfold retry at ex
        split at ex
        · obtain ⟨⟨z, ok⟩, ez, ex⟩ := Option.bind_eq_some_iff.1 ex
          have cz := assertCd_confl ez
          simp only at ex
          split at ex
          · have := (ih _ _ _ _ ex).1; omega
          · simp only [Option.some.injEq, Prod.mk.injEq] at ex
            obtain ⟨_, rfl⟩ := ex; omega
        · simp only [Option.some.injEq, Prod.mk.injEq] at ex
          obtain ⟨_, rfl⟩ := ex; omega
      simp only at e
      split at e
      · rename_i hp
        have := hret _ _ _ e
        refine ⟨by omega, fun hc hi ht hiso => ?_⟩
        obtain ⟨_, s1, new, _, x1, _⟩ := ok1 (by omega) st (hi0 hi) ht (by rw [hs0]; exact hiso) (by rw [hs0]; exact hvo hi ht)
        exact absurd hp x1.ne_fls
      · obtain ⟨⟨ng, d2⟩, e2, e⟩ := Option.bind_eq_some_iff.1 e
        obtain ⟨c2, ok2⟩ := branch_ok ih e2
        have main : d2.confl = d.confl → DInv Φ L N nc nm B d → (∀ c ∈ t.leaves, c ∈ L) → Iso L d.s.toCore t → Back Φ L N nc nm B d d2 ∧ ng ≠ .fls ∧
            Exact nm d.s.toCore t [] (mkOr K [mkAnd K [.lit ⟨nm.getD v default, true⟩, pos], mkAnd K [.lit (Lit.mk (nm.getD v default) true).neg, ng]]) := by
          intro hc hi ht hiso
          obtain ⟨b1, s1, n1, a1, x1, m1, v1, f1⟩ := ok1 (by omega) st (hi0 hi) ht (by rw [hs0]; exact hiso) (by rw [hs0]; exact hvo hi ht)
          have hv1 := b1.value (hi0 hi)
          rw [hs0] at a1 v1 f1 hv1
          obtain ⟨b2, s2, n2, a2, x2, m2, v2, f2⟩ := ok2 (by omega) st b1.inv ht (hiso.congr hv1) (by rw [openVars_congr hv1]; exact hvo hi ht)
          rw [openVars_congr hv1] at v2
          refine ⟨hback _ (b1.trans b2), x2.ne_fls, ?_⟩
          refine exact_shannon a1 ⟨fun l => by rw [← hv1]; exact a2.val l, fun l hl => by rw [← hv1]; exact a2.free l hl⟩ x1 x2 m1 m2 v1 v2 f1 fun σ hR => f2 σ ((Res.congr hv1).2 hR)
        simp only at e
        split at e
        · rename_i hn
          have := hret _ _ _ e
          refine ⟨by omega, fun hc hi ht hiso => ?_⟩
          exact absurd hn (main (by omega) hi ht hiso).2.1
        · simp only [Option.some.injEq, Prod.mk.injEq] at e
          obtain ⟨rfl, rfl⟩ := e
          refine ⟨by omega, fun hc hi ht hiso => ?_⟩
          obtain ⟨hb, _, hex⟩ := main hc hi ht hiso
          refine ⟨?_, hb⟩
          obtain ⟨p1, p2, p3⟩ := himp hi
          refine exact_conj st.nd p1 p2 p3 (fun v hv => by rw [st.len]; exact openVars_lt st ht hv) (fun σ => ?_) ?_ ?_ (by simp)
          · have := hex.eval σ
            simpa using this
          · intro g hg x hx
            rw [List.mem_singleton] at hg; subst hg
            obtain ⟨v, hv | hv, e⟩ := hex.occ x hx
            · simp at hv
            · exact ⟨v, hv, e⟩
          · intro g hg
            rw [List.mem_singleton] at hg; subst hg
            exact ⟨hex.norm, hex.ddnnf, hex.sat⟩

end

end Verif.Dnnf
