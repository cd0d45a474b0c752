import Verif.F.EncVars
import Verif.F.World
import Verif.Props.Factory
import Verif.Props.Ops
/-
Correctness of the cached encodings of constraints in any state of the factory.
-/
namespace Verif
open ER

/-- The clause list `L` is a recorded encoding of `P`, over existing variables. -/
structure EncOf (E : List Ent) (c : AuxTy → Nat) (P : Asg → Prop) (L : List Clause) : Prop where
  mem : ⟨P, fun σ => LSat σ L⟩ ∈ E
  old : ∀ cl ∈ L, ∀ l ∈ cl, (cER c).Old l.v

theorem EncOf.mono {E c E' c' P L} (h : EncOf E c P L) (hx : GExt c E c' E') : EncOf E' c' P L :=
  ⟨hx.sub _ h.mem, fun cl hc l hl => hx.old (h.old cl hc l hl)⟩

/-- Constants and literals. -/
def leafF : Formula → Bool
  | .tru | .fls | .lit _ => true
  | _ => false

/-- Invariant of the caches. -/
structure WInv (c0 : AuxTy → Nat) (w : World) (E : List Ent) : Prop where
  base : EInv c0 w.cnt E
  cc : ∀ c L, w.ccEnc c = some L → EncOf E w.cnt (fun σ => c.eval σ = true) L
  pbc : ∀ p L, w.pbcEnc p = some L → EncOf E w.cnt (fun σ => p.eval σ = true) L
  nnf : ∀ f g, w.nnf f = some g → TrOk IsNnf E w.cnt (fun σ => f.eval σ = true) (NoCon f) (Occ · f) g ∧ (leafF f = true → g = f)
  cnfF : ∀ f g, w.cnfF f = some g → TrOk IsCnf E w.cnt (fun σ => f.eval σ = true) (NoCon f) (Occ · f) g
  dnfF : ∀ f g, w.dnfF f = some g → TrOk IsDnf E w.cnt (fun σ => f.eval σ = true) (NoCon f) (Occ · f) g
  isNnf : w.isNnf.Valid fnNnf.val
  isDnf : w.isDnf.Valid fnDnf.val
  vars : VarsInv (fun _ => 0) w

/-- Counters and ghost state may grow without touching the caches. -/
theorem WInv.grow {c0 w E c' E'} (h : WInv c0 w E) (hb : EInv c0 c' E') (hx : GExt w.cnt E c' E') : WInv c0 { w with cnt := c' } E' where
  base := hb
  cc c L e := (h.cc c L e).mono hx
  pbc p L e := (h.pbc p L e).mono hx
  nnf f g e := ⟨(h.nnf f g e).1.mono hx, (h.nnf f g e).2⟩
  cnfF f g e := (h.cnfF f g e).mono hx
  dnfF f g e := (h.dnfF f g e).mono hx
  isNnf := h.isNnf
  isDnf := h.isDnf
  vars := ⟨fun _ => Nat.zero_le _, h.vars.cc, h.vars.pbc⟩

theorem CC.holds_iff (c : CC) (σ : Asg) : c.Holds σ ↔ c.eval σ = true := by
  unfold CC.Holds CC.eval
  cases c.cmp <;> simp [Cmp.test]
  omega

theorem Dep.cc {cn : AuxTy → Nat} {c : CC} (h : ∀ v ∈ c.vars, (cER cn).Old v) : Dep cn (fun σ => c.eval σ = true) :=
  Dep.formula (f := .cc c) fun v hv => h v ((Formula.occ_cc ..).1 hv)

theorem Dep.pbc {cn : AuxTy → Nat} {p : PBC} (h : ∀ t ∈ p.terms, (cER cn).Old t.1.v) : Dep cn (fun σ => p.eval σ = true) :=
  Dep.formula (f := .pbc p) fun v hv => by obtain ⟨t, ht, rfl⟩ := (Formula.occ_pbc ..).1 hv; exact h t ht

/-- Outcome of an encoding step. -/
def EncStep (c0 : AuxTy → Nat) (w : World) (E : List Ent) (P : Asg → Prop) (r : Option (List Clause × World)) : Prop :=
  ∃ L w' E', r = some (L, w') ∧ WInv c0 w' E' ∧ GExt w.cnt E w'.cnt E' ∧ EncOf E' w'.cnt P L

theorem encodeCc_ok {cfg : FCfg} (hcfg : cfg.cc.Good) {c0 w E} (h : WInv c0 w E) {c : CC} (hok : c.Ok)
    (hlen : c.vars.length + 1 < 2 ^ 30) (hn : cfg.cc.CardNet → c.vars.Nodup) (ho : ∀ v ∈ c.vars, (cER w.cnt).Old v) :
    EncStep c0 w E (fun σ => c.eval σ = true) (encodeCc cfg c w) := by
  unfold encodeCc
  cases hm : w.ccEnc c with
  | some L => exact ⟨L, w, E, rfl, h, GExt.refl _ _, h.cc c L hm⟩
  | none =>
    obtain ⟨s', e, he⟩ := C24_encode_constraint cfg.cc hcfg c (cER w.cnt) (c.vars.length + 1) (by omega) (by omega) (cER_wf _) ho hn
      (by intro hc; have := hok.isCc; rw [hc] at this; simp [Formula.isCc] at this; omega)
    have he : Encodes (cER w.cnt) s' (fun σ => c.eval σ = true) := he.congr (CC.holds_iff c)
    simp only [e]
    have hb := h.base.encode (Dep.cc ho) he
    have hx : GExt w.cnt E s'.cnt (E ++ [⟨fun σ => c.eval σ = true, fun σ => LSat σ s'.clauses⟩]) :=
      ⟨he.le.1, fun e he => List.mem_append_left _ he⟩
    have hL : EncOf (E ++ [⟨fun σ => c.eval σ = true, fun σ => LSat σ s'.clauses⟩]) s'.cnt (fun σ => c.eval σ = true) s'.clauses :=
      ⟨by simp, fun cl hc l hl => old_cER.2 (he.wf cl hc l hl)⟩
    have hg := h.grow hb hx
    refine ⟨_, _, _, rfl, ⟨hg.base, fun c' L' e' => ?_, hg.pbc, hg.nnf, hg.cnfF, hg.dnfF, hg.isNnf, hg.isDnf, ?_⟩, hx, hL⟩
    rotate_left
    · exact (encodeCc_vars (cfg := cfg) (c := c) h.vars (by unfold encodeCc; simp only [hm, e]; rfl)).1
    simp only at e'
    split at e'
    · rcases insKeep_some e' with e' | ⟨rfl, _, rfl⟩
      · exact hg.cc c' L' e'
      · exact hL
    · exact hg.cc c' L' e'

/-- Normal constraints and constants, with their sizes. -/
inductive Enc1 (V : Var → Prop) : Formula → Prop
  | cc {c : CC} : c.Ok → c.vars.length + 1 < 2 ^ 30 → c.vars.Nodup → (∀ v ∈ c.vars, V v) → Enc1 V (.cc c)
  | pbc {q : PBC} : q.cmp = .le → NormTerms q.rhs q.terms → q.terms.length + 1 < 2 ^ 30 →
      absSum q.terms + (if q.rhs ≥ 0 then q.rhs else -q.rhs) < 2 ^ 63 - 1 → (∀ t ∈ q.terms, V t.1.v) → Enc1 V (.pbc q)

theorem enc1_of {V n B f} (h1 : IsNormLe f) (h2 : SmallLe V n B f) (hn : f.Norm) (hl : n + 1 < 2 ^ 30) (hB : B < 2 ^ 63 - 1) :
    f = .tru ∨ f = .fls ∨ (∃ c, f = .cc c ∧ c.Ok ∧ c.vars.length + 1 < 2 ^ 30 ∧ c.vars.Nodup ∧ ∀ v ∈ c.vars, V v) ∨
    (∃ q, f = .pbc q ∧ q.cmp = .le ∧ NormTerms q.rhs q.terms ∧ q.terms.length + 1 < 2 ^ 30 ∧ coefSum q.terms ≤ B ∧
      ∀ t ∈ q.terms, V t.1.v) := by
  rcases h1 with h1 | h1 | ⟨c, rfl, _, h4, _⟩ | ⟨q, rfl, h3, h4⟩
  · exact .inl h1
  · exact .inr (.inl h1)
  · obtain ⟨a, b⟩ := h2.cc c rfl
    cases hn with
    | cc hok => exact .inr (.inr (.inl ⟨c, rfl, hok, by omega, h4, b⟩))
  · obtain ⟨a, b, d⟩ := h2.pbc q rfl
    exact .inr (.inr (.inr ⟨q, rfl, h3, h4, by omega, b, d⟩))

theorem norm_absSum {rhs : Int} {ts : List (Lit × Int)} (h : NormTerms rhs ts) : absSum ts = coefSum ts :=
  (coefSum_nonneg fun t ht => by have := h.pos t ht; omega).symm

theorem EncStep.const_true {c0 w E} (h : WInv c0 w E) {P : Asg → Prop} (hP : ∀ σ, P σ) : EncStep c0 w E P (some ([], w)) := by
  have hx : GExt w.cnt E w.cnt (E ++ [⟨P, fun σ => LSat σ []⟩]) := ⟨fun _ => Nat.le_refl _, fun e he => List.mem_append_left _ he⟩
  refine ⟨[], w, _, rfl, h.grow (h.base.comp _ (fun _ _ _ _ => hP _) ?_ (fun σ _ => hP σ) ?_) hx, hx, ⟨by simp, by simp⟩⟩
  · intro σ σ' _ _ c hc; simp at hc
  · intro σ _ _ c hc; simp at hc

theorem EncStep.const_false {c0 w E} (h : WInv c0 w E) {P : Asg → Prop} (hP : ∀ σ, ¬ P σ) : EncStep c0 w E P (some ([[]], w)) := by
  have hx : GExt w.cnt E w.cnt (E ++ [⟨P, fun σ => LSat σ [[]]⟩]) := ⟨fun _ => Nat.le_refl _, fun e he => List.mem_append_left _ he⟩
  have hf : ∀ σ, ¬ LSat σ [[]] := fun σ hs => Clause.sat_nil σ (hs [] (by simp))
  refine ⟨[[]], w, _, rfl, h.grow (h.base.comp _ (fun _ _ _ hp => absurd hp (hP _)) ?_ (fun σ hs => absurd hs (hf σ)) ?_) hx, hx, ⟨by simp, by simp⟩⟩
  · intro σ σ' _ hs; exact absurd hs (hf σ)
  · intro σ _ hp; exact absurd hp (hP σ)

theorem EncStep.congr {c0 w E P P' r} (h : EncStep c0 w E P r) (hP : ∀ σ, P σ ↔ P' σ) : EncStep c0 w E P' r := by
  have : P = P' := funext fun σ => propext (hP σ)
  subst this; exact h

/-- `PbEncoder::encode` for constraints that are not equations. -/
theorem encodePb_le {C : Canon} {cfg : FCfg} (hcfg : cfg.cc.Good) {c0 w E} (h : WInv c0 w E) {p : PBC} (n : Nat) (hne : p.cmp ≠ .eq)
    (hlen : p.terms.length + 1 < 2 ^ 30) (hb : absSum p.terms + (if p.rhs ≥ 0 then p.rhs else -p.rhs) < 2 ^ 63 - 1)
    (ho : ∀ t ∈ p.terms, (cER w.cnt).Old t.1.v) :
    EncStep c0 w E (fun σ => p.eval σ = true) (encodePb C cfg (n + 1) p w) := by
  obtain ⟨f, e, _, h1, h2, h3⟩ := normalize_spec C (by omega : p.terms.length < 2 ^ 32) hb
  have h4 := (normalize_small C hb ho e).1 hne
  have hr : 0 ≤ (if p.rhs ≥ 0 then p.rhs else -p.rhs) := by split <;> omega
  have hiff : ∀ σ, p.eval σ = true ↔ f.eval σ = true := fun σ => by rw [h3]
  simp only [encodePb, e]
  rcases enc1_of (h1 hne) h4 h2 hlen (by omega) with rfl | rfl | ⟨c, rfl, k1, k2, k3, k4⟩ | ⟨q, rfl, k1, k2, k3, _, k4⟩
  · exact EncStep.const_true h fun σ => by rw [hiff]; simp
  · exact EncStep.const_false h fun σ => by rw [hiff]; simp
  · exact (encodeCc_ok hcfg h k1 k2 (fun _ => k3) k4).congr fun σ => by rw [hiff]; simp
  · obtain ⟨s', e', he⟩ := encodeInternal_encodes cfg.pb (rhs := q.rhs) (cER_wf w.cnt) k4 k2.pos k2.nodup k3
    have he : Encodes (cER w.cnt) s' (fun σ => p.eval σ = true) := he.congr fun σ => by
      rw [hiff]; simp [PBC.eval, k1, Cmp.test]
    simp only [e', Option.map_some]
    have hx : GExt w.cnt E s'.cnt (E ++ [⟨fun σ => p.eval σ = true, fun σ => LSat σ s'.clauses⟩]) :=
      ⟨he.le.1, fun e he => List.mem_append_left _ he⟩
    exact ⟨_, _, _, rfl, h.grow (h.base.encode (Dep.pbc ho) he) hx, hx, ⟨by simp, fun cl hc l hl => old_cER.2 (he.wf cl hc l hl)⟩⟩

theorem lsat_append {σ : Asg} {L L' : List Clause} : LSat σ (L ++ L') ↔ LSat σ L ∧ LSat σ L' := by
  simp [LSat, or_imp, forall_and]

theorem encodeOps_ok {cfg : FCfg} {c0} {r : PBC → World → Option (List Clause × World)} {cS ES} (fs : List Formula)
    (hcc : ∀ c, Formula.cc c ∈ fs → ∀ w E, WInv c0 w E → GExt cS ES w.cnt E → EncStep c0 w E (fun σ => c.eval σ = true) (encodeCc cfg c w))
    (hpb : ∀ p, Formula.pbc p ∈ fs → ∀ w E, WInv c0 w E → GExt cS ES w.cnt E → EncStep c0 w E (fun σ => p.eval σ = true) (r p w))
    (hall : ∀ f ∈ fs, (∃ c, f = .cc c) ∨ ∃ p, f = .pbc p) :
    ∀ w E, WInv c0 w E → GExt cS ES w.cnt E → ∃ L w' E', encodeOps cfg r fs w = some (L, w') ∧ WInv c0 w' E' ∧ GExt w.cnt E w'.cnt E' ∧
      (∀ cl ∈ L, ∀ l ∈ cl, (cER w'.cnt).Old l.v) ∧ (∀ σ, LSat σ L → ∀ f ∈ fs, f.eval σ = true) ∧
      (∀ σ, EncOk E' σ → (∀ f ∈ fs, f.eval σ = true) → LSat σ L) := by
  induction fs with
  | nil => intro w E h hx; exact ⟨[], w, E, rfl, h, GExt.refl _ _, by simp, by simp, by simp [LSat]⟩
  | cons f fs ih =>
    intro w E h hx
    have step : ∃ L w' E', (match f with
        | .pbc p => r p w
        | .cc c => encodeCc cfg c w
        | _ => none) = some (L, w') ∧ WInv c0 w' E' ∧ GExt w.cnt E w'.cnt E' ∧ EncOf E' w'.cnt (fun σ => f.eval σ = true) L := by
      rcases hall f (by simp) with ⟨c, rfl⟩ | ⟨p, rfl⟩
      · exact hcc c (by simp) w E h hx
      · exact hpb p (by simp) w E h hx
    obtain ⟨L, w1, E1, e1, h1, x1, o1⟩ := step
    obtain ⟨L2, w2, E2, e2, h2, x2, o2, s2, k2⟩ := ih (fun c hc => hcc c (by simp [hc])) (fun p hp => hpb p (by simp [hp]))
      (fun f hf => hall f (by simp [hf])) w1 E1 h1 (hx.trans x1)
    have o1' := o1.mono x2
    refine ⟨L ++ L2, w2, E2, ?_, h2, x1.trans x2, ?_, ?_, ?_⟩
    · rcases hall f (by simp) with ⟨c, rfl⟩ | ⟨p, rfl⟩ <;> (simp only at e1; simp only [encodeOps, e1, e2])
    · intro cl hc l hl
      rcases List.mem_append.1 hc with hc | hc
      · exact o1'.old cl hc l hl
      · exact o2 cl hc l hl
    · intro σ hs g hg
      rw [lsat_append] at hs
      rcases List.mem_cons.1 hg with rfl | hg
      · exact h2.base.sound _ o1'.mem σ hs.1
      · exact s2 σ hs.2 g hg
    · intro σ hk hs
      rw [lsat_append]
      exact ⟨hk _ o1'.mem (hs f (by simp)), k2 σ hk fun g hg => hs g (by simp [hg])⟩

theorem oleaf_atom {o g f} (h : OLeaf o g f) (hf : ∀ gs, f ≠ .nary o gs) : g = f := by
  cases h with
  | self _ => rfl
  | nary _ _ => exact absurd rfl (hf _)

/-- `PbEncoder::encode`. -/
theorem encodePb_ok {C : Canon} {cfg : FCfg} (hcfg : cfg.cc.Good) {c0 w E} (h : WInv c0 w E) {p : PBC}
    (hlen : p.terms.length + 1 < 2 ^ 30) (hb : absSum p.terms + (if p.rhs ≥ 0 then p.rhs else -p.rhs) < 2 ^ 62)
    (ho : ∀ t ∈ p.terms, (cER w.cnt).Old t.1.v) :
    EncStep c0 w E (fun σ => p.eval σ = true) (encodePb C cfg 2 p w) := by
  by_cases hne : p.cmp = .eq
  case neg => exact encodePb_le hcfg h 1 hne hlen (by omega) ho
  obtain ⟨f, e, _, _, h2, h3⟩ := normalize_spec C (by omega : p.terms.length < 2 ^ 32) (by omega)
  obtain ⟨g, k, ef, sg, sk, eg, ek⟩ := (normalize_small C (by omega) ho e).2 hne
  have hr : 0 ≤ (if p.rhs ≥ 0 then p.rhs else -p.rhs) := by split <;> omega
  have hiff : ∀ σ, p.eval σ = true ↔ f.eval σ = true := fun σ => by rw [h3]
  -- what the operands can be
  have atoms : ∀ x, x = g ∨ x = k → x.Norm → x.isConst = false →
      (∃ c, x = .cc c ∧ c.Ok ∧ c.vars.length + 1 < 2 ^ 30 ∧ c.vars.Nodup ∧ ∀ v ∈ c.vars, (cER w.cnt).Old v) ∨
      (∃ q, x = .pbc q ∧ q.cmp = .le ∧ NormTerms q.rhs q.terms ∧ q.terms.length + 1 < 2 ^ 30 ∧ coefSum q.terms ≤ absSum p.terms ∧
        ∀ t ∈ q.terms, (cER w.cnt).Old t.1.v) := by
    intro x hx hn hc
    have hg : IsNormLe g := by
      obtain ⟨_, e', r, _⟩ := normalizeLe_spec (by omega : p.terms.length < 2 ^ 32) (by omega : absSum p.terms + (if p.rhs ≥ 0 then p.rhs else -p.rhs) < 2 ^ 63)
      rw [eg] at e'; injection e' with e'; rw [e']; exact r
    have hk : IsNormLe k := by
      obtain ⟨_, e', r, _⟩ := normalizeLe_spec (ts := p.terms.map fun t => (t.1, -t.2)) (rhs := -p.rhs) (by simp; omega)
        (by rw [absSum_neg]; split at hb <;> split <;> omega)
      rw [ek] at e'; injection e' with e'; rw [e']; exact r
    have hx1 : IsNormLe x := by rcases hx with rfl | rfl <;> assumption
    have hx2 : SmallLe (cER w.cnt).Old p.terms.length (absSum p.terms) x := by rcases hx with rfl | rfl <;> assumption
    rcases enc1_of hx1 hx2 hn hlen (by omega) with rfl | rfl | h | h
    · simp [Formula.isConst] at hc
    · simp [Formula.isConst] at hc
    · exact .inl h
    · exact .inr h
  have leaf : ∀ x y, y ∈ [g, k] → OLeaf .conj x y → x = g ∨ x = k := by
    intro x y hy hl
    simp only [List.mem_cons, List.not_mem_nil, or_false] at hy
    rcases hy with rfl | rfl
    · exact .inl (oleaf_atom hl (sg.nary _))
    · exact .inr (oleaf_atom hl (sk.nary _))
  have base1 : ∀ x, x = g ∨ x = k → f = x → EncStep c0 w E (fun σ => p.eval σ = true) (encodePb C cfg 2 p w) := by
    intro x hx hfx
    by_cases hc : x.isConst = true
    · rw [encodePb, e]
      cases x <;> simp [Formula.isConst] at hc
      · rw [hfx] at hiff ⊢; exact EncStep.const_true h fun σ => by rw [hiff]; simp
      · rw [hfx] at hiff ⊢; exact EncStep.const_false h fun σ => by rw [hiff]; simp
    · rcases atoms x hx (hfx ▸ h2) (by simpa using hc) with ⟨c, rfl, k1, k2, k3, k4⟩ | ⟨q, rfl, k1, k2, k3, _, k4⟩
      · rw [encodePb, e, hfx]
        exact (encodeCc_ok hcfg h k1 k2 (fun _ => k3) k4).congr fun σ => by rw [hiff, hfx]; simp
      · rw [encodePb, e, hfx]
        obtain ⟨s', e', he⟩ := encodeInternal_encodes cfg.pb (rhs := q.rhs) (cER_wf w.cnt) k4 k2.pos k2.nodup k3
        have he : Encodes (cER w.cnt) s' (fun σ => p.eval σ = true) := he.congr fun σ => by
          rw [hiff, hfx]; simp [PBC.eval, k1, Cmp.test]
        simp only [e', Option.map_some]
        have hx : GExt w.cnt E s'.cnt (E ++ [⟨fun σ => p.eval σ = true, fun σ => LSat σ s'.clauses⟩]) :=
          ⟨he.le.1, fun e he => List.mem_append_left _ he⟩
        exact ⟨_, _, _, rfl, h.grow (h.base.encode (Dep.pbc ho) he) hx, hx, ⟨by simp, fun cl hc l hl => old_cER.2 (he.wf cl hc l hl)⟩⟩
  rcases Formula.mkNary_cases C .conj [g, k] with ⟨ea, _⟩ | ea | ⟨y, hy, hl⟩ | ⟨l, ea, _, hl⟩
  · have ea : f = .fls := ef.trans ea
    rw [encodePb, e, ea]
    exact EncStep.const_false h fun σ => by rw [hiff, ea]; simp
  · have ea : f = .tru := ef.trans ea
    rw [encodePb, e, ea]
    exact EncStep.const_true h fun σ => by rw [hiff, ea]; simp
  · exact base1 _ (leaf _ _ hy hl) ef
  · have ea : f = .nary .conj l := ef.trans ea
    rw [encodePb, e, ea]
    have hn : ∀ x ∈ l, x.Norm := by rw [ea] at h2; cases h2 with | nary _ h _ => exact h
    have hat := fun x hx => atoms x (by obtain ⟨⟨y, hy, hl'⟩, _⟩ := hl x hx; exact leaf _ _ hy hl') (hn x hx) (hl x hx).2
    obtain ⟨L, w', E', e', h', x', o', s', k'⟩ := encodeOps_ok (cfg := cfg) (r := encodePb C cfg 1) (cS := w.cnt) (ES := E) (c0 := c0) l
      (by
        intro c hc w1 E1 h1 x1
        rcases hat _ hc with ⟨c', e, k1, k2, k3, k4⟩ | ⟨q, e, _⟩
        · cases e
          exact encodeCc_ok hcfg h1 k1 k2 (fun _ => k3) fun v hv => x1.old (k4 v hv)
        · cases e)
      (by
        intro q hq w1 E1 h1 x1
        rcases hat _ hq with ⟨c', e, _⟩ | ⟨q', e, k1, k2, k3, k5, k4⟩
        · cases e
        · cases e
          refine encodePb_le hcfg h1 0 (by rw [k1]; simp) k3 ?_ fun t ht => x1.old (k4 t ht)
          have := norm_absSum k2
          have := k2.lt
          have := k2.nonneg
          split <;> omega)
      (by
        intro x hx
        rcases hat x hx with ⟨c, e, _⟩ | ⟨q, e, _⟩
        · exact .inl ⟨c, e⟩
        · exact .inr ⟨q, e⟩)
      w E h (GExt.refl _ _)
    have hall : ∀ σ, p.eval σ = true ↔ ∀ x ∈ l, x.eval σ = true := by
      intro σ; rw [hiff, ea]; simp [Formula.eval_nary, Op.eval]
    have hx2 : GExt w'.cnt E' w'.cnt (E' ++ [⟨fun σ => p.eval σ = true, fun σ => LSat σ L⟩]) :=
      ⟨fun _ => Nat.le_refl _, fun e he => List.mem_append_left _ he⟩
    refine ⟨L, w', _, e', h'.grow (h'.base.comp _ ((Dep.pbc ho).mono x'.le) (Dep.lsat o') ?_ ?_) hx2, x'.trans hx2, ⟨by simp, o'⟩⟩
    · intro σ hs; exact (hall σ).2 (s' σ hs)
    · intro σ hk hp; exact k' σ hk ((hall σ).1 hp)

/-- `PbConstraint::encode`. -/
theorem encodePbc_ok {C : Canon} {cfg : FCfg} (hcfg : cfg.cc.Good) {c0 w E} (h : WInv c0 w E) {p : PBC}
    (hlen : p.terms.length + 1 < 2 ^ 30) (hb : absSum p.terms + (if p.rhs ≥ 0 then p.rhs else -p.rhs) < 2 ^ 62)
    (ho : ∀ t ∈ p.terms, (cER w.cnt).Old t.1.v) :
    EncStep c0 w E (fun σ => p.eval σ = true) (encodePbc C cfg p w) := by
  unfold encodePbc
  cases hm : w.pbcEnc p with
  | some L => exact ⟨L, w, E, rfl, h, GExt.refl _ _, h.pbc p L hm⟩
  | none =>
    obtain ⟨L, w', E', e, h', x', o'⟩ := encodePb_ok (C := C) hcfg h hlen hb ho
    simp only [e]
    refine ⟨L, _, E', rfl, ⟨h'.base, h'.cc, fun q K e' => ?_, h'.nnf, h'.cnfF, h'.dnfF, h'.isNnf, h'.isDnf, ?_⟩, x', o'⟩
    rotate_left
    · exact (encodePbc_vars (C := C) (cfg := cfg) (p := p) h.vars (by unfold encodePbc; simp only [hm, e]; rfl)).1
    simp only at e'
    split at e'
    · rcases insKeep_some e' with e' | ⟨rfl, _, rfl⟩
      · exact h'.pbc q K e'
      · exact o'
    · exact h'.pbc q K e'

end Verif
