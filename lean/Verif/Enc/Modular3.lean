import Verif.Enc.Modular2
namespace Verif
open ER

theorem ceilSqrt_ge_two {n : Nat} (h : 2 ≤ n) : 2 ≤ ceilSqrt n := by
  unfold ceilSqrt
  by_contra hcon
  have hlt : (List.range (n + 1)).findIdx (fun p => decide (n ≤ p * p)) < (List.range (n + 1)).length := by
    simp; omega
  have := List.findIdx_getElem (w := hlt)
  generalize hx : (List.range (n + 1)).findIdx (fun p => decide (n ≤ p * p)) = x at *
  simp at this
  have : x = 0 ∨ x = 1 := by omega
  rcases this with rfl | rfl <;> omega

theorem mem_drop_nth' {l : List Lit} {r : Nat} {v : Lit} : v ∈ l.drop r ↔ ∃ i, r ≤ i ∧ i < l.length ∧ v = l.nth i := by
  rw [List.mem_iff_getElem]
  constructor
  · rintro ⟨i, hi, rfl⟩
    simp at hi
    refine ⟨r + i, by omega, by omega, ?_⟩
    rw [getBang _ _ (by omega)]; simp
  · rintro ⟨i, h1, h2, rfl⟩
    refine ⟨i - r, by simp; omega, ?_⟩
    rw [getBang _ _ h2]; simp [show r + (i - r) = i by omega]

theorem modBound_sat {r md ul ll : Nat} {U W : List Lit} {σ : Asg} (hul : ul = (r + 1) / md) (hll : ll = r + 1 - ul * md) :
    (∀ c ∈ modBound r md U W, Clause.Sat σ c) ↔
    (∀ i, ul ≤ i → i < U.length → (U.nth i).eval σ = false) ∧
    (ul ≠ 0 → ll ≠ 0 → ∀ i, ll - 1 ≤ i → i < W.length → (U.nth (ul - 1)).eval σ = false ∨ (W.nth i).eval σ = false) ∧
    (ul = 0 → ∀ i, ll - 1 ≤ i → i < W.length → (W.nth i).eval σ = false) ∧
    (ul ≠ 0 → ll = 0 → (U.nth (ul - 1)).eval σ = false) := by
  unfold modBound
  simp only [← hul, ← hll, List.mem_append, or_imp, forall_and]
  have h1 : (∀ c ∈ (U.drop ul).map (fun l => [l.neg]), Clause.Sat σ c) ↔
      (∀ i, ul ≤ i → i < U.length → (U.nth i).eval σ = false) := by
    simp only [List.mem_map, mem_drop_nth']
    constructor
    · intro h i h1 h2
      have := h _ ⟨_, ⟨i, h1, h2, rfl⟩, rfl⟩
      simpa using this
    · rintro h c ⟨v, ⟨i, h1, h2, rfl⟩, rfl⟩
      simpa using h i h1 h2
  have h2 : (∀ c ∈ (W.drop (ll - 1)).map (fun l => [(U.nth (ul - 1)).neg, l.neg]), Clause.Sat σ c) ↔
      (∀ i, ll - 1 ≤ i → i < W.length → (U.nth (ul - 1)).eval σ = false ∨ (W.nth i).eval σ = false) := by
    simp only [List.mem_map, mem_drop_nth']
    constructor
    · intro h i h1 h2
      have := h _ ⟨_, ⟨i, h1, h2, rfl⟩, rfl⟩
      simpa using this
    · rintro h c ⟨v, ⟨i, h1, h2, rfl⟩, rfl⟩
      simpa using h i h1 h2
  have h3 : (∀ c ∈ (W.drop (ll - 1)).map (fun l => [l.neg]), Clause.Sat σ c) ↔
      (∀ i, ll - 1 ≤ i → i < W.length → (W.nth i).eval σ = false) := by
    simp only [List.mem_map, mem_drop_nth']
    constructor
    · intro h i h1 h2
      have := h _ ⟨_, ⟨i, h1, h2, rfl⟩, rfl⟩
      simpa using this
    · rintro h c ⟨v, ⟨i, h1, h2, rfl⟩, rfl⟩
      simpa using h i h1 h2
  rw [h1]
  by_cases hu : ul = 0
  · rw [if_neg (by omega), if_pos hu, h3]
    simp [hu]
  · by_cases hl : ll = 0
    · rw [if_neg (by omega), if_neg hu]
      simp [hu, hl]
    · rw [if_pos ⟨hu, hl⟩, h2]
      simp [hu, hl]

theorem modBound_sound {r md crhs q : Nat} {U W ins : List Lit} {σ : Asg} (hmd : 2 ≤ md) (hU : q ≤ U.length)
    (hW : W.length ≤ md - 1)
    (hr : r + 1 ≤ crhs) (h : MSnd md crhs q U W ins σ) (hb : ∀ c ∈ modBound r md U W, Clause.Sat σ c) :
    cntL σ ins ≤ r := by
  obtain ⟨u, w, h1, h2, h3, h4, h5⟩ := h
  obtain ⟨ul, hul⟩ : ∃ ul, ul = (r + 1) / md := ⟨_, rfl⟩
  obtain ⟨ll, hll⟩ : ∃ ll, ll = r + 1 - ul * md := ⟨_, rfl⟩
  rw [modBound_sat hul hll] at hb
  obtain ⟨b1, b2, b3, b4⟩ := hb
  by_contra hcon
  have hge : r + 1 ≤ u * md + w := by omega
  have hdm := Nat.div_add_mod (r + 1) md
  rw [← hul, Nat.mul_comm] at hdm
  have hmod := Nat.mod_lt (r + 1) (show md > 0 by omega)
  have hu1 : u ≤ ul := by
    by_contra hc
    have := b1 ul (Nat.le_refl _) (by omega)
    rw [h3 ul (by omega)] at this; cases this
  have hu2 : ul ≤ u := by
    by_contra hc
    have : (u + 1) * md ≤ ul * md := Nat.mul_le_mul_right _ (by omega)
    rw [Nat.add_mul] at this
    omega
  have hu : u = ul := by omega
  subst hu
  have hw : ll ≤ w := by omega
  by_cases hu0 : u = 0
  · subst hu0
    have hll0 : 1 ≤ ll := by omega
    have := b3 rfl (ll - 1) (Nat.le_refl _) (by omega)
    rw [h4 _ (by omega)] at this; cases this
  · by_cases hl0 : ll = 0
    · have := b4 hu0 hl0
      rw [h3 _ (by omega)] at this; cases this
    · have := b2 hu0 hl0 (ll - 1) (Nat.le_refl _) (by omega)
      rw [h3 _ (by omega), h4 _ (by omega)] at this; simp at this

theorem modBound_compl {r md q N : Nat} {U W : List Lit} {σ : Asg} (hmd : 2 ≤ md) (hU : U.length = q)
    (hul : (r + 1) / md ≤ q) (hN : N ≤ r) (h : MEx md q U W N σ) : ∀ c ∈ modBound r md U W, Clause.Sat σ c := by
  obtain ⟨ul, hul'⟩ : ∃ ul, ul = (r + 1) / md := ⟨_, rfl⟩
  obtain ⟨ll, hll⟩ : ∃ ll, ll = r + 1 - ul * md := ⟨_, rfl⟩
  rw [← hul'] at hul
  rw [modBound_sat hul' hll]
  have hmd0 : 0 < md := by omega
  have hdm := Nat.div_add_mod (r + 1) md
  rw [← hul', Nat.mul_comm] at hdm
  have hdN := Nat.div_add_mod N md
  rw [Nat.mul_comm] at hdN
  obtain ⟨Q, hQ⟩ : ∃ Q, Q = N / md := ⟨_, rfl⟩
  rw [← hQ] at hdN
  have hQle : Q ≤ ul := by rw [hQ, hul']; exact Nat.div_le_div_right (by omega)
  have hQlt : Q = ul → N % md < ll := by
    intro hq; subst hq; omega
  obtain ⟨e1, e2⟩ := h
  rw [← hQ] at e1
  refine ⟨?_, ?_, ?_, ?_⟩
  · intro i h1 h2; rw [e1 i (by omega)]; simp; omega
  · intro h1 h2 i h3 h4
    by_cases hq : Q = ul
    · right; rw [e2 i h4]; simp; have := hQlt hq; omega
    · left; rw [e1 _ (by omega)]; simp; omega
  · intro h1 i h3 h4
    have := hQlt (by omega)
    rw [e2 i h4]; simp; omega
  · intro h1 h2
    have := hQlt
    rw [e1 _ (by omega)]; simp; omega

theorem modBound_old {r md : Nat} {U W : List Lit} {s : ER} (hmd : 0 < md) (hul : (r + 1) / md ≤ U.length)
    (oU : ∀ l ∈ U, s.Old l.v) (oW : ∀ l ∈ W, s.Old l.v) : ∀ c ∈ modBound r md U W, ∀ l ∈ c, s.Old l.v := by
  intro c hc l hl
  obtain ⟨ul, hul'⟩ : ∃ ul, ul = (r + 1) / md := ⟨_, rfl⟩
  unfold modBound at hc
  simp only [← hul', List.mem_append] at hc
  rw [← hul'] at hul
  rcases hc with hc | hc
  · simp only [List.mem_map] at hc
    obtain ⟨v, hv, rfl⟩ := hc
    simp at hl; subst hl; rw [Lit.neg_v]; exact oU _ (List.mem_of_mem_drop hv)
  · split at hc
    · rename_i h
      simp only [List.mem_map] at hc
      obtain ⟨v, hv, rfl⟩ := hc
      simp at hl
      rcases hl with rfl | rfl
      · rw [Lit.neg_v]; exact oU _ (getBang_mem (by omega))
      · rw [Lit.neg_v]; exact oW _ (List.mem_of_mem_drop hv)
    · split at hc
      · simp only [List.mem_map] at hc
        obtain ⟨v, hv, rfl⟩ := hc
        simp at hl; subst hl; rw [Lit.neg_v]; exact oW _ (List.mem_of_mem_drop hv)
      · simp at hc; subst hc
        simp at hl; subst hl
        rw [Lit.neg_v]; exact oU _ (getBang_mem (by omega))

theorem modBoundPanic_false {r md : Nat} {U W : List Lit} (hmd : 0 < md) (hul : (r + 1) / md ≤ U.length)
    (hW : W.length = md - 1) : modBoundPanic r md U W = false := by
  obtain ⟨ul, hul'⟩ : ∃ ul, ul = (r + 1) / md := ⟨_, rfl⟩
  unfold modBoundPanic
  have hdm := Nat.div_add_mod (r + 1) md
  rw [← hul', Nat.mul_comm] at hdm
  have hmod := Nat.mod_lt (r + 1) (show md > 0 by omega)
  rw [← hul'] at hul
  simp only [← hul']
  rw [decide_eq_false_iff_not]
  intro h
  rcases h with h | h | ⟨h, h'⟩
  · omega
  · omega
  · subst h; omega

/-- The modular totalizer over a list of literals: never panics, encodes `count ≤ rhs`, and
the kept vectors allow tightening. -/
theorem modBuild_inc {ins : List Lit} {rhs : Nat} {s : ER} (h1 : 1 ≤ rhs) (hr : rhs < ins.length) (hw : Wf s)
    (hv : ∀ l ∈ ins, s.Old l.v) :
    ∃ U W md s', modBuild ins rhs s = some ((U, W, md), s') ∧
      IncOK s s' (fun r σ => cntL σ ins ≤ r) TUp rhs (fun r => modBound r md U W) ∧
      ∀ r, r ≤ rhs → modBoundPanic r md U W = false := by
  unfold modBuild
  simp only
  have hmd : 2 ≤ ceilSqrt (rhs + 1) := ceilSqrt_ge_two (by omega)
  have hmd' : ceilSqrt (rhs + 1) ≤ rhs + 1 := ceilSqrt_le (Nat.le_mul_self _)
  generalize ceilSqrt (rhs + 1) = md at hmd hmd'
  have hmd0 : 0 < md := by omega
  have hq : ins.length / md ≠ 0 := by
    intro h; have := (Nat.div_eq_zero_iff_lt hmd0).1 h; omega
  have lu := newLits_length (ins.length / md) s
  have le1 := newLits_le (ins.length / md) s
  have w1 := newLits_wf (k := ins.length / md) hw
  have ou := newLits_old (k := ins.length / md) (s := s)
  have e1 := newLits_ext (ins.length / md) s
  have sat1 := fun σ => newLits_sat (k := ins.length / md) (s := s) (σ := σ)
  generalize newLits (ins.length / md) s = r1 at *
  obtain ⟨U, s1⟩ := r1
  simp only at lu le1 w1 ou e1 sat1 ⊢
  have lw := newLits_length (md - 1) s1
  have le2 := newLits_le (md - 1) s1
  have w2 := newLits_wf (k := md - 1) w1
  have ow := newLits_old (k := md - 1) (s := s1)
  have e2 := newLits_ext (md - 1) s1
  have sat2 := fun σ => newLits_sat (k := md - 1) (s := s1) (σ := σ)
  generalize newLits (md - 1) s1 = r2 at *
  obtain ⟨W, s2⟩ := r2
  simp only at lw le2 w2 ow e2 sat2 ⊢
  have hou : orH0 U = U := by
    unfold orH0; rw [if_neg]; intro he; simp at he; subst he; simp at lu; rw [← lu] at hq; exact hq rfl
  rw [hou]
  have ou2 : ∀ l ∈ U, s2.Old l.v := fun l h => le2.old (ou l h)
  have hle2 := le1.trans le2
  obtain ⟨ins', st', s3, e3, hsp, hlen, E⟩ := modCnf_step (md := md) (crhs := rhs + 1) hmd (by omega) ins.length U W ins.length
    ins.reverse s2 (by omega) (Nat.le_refl _) (by simp) w2
    ⟨by rw [if_neg hq]; exact ⟨lu, fun l hl => old_ne_h0 (ou2 l hl)⟩, by omega, by omega⟩
    (fun l hl _ => ou2 l hl) (fun i hi => ou2 _ (getBang_mem (lu ▸ hi))) ow
    (fun l hl => hle2.old (hv l (by simpa using hl)))
  have hst : st' = [] := by
    have := congrArg List.length hsp
    simp at this
    exact List.length_eq_zero_iff.1 (by omega)
  subst hst
  simp at hsp
  subst hsp
  rw [e3]
  simp only [Option.bind_some]
  have hulr : ∀ r, r ≤ rhs → (r + 1) / md ≤ U.length := by
    intro r h; rw [lu]; exact Nat.div_le_div_right (by omega)
  have hpan : ∀ r, r ≤ rhs → modBoundPanic r md U W = false := fun r h => modBoundPanic_false hmd0 (hulr r h) lw
  rw [if_neg (by rw [hpan rhs (Nat.le_refl _)]; simp)]
  have hrev : ∀ σ, cntL σ ins.reverse = cntL σ ins := by intro σ; simp [cntL, List.countP_reverse]
  have hold : ∀ r, r ≤ rhs → ∀ c ∈ modBound r md U W, ∀ l ∈ c, s3.Old l.v := fun r h =>
    modBound_old hmd0 (hulr r h) (fun l hl => E.le.old (ou2 l hl)) (fun l hl => E.le.old (ow l hl))
  have hsnd : ∀ σ r', r' ≤ rhs → Sat σ s3 → (∀ c ∈ modBound r' md U W, Clause.Sat σ c) → cntL σ ins ≤ r' := by
    intro σ r' hr' hs hb
    rw [← hrev]
    exact modBound_sound hmd (Nat.le_of_eq lu.symm) (by omega) (by omega) (E.sound σ hs) hb
  refine ⟨U, W, md, _, rfl, ?_, hpan⟩
  constructor
  · exact hle2.trans (E.le.trans (addClauses_le _ _))
  · exact addClauses_wf E.wf (hold rhs (Nat.le_refl _))
  · intro r' ht c hc l hl
    rw [addClauses_old]; exact hold r' (Nat.le_of_lt ht) c hc l hl
  · intro σ hs
    rw [addClauses_sat] at hs
    exact hsnd σ rhs (Nat.le_refl _) hs.1 hs.2
  · intro σ r' hs ht hb
    rw [addClauses_sat] at hs
    exact hsnd σ r' (Nat.le_of_lt ht) hs.1 hb
  · intro σ hs hC
    obtain ⟨σ1, a1, b1⟩ := e1 (fun i => decide (i + 1 ≤ cntL σ ins / md)) σ
    obtain ⟨σ2, a2, b2⟩ := e2 (fun i => decide (i + 1 ≤ cntL σ ins % md)) σ1
    have ha := a1.trans le1 a2
    have x2 : MEx md (ins.length / md) U W (cntL σ ins) σ2 := by
      constructor
      · intro k hk; rw [← a2.lit (ou _ (getBang_mem (lu ▸ hk)))]; exact b1 k hk
      · intro k hk; exact b2 k (by omega)
    obtain ⟨σ3, a3, s3'⟩ := E.compl σ2 ((sat2 _).2 ((sat1 _).2 ((ha.sat hw).1 hs)))
      (by rw [hrev, ← ha.cntL hv]; exact x2)
    have x3 := a3.mex (fun i hi => ou2 _ (getBang_mem (lu ▸ hi))) ow x2
    have hb : ∀ r', r' ≤ rhs → cntL σ ins ≤ r' → ∀ c ∈ modBound r' md U W, Clause.Sat σ3 c := fun r' hr' hc =>
      modBound_compl hmd lu (by rw [← lu]; exact hulr r' hr') hc x3
    exact ⟨σ3, ha.trans hle2 a3, addClauses_sat.2 ⟨s3', hb rhs (Nat.le_refl _) hC⟩,
      fun r' ht hc => hb r' (Nat.le_of_lt ht) hc⟩

end Verif
