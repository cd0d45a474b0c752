import Verif.Sat.Session
import Mathlib.Data.Finset.Powerset
import Mathlib.Data.Finset.Card
import Mathlib.Data.Finset.Dedup

/-!
Termination of `search`: every round of the loop makes the trail grow in an order that has only finitely many values.

The trail (oldest first) is read as a number with ternary digits: a decision is the digit 1, every other literal the digit 2.
Propagation and decisions append digits, and learning replaces the digit 1 of a decision by the digit 2 of the learnt literal.
-/

namespace Verif.Sat
open St Core

/-- The value of the first `t` literals of the trail of at most `n` literals; `lim` are the positions of decisions. -/
def mu (n : Nat) (lim : List Nat) : Nat → Nat
  | 0 => 0
  | t + 1 => mu n lim t + (if t ∈ lim then 1 else 2) * 3 ^ (n - 1 - t)

theorem mu_mono (n : Nat) (lim : List Nat) {t t' : Nat} (h : t ≤ t') : mu n lim t ≤ mu n lim t' := by
  induction h with
  | refl => exact Nat.le_refl _
  | step _ ih => exact Nat.le_trans ih (Nat.le_add_right ..)

theorem mu_congr (n : Nat) {lim lim' : List Nat} {t : Nat} (h : ∀ i < t, i ∈ lim ↔ i ∈ lim') : mu n lim t = mu n lim' t := by
  induction t with
  | zero => rfl
  | succ t ih =>
    unfold mu
    rw [ih fun i hi => h i (by omega)]
    have := h t (by omega)
    simp only [this]

/-- The digits after the first `u` are worth less than one at the place before them. -/
theorem mu_tail (n : Nat) (lim : List Nat) {u t : Nat} (hu : u ≤ t) (ht : t ≤ n) : mu n lim t + 3 ^ (n - t) ≤ mu n lim u + 3 ^ (n - u) := by
  induction hu with
  | refl => exact Nat.le_refl _
  | @step t hut ih =>
    have ih := ih (by omega)
    have e : n - t = (n - 1 - t) + 1 := by omega
    have e2 : n - (t + 1) = n - 1 - t := by omega
    rw [e, Nat.pow_succ] at ih
    show mu n lim t + (if t ∈ lim then 1 else 2) * 3 ^ (n - 1 - t) + 3 ^ (n - (t + 1)) ≤ _
    rw [e2]
    split <;> omega

theorem mu_lt (n : Nat) (lim : List Nat) {t : Nat} (ht : t ≤ n) : mu n lim t < 3 ^ n := by
  have h1 := mu_tail n lim (Nat.zero_le t) ht
  have h2 : 0 < 3 ^ (n - t) := Nat.pow_pos (by omega)
  have h3 : mu n lim 0 = 0 := rfl
  rw [h3, Nat.sub_zero] at h1
  omega

/-- A decision makes the value larger. -/
theorem mu_decide (n : Nat) (lim : List Nat) (t : Nat) : mu n lim t < mu n (t :: lim) (t + 1) := by
  have e : mu n (t :: lim) (t + 1) = mu n (t :: lim) t + 1 * 3 ^ (n - 1 - t) := by
    show mu n (t :: lim) t + (if t ∈ t :: lim then 1 else 2) * 3 ^ (n - 1 - t) = _
    rw [if_pos (List.mem_cons_self ..)]
  have h2 : 0 < 3 ^ (n - 1 - t) := Nat.pow_pos (by omega)
  have h3 : mu n (t :: lim) t = mu n lim t := mu_congr n fun i hi => by
    rw [List.mem_cons]
    exact ⟨fun h => h.resolve_left (by omega), .inr⟩
  omega

/-- Replacing a decision and all that follows by a literal that is none makes the value larger. -/
theorem mu_jump (n : Nat) {lim lim' : List Nat} {u t : Nat} (hu : u < t) (ht : t ≤ n) (hm : u ∈ lim) (hm' : u ∉ lim') (h : ∀ i < u, i ∈ lim ↔ i ∈ lim') :
    mu n lim t < mu n lim' (u + 1) := by
  have h1 := mu_tail n lim (u := u + 1) (t := t) hu ht
  have h2 : 0 < 3 ^ (n - t) := Nat.pow_pos (by omega)
  have e1 : mu n lim (u + 1) = mu n lim u + 1 * 3 ^ (n - 1 - u) := by
    show mu n lim u + (if u ∈ lim then 1 else 2) * 3 ^ (n - 1 - u) = _
    rw [if_pos hm]
  have e2 : mu n lim' (u + 1) = mu n lim u + 2 * 3 ^ (n - 1 - u) := by
    show mu n lim' u + (if u ∈ lim' then 1 else 2) * 3 ^ (n - 1 - u) = _
    rw [if_neg hm', mu_congr n h]
  have e3 : n - (u + 1) = n - 1 - u := by omega
  rw [e1, e3] at h1
  omega

/-- The value of the trail of a state. -/
def Core.rank (s : Core) : Nat := mu s.nvars s.lim s.trail.length

section
variable {F : Type} [LinearOrder F] [Flt F] {Φ : List (List Nat)} {inc : Bool} {q : Nat} {s : St F}

theorem rank_lt {U : List Nat} {c : Core} (h : Inv Φ inc U q c) : c.rank < 3 ^ c.nvars := mu_lt _ _ h.length_le

theorem rank_eq {s s' : Core} (hn : s'.nvars = s.nvars) (hl : s'.lim = s.lim) (ht : s'.trail = s.trail) : s'.rank = s.rank := by
  unfold Core.rank; rw [hn, hl, ht]

theorem rank_frame {s s' : Core} (hn : s'.nvars = s.nvars) (hl : s'.lim = s.lim) (ht : ∃ new, s'.trail = new ++ s.trail) : s.rank ≤ s'.rank := by
  obtain ⟨new, e⟩ := ht
  unfold Core.rank
  rw [hn, hl, e, List.length_append]
  exact mu_mono _ _ (by omega)

theorem record_trail (C : Cfg F) {l : Nat} {r : List Nat} {s' : St F} (h : record C (l :: r) s = some s') :
    s'.trail = l :: s.trail ∧ s'.lim = s.lim ∧ s'.nvars = s.nvars := by
  have hd : ∀ s : St F, (decay C s).toCore = s.toCore := by
    intro s; unfold decay; simp only; split <;> rfl
  cases r with
  | nil =>
    unfold record at h
    simp only [Option.some.injEq] at h
    rw [← h, hd]
    exact ⟨rfl, rfl, rfl⟩
  | cons c1 r =>
    unfold record at h
    simp only at h
    obtain ⟨s4, e4, hc4, _⟩ := install_eq (s := s) (c0 := l) (c1 := c1) (r := r) true
    rw [e4] at h
    simp only [Option.some.injEq] at h
    rw [← h, hd]
    show l :: s4.trail = l :: s.trail ∧ s4.lim = s.lim ∧ s4.nvars = s.nvars
    rw [hc4]
    exact ⟨rfl, rfl, rfl⟩

theorem cancelUntil_qhead {L : Nat} (hL : L < s.lim.length) {s' : St F} (h : cancelUntil L s = some s') : s'.qhead = s.limAt L := by
  unfold cancelUntil at h
  rw [if_pos hL] at h
  revert h
  generalize cancelPop (s.trail.length - s.limAt L) s = r
  intro h
  cases r with
  | none => cases h
  | some s1 => cases h; rfl

/-- The positions of the levels up to `L` lie before the next level, if `L` is the bottom or has a literal. -/
theorem TWf.lim_lt {lev : Nat → Option Nat} {t lim : List Nat} (h : TWf lev t lim) {L : Nat} (hL : L < lim.length)
    (hne : L = 0 ∨ ∃ l ∈ t, (lev (vr l)).getD 0 = L) : ∀ n ∈ lim.drop (lim.length - L), n < lim.getD (lim.length - 1 - L) 0 := by
  intro n hn
  by_cases h0 : L = 0
  · subst h0; simp at hn
  · obtain ⟨l, hl, hlv⟩ : ∃ l ∈ t, (lev (vr l)).getD 0 = L := by
      rcases hne with e | e
      · exact absurd e h0
      · exact e
    obtain ⟨_, _, _, _, a5⟩ := h.cut hL
    obtain ⟨_, _, _, b4, b5⟩ := h.cut (L := L - 1) (by omega)
    obtain ⟨_, _, a3, _, _⟩ := h.cut hL
    have e1 : lim.length - 1 - (L - 1) = lim.length - L := by omega
    rw [e1] at b4 b5
    have hlt : lim.length - L < lim.length := by omega
    -- the head of the kept positions
    have hhd : lim.drop (lim.length - L) = lim.getD (lim.length - L) 0 :: lim.drop (lim.length - (L - 1)) := by
      rw [List.drop_eq_getElem_cons hlt]
      have : lim.length - L + 1 = lim.length - (L - 1) := by omega
      rw [this]
      simp [List.getD, hlt]
    have hle : n ≤ lim.getD (lim.length - L) 0 := by
      rw [hhd] at hn
      rcases List.mem_cons.1 hn with rfl | hn
      · exact Nat.le_refl _
      · exact b5 n hn
    have hle2 : lim.getD (lim.length - L) 0 ≤ lim.getD (lim.length - 1 - L) 0 := a5 _ (by rw [hhd]; exact List.mem_cons_self ..)
    rcases Nat.lt_or_ge n (lim.getD (lim.length - 1 - L) 0) with hc | hc
    · exact hc
    · have he : lim.getD (lim.length - 1 - L) 0 = lim.getD (lim.length - L) 0 := by omega
      exfalso
      rw [he] at a3
      rw [← List.take_append_drop (t.length - lim.getD (lim.length - L) 0) t] at hl
      rcases List.mem_append.1 hl with hl | hl
      · have := a3 l hl; omega
      · have := b4 l hl; omega

/-- A literal above level `L` lies behind the beginning of the next level. -/
theorem TWf.limAt_lt {lev : Nat → Option Nat} {t lim : List Nat} (h : TWf lev t lim) {L : Nat} (hL : L < lim.length) {x : Nat} (hx : x ∈ t)
    (hlv : L < (lev (vr x)).getD 0) : lim.getD (lim.length - 1 - L) 0 < t.length := by
  obtain ⟨a1, _, _, a4, _⟩ := h.cut hL
  rcases Nat.lt_or_ge (lim.getD (lim.length - 1 - L) 0) t.length with hc | hc
  · exact hc
  · exfalso
    have he : t.length - lim.getD (lim.length - 1 - L) 0 = 0 := by omega
    rw [he, List.drop_zero] at a4
    have := a4 x hx
    omega

/-- Learning makes the value of the trail larger. -/
theorem learn_rank (C : Cfg F) (hm : C.clauseMin ≠ .none) (h : SInv Φ C.incremental q s) (hd : s.lim ≠ []) {id : Nat} (hc : Conflict s.toCore id) {s' : St F}
    (he : learn C id s = some s') : s.rank < s'.rank := by
  obtain ⟨s1, x, ls, e1, hu1, hs1, hl⟩ := analyze_ok C hm h.inv h.heap h.seen hd hc
  have h1 : SInv Φ C.incremental q s1 := h.congr hu1.core hu1.keep (hu1.heap h.heap) hs1
  rw [← hu1.core] at hl hd
  obtain ⟨s2, e2, hc2⟩ := cancelUntil_ok h1.inv h1.heap hl.lt
  have hlv : ∀ l, s1.lv l = (s1.level (vr l)).getD 0 := fun _ => rfl
  unfold learn at he
  rw [e1] at he
  simp only at he
  rw [e2] at he
  simp only at he
  obtain ⟨ht, hlim, hn⟩ := record_trail C he
  have ht : s'.trail = neg x :: s2.trail := ht
  have hlim : s'.lim = s2.lim := hlim
  have hn : s'.nvars = s2.nvars := hn
  have hlen : s2.trail.length = s1.limAt s1.bt := by rw [← hc2.qh]; exact cancelUntil_qhead hl.lt e2
  have hr : s'.rank = mu s1.nvars (s1.lim.drop (s1.lim.length - s1.bt)) (s1.limAt s1.bt + 1) := by
    unfold Core.rank
    rw [hn, hlim, ht, hc2.nvars, hc2.lim, List.length_cons, hlen]
  rw [hr]
  show mu s.nvars s.lim s.trail.length < _
  rw [← hu1.core]
  have hcur := hl.cur
  have hlt := hl.lt
  have hidx : s1.lim.length - 1 - s1.bt < s1.lim.length := by omega
  refine mu_jump _ ?_ h1.inv.length_le ?_ ?_ ?_
  · exact h1.inv.twf.limAt_lt hl.lt hl.mem (by rw [← hlv, hcur]; exact hlt)
  · unfold Core.limAt
    simp only [List.getD, List.getElem?_eq_getElem hidx, Option.getD_some]
    exact List.getElem_mem _
  · intro hin
    have := h1.inv.twf.lim_lt hl.lt (by
      cases hls : ls with
      | nil => exact .inl (hl.nil hls)
      | cons l r =>
        right
        refine ⟨neg l, (hl.low l (by rw [hls]; exact List.mem_cons_self ..)).1, ?_⟩
        rw [← hlv, Inv.lv_neg]; exact hl.hd l r hls) _ hin
    exact Nat.lt_irrefl _ this
  · intro i hi
    exact ⟨fun hin => h1.inv.twf.cut_mem hl.lt i hin hi, fun hin => List.mem_of_mem_drop hin⟩

theorem assumeLoop_rank (n : Nat) : ∀ (s : St F), match assumeLoop n s with
    | .fail _ s' => s'.rank = s.rank ∧ s'.nvars = s.nvars
    | .next _ s' => s'.rank = s.rank ∧ s'.nvars = s.nvars
    | .done s' => s'.rank = s.rank ∧ s'.nvars = s.nvars := by
  induction n with
  | zero => intro s; exact ⟨rfl, rfl⟩
  | succ n ih =>
    intro s
    unfold assumeLoop
    simp only
    match s.value (s.assumptions.getD s.lim.length 0) with
    | some false => exact ⟨rfl, rfl⟩
    | none => exact ⟨rfl, rfl⟩
    | some true =>
      have hr : ({ s with lim := s.trail.length :: s.lim } : St F).rank = s.rank := by
        show mu s.nvars (s.trail.length :: s.lim) s.trail.length = mu s.nvars s.lim s.trail.length
        refine mu_congr _ fun i hi => ?_
        rw [List.mem_cons]
        exact ⟨fun h => h.resolve_left (by omega), .inr⟩
      have := ih { s with lim := s.trail.length :: s.lim }
      simp only
      revert this
      generalize assumeLoop n { s with lim := s.trail.length :: s.lim } = r
      cases r with
      | fail p s' => intro h; exact ⟨h.1.trans hr, h.2⟩
      | next p s' => intro h; exact ⟨h.1.trans hr, h.2⟩
      | done s' => intro h; exact ⟨h.1.trans hr, h.2⟩

omit [LinearOrder F] [Flt F] in
theorem decide_rank (l : Nat) (s : St F) : s.rank < (decide_ l s).rank := mu_decide _ _ _

/-- Branching makes the value of the trail larger, or ends the search with an answer. -/
theorem branch_rank (h : SInv Φ inc s.qhead s) (hq : s.qhead = s.trail.length) : match branch s with
    | .again s' => s.rank < s'.rank
    | .answer _ r => r ≠ none
    | .panic => True := by
  have hA := assumeLoop_ok _ h hq rfl
  have hR := assumeLoop_rank (s.assumptions.length - s.lim.length) s
  unfold branch
  revert hA hR
  generalize assumeLoop (s.assumptions.length - s.lim.length) s = r
  intro hA hR
  cases r with
  | fail p s1 => exact nofun
  | next p s1 =>
    have := decide_rank p s1
    have hR : s1.rank = s.rank ∧ _ := hR
    rw [hR.1] at this
    exact this
  | done s1 =>
    obtain ⟨h1, g1, hq1, hlen⟩ := hA
    obtain ⟨s2, r, e, hc, _⟩ := pickBranch_ok h1
    simp only
    rw [e]
    cases r with
    | none => exact nofun
    | some l =>
      have := decide_rank l s2
      have hR : s1.rank = s.rank ∧ _ := hR
      rw [hc, hR.1] at this
      exact this

theorem simplify_trail (C : Cfg F) (h : SInv Φ false s.qhead s) (hq : s.qhead = s.trail.length) (hz : s.lim = []) (hok : s.ok = true) {s' : St F}
    (he : simplify C s = some (s', true)) : s'.trail = s.trail ∧ s'.lim = s.lim := by
  unfold simplify at he
  rw [if_neg (by rw [hok]; simp), prop_done hq] at he
  simp only at he
  have h1 : SInv Φ false s.qhead { s with simpProps := s.simpProps - 0 } := h.congr rfl ⟨rfl, rfl, rfl, rfl, rfl, rfl, rfl⟩ { h.heap with } h.seen
  unfold simplifyDb at he
  split at he
  · simp only [Option.some.injEq, Prod.mk.injEq, and_true] at he
    rw [← he]
    exact ⟨rfl, rfl⟩
  · obtain ⟨s2, e2, h2, g2, hl2, ht2, hq2⟩ := remSat_ok C h1 hz
    rw [e2] at he
    simp only at he
    revert he
    generalize s2.heap.build s2.act ((List.range s2.nvars).filter fun v => s2.decision v && (s2.asg v).isNone) = r
    cases r with
    | none => nofun
    | some hp =>
      intro he
      simp only [Option.some.injEq, Prod.mk.injEq, and_true] at he
      rw [← he]
      exact ⟨ht2, hl2.trans hz.symm⟩

/-- A round without conflict makes the value of the trail larger, or ends the search; it asks for a restart only if the budget is used up. -/
theorem noConflict_rank (C : Cfg F) (h : Full Φ C.incremental s) (hok : s.ok = true) (cnt : Bool) : match noConflict C cnt s with
    | .again s' => s.rank < s'.rank
    | .answer _ r => r = none → cnt = true
    | .panic => True := by
  unfold noConflict
  cases cnt with
  | true =>
    obtain ⟨s', e, _⟩ := cancelZero_ok h
    rw [if_pos rfl, e]
    exact fun _ => rfl
  | false =>
    rw [if_neg (by simp)]
    have hb : ∀ {s1 : St F} {inc : Bool}, Full Φ inc s1 → s1.rank = s.rank → match branch s1 with
        | .again s' => s.rank < s'.rank
        | .answer _ r => r = none → false = true
        | .panic => True := by
      intro s1 inc h1 hr
      have := branch_rank h1.1 h1.2
      revert this
      generalize branch s1 = r
      cases r with
      | again s' => intro h; rw [← hr]; exact h
      | answer s' r => intro h he; exact absurd he h
      | panic => exact fun h => h
    cases hi : C.incremental with
    | true => rw [if_pos rfl]; rw [hi] at h; exact hb h rfl
    | false =>
      rw [if_neg (by simp)]
      rw [hi] at h
      have hsimp : ∃ s1, (if s.lim.length = 0 then simplify C s else some (s, true)) = some (s1, true) ∧ Full Φ false s1 ∧ s1.rank = s.rank := by
        split
        · next hz =>
          have hz := List.length_eq_zero_iff.1 hz
          obtain ⟨s1, e, h1, g1, _, hq1⟩ := simplify_ok C h.1 h.2 hz hok
          obtain ⟨ht, hl⟩ := simplify_trail C h.1 h.2 hz hok e
          exact ⟨s1, e, ⟨h1, hq1⟩, rank_eq g1.nvars hl ht⟩
        · exact ⟨s, rfl, h, rfl⟩
      obtain ⟨s1, e1, h1, hr1⟩ := hsimp
      rw [e1]
      simp only
      by_cases hmax : s1.maxLearnts ≤ Flt.ofInt ((s1.learnts.length : Int) - (s1.trail.length : Int))
      · rw [if_pos hmax]
        obtain ⟨s2, e2, h2, g2, ht2, hl2, hq2⟩ := reduceDb_ok C h1.1
        rw [e2]
        refine hb (s1 := s2) (inc := false) ⟨by rw [hq2]; exact h2, by rw [hq2, ht2]; exact h1.2⟩ ?_
        rw [rank_eq g2.nvars hl2 ht2]; exact hr1
      · rw [if_neg hmax]
        exact hb h1 hr1

/-- The loop of `search` ends after at most as many rounds as the trail has values, and asks for no restart if it may have that many conflicts. -/
theorem searchLoop_ends (C : Cfg F) (hm : C.clauseMin ≠ .none) (fuel : Nat) : ∀ (n : Nat) {s : St F}, SInv Φ C.incremental s.qhead s → s.ok = true →
    (3 ^ s.nvars ≤ fuel + s.rank → searchLoop C fuel n s ≠ .diverge) ∧
    (3 ^ s.nvars ≤ n + s.rank → ∀ s', searchLoop C fuel n s ≠ .ok (s', none)) := by
  induction fuel with
  | zero =>
    intro n s h _
    have := rank_lt h.inv
    exact ⟨fun h => by omega, fun _ _ => nofun⟩
  | succ fuel ih =>
    intro n s h hok
    have hlt := rank_lt h.inv
    unfold searchLoop
    obtain ⟨⟨s1, o⟩, e, hp⟩ := prop_ok h.inv h.heap
    rw [e]
    have hr1 : s.rank ≤ s1.rank := rank_frame hp.frame.nvars hp.frame.lim hp.frame.ext
    cases o with
    | some id =>
      obtain ⟨hcon, q, hi⟩ := hp.confl id rfl
      obtain ⟨h1, g1⟩ := h.frame hp.keep hp.frame hp.heap hp.seen hi
      simp only
      by_cases hz : s1.lim.length = 0
      · rw [if_pos hz]
        exact ⟨fun _ => nofun, fun _ _ => nofun⟩
      · rw [if_neg hz]
        have hd : s1.lim ≠ [] := fun e => hz (by rw [e]; rfl)
        obtain ⟨s2, e2, h2, g2⟩ := learn_ok C hm (s := s1) h1 hd hcon
        have hr2 := learn_rank C hm h1 hd hcon e2
        rw [e2]
        obtain ⟨a, b⟩ := ih (n - 1) h2 (by rw [g2.ok, g1.ok]; exact hok)
        rw [g2.nvars, g1.nvars] at a b
        have hr2 : s1.rank < s2.rank := hr2
        exact ⟨fun h => a (by omega), fun h => b (by omega)⟩
    | none =>
      obtain ⟨hq, hi⟩ := hp.inv rfl
      obtain ⟨h1, g1⟩ := h.frame hp.keep hp.frame hp.heap hp.seen hi
      simp only
      have hok1 : s1.ok = true := by rw [g1.ok]; exact hok
      have hs := noConflict_ok C (s := s1) ⟨h1, hq⟩ hok1 (n == 0)
      have hR := noConflict_rank C (s := s1) ⟨h1, hq⟩ hok1 (n == 0)
      revert hs hR
      generalize noConflict C (n == 0) s1 = r
      intro hs hR
      cases r with
      | panic => exact hs.elim
      | answer s' r =>
        refine ⟨fun _ => nofun, fun hn s'' he => ?_⟩
        cases he
        have : n = 0 := by simpa using hR rfl
        omega
      | again s' =>
        obtain ⟨a, b⟩ := ih n hs.1 (by rw [hs.2.ok]; exact hok1)
        rw [hs.2.nvars, g1.nvars] at a b
        have hR : s1.rank < s'.rank := hR
        exact ⟨fun h => a (by omega), fun h => b (by omega)⟩

/-- One search ends, whatever its budget. -/
theorem search_ends (C : Cfg F) (hm : C.clauseMin ≠ .none) {fuel : Nat} (n : Nat) (h : SInv Φ C.incremental s.qhead s) (hok : s.ok = true) :
    (3 ^ s.nvars ≤ fuel → search C fuel n s ≠ .diverge) ∧ (3 ^ s.nvars ≤ n → ∀ s', search C fuel n s ≠ .ok (s', none)) := by
  unfold search
  rw [if_neg (by rw [hok]; simp)]
  obtain ⟨a, b⟩ := searchLoop_ends C hm fuel n (s := { s with selIdx := 0 }) (h.congr rfl ⟨rfl, rfl, rfl, rfl, rfl, rfl, rfl⟩ { h.heap with } h.seen) hok
  exact ⟨fun h => a (Nat.le_trans h (Nat.le_add_right ..)), fun h => b (Nat.le_trans h (Nat.le_add_right ..))⟩

/-! ### Restarts -/

/-- The number of conflicts after which the restart number `k` ends, minisat2.rs:446-447. -/
def budget (C : Cfg F) (k : Nat) : Nat :=
  match lubyExp k with
  | none => 0
  | some e => Flt.toNat (Flt.mul (Flt.pow C.restartInc e) (Flt.ofInt C.restartFirst))

omit [LinearOrder F] in
theorem budget_eq {C : Cfg F} {k e : Nat} (h : lubyExp k = some e) : budget C k = Flt.toNat (Flt.mul (Flt.pow C.restartInc e) (Flt.ofInt C.restartFirst)) := by
  unfold budget; rw [h]

/-- The restarts end if one of them may have as many conflicts as the trail has values. -/
theorem restartLoop_ends (C : Cfg F) (hm : C.clauseMin ≠ .none) {fuel0 N j : Nat} (hj : 3 ^ N ≤ budget C j) (h0 : 3 ^ N ≤ fuel0) (fuel : Nat) : ∀ (k : Nat) {s : St F},
    SInv Φ C.incremental s.qhead s → s.ok = true → s.nvars = N → k ≤ j → j < k + fuel → restartLoop C fuel0 fuel k s ≠ .diverge := by
  induction fuel with
  | zero => intro k s _ _ _ h1 h2; omega
  | succ fuel ih =>
    intro k s h hok hN hk hf
    unfold restartLoop
    obtain ⟨e, he, _⟩ := lubyExp_ok k
    rw [he]
    simp only
    rw [← budget_eq he]
    have hs := search_ok C hm fuel0 (budget C k) h hok
    obtain ⟨a, b⟩ := search_ends C hm (fuel := fuel0) (budget C k) h hok
    rw [hN] at a b
    have a := a h0
    revert hs b a
    generalize search C fuel0 (budget C k) s = r
    intro hs b a
    match r, hs, a, b with
    | .ok (s1, some r), _, _, _ => nofun
    | .diverge, _, a, _ => exact absurd rfl a
    | .ok (s1, none), hs, _, b =>
      simp only
      obtain ⟨ha, hg⟩ := hs
      cases ha with
      | restart hf1 hl hc =>
        refine ih (k + 1) hf1.1 (hg.ok.trans hok) (hg.nvars.trans hN) ?_ (by omega)
        rcases Nat.lt_or_ge k j with h' | h'
        · exact h'
        · have : k = j := by omega
          subst this
          exact absurd rfl (b hj s1)

/-! ### Restarts with an incremental solver: every conflict adds a clause -/

/-- The number of learnt clauses and unit clauses. -/
def Core.gain (s : Core) : Nat := s.learnts.length + s.units.length

theorem Grow.gain {s' : St F} (g : Grow true s s') : s.gain ≤ s'.gain := by
  obtain ⟨r, e, _⟩ := g.learnts rfl
  obtain ⟨u, e'⟩ := g.units
  unfold Core.gain
  rw [e, e', List.length_append, List.length_append]
  omega

theorem record_gain (C : Cfg F) {l : Nat} {r : List Nat} {s' : St F} (h : record C (l :: r) s = some s') : s'.gain = s.gain + 1 := by
  have hd : ∀ s : St F, (decay C s).toCore = s.toCore := by
    intro s; unfold decay; simp only; split <;> rfl
  cases r with
  | nil =>
    unfold record at h
    simp only [Option.some.injEq] at h
    rw [← h, hd]
    show s.learnts.length + (s.units ++ [l]).length = s.learnts.length + s.units.length + 1
    rw [List.length_append]
    rfl
  | cons c1 r =>
    unfold record at h
    simp only at h
    obtain ⟨s4, e4, hc4, _⟩ := install_eq (s := s) (c0 := l) (c1 := c1) (r := r) true
    rw [e4] at h
    simp only [Option.some.injEq] at h
    rw [← h, hd]
    show (s4.learnts ++ [s.next]).length + s4.units.length = s.learnts.length + s.units.length + 1
    rw [hc4, List.length_append]
    show s.learnts.length + 1 + s.units.length = _
    omega

theorem learn_gain (C : Cfg F) (hm : C.clauseMin ≠ .none) (h : SInv Φ C.incremental q s) (hd : s.lim ≠ []) {id : Nat} (hc : Conflict s.toCore id) {s' : St F}
    (he : learn C id s = some s') : s'.gain = s.gain + 1 := by
  obtain ⟨s1, x, ls, e1, hu1, hs1, hl⟩ := analyze_ok C hm h.inv h.heap h.seen hd hc
  have h1 : SInv Φ C.incremental q s1 := h.congr hu1.core hu1.keep (hu1.heap h.heap) hs1
  rw [← hu1.core] at hl hd
  obtain ⟨s2, e2, hc2⟩ := cancelUntil_ok h1.inv h1.heap hl.lt
  unfold learn at he
  rw [e1] at he
  simp only at he
  rw [e2] at he
  simp only at he
  rw [record_gain C he]
  show s2.learnts.length + s2.units.length + 1 = s.learnts.length + s.units.length + 1
  rw [hc2.learnts, hc2.units, hu1.core]

/-- A search that asks for a restart has added as many clauses as its budget. -/
theorem searchLoop_gain (C : Cfg F) (hi : C.incremental = true) (hm : C.clauseMin ≠ .none) (fuel : Nat) : ∀ (n : Nat) {s s' : St F}, SInv Φ C.incremental s.qhead s → s.ok = true →
    searchLoop C fuel n s = .ok (s', none) → s.gain + n ≤ s'.gain := by
  induction fuel with
  | zero => intro n s s' _ _ h; cases h
  | succ fuel ih =>
    intro n s s' h hok he
    unfold searchLoop at he
    obtain ⟨⟨s1, o⟩, e, hp⟩ := prop_ok h.inv h.heap
    rw [e] at he
    cases o with
    | some id =>
      obtain ⟨hcon, q, hinv⟩ := hp.confl id rfl
      obtain ⟨h1, g1⟩ := h.frame hp.keep hp.frame hp.heap hp.seen hinv
      simp only at he
      by_cases hz : s1.lim.length = 0
      · rw [if_pos hz] at he; cases he
      · rw [if_neg hz] at he
        have hd : s1.lim ≠ [] := fun e => hz (by rw [e]; rfl)
        obtain ⟨s2, e2, h2, g2⟩ := learn_ok C hm (s := s1) h1 hd hcon
        have hr2 : s2.gain = s1.gain + 1 := learn_gain C hm h1 hd hcon e2
        rw [e2] at he
        have := ih (n - 1) h2 (by rw [g2.ok, g1.ok]; exact hok) he
        have hr1 : s.gain ≤ s1.gain := (hi ▸ g1).gain
        omega
    | none =>
      obtain ⟨hq, hinv⟩ := hp.inv rfl
      obtain ⟨h1, g1⟩ := h.frame hp.keep hp.frame hp.heap hp.seen hinv
      have hr1 : s.gain ≤ s1.gain := (hi ▸ g1).gain
      simp only at he
      have hok1 : s1.ok = true := by rw [g1.ok]; exact hok
      have hs := noConflict_ok C (s := s1) ⟨h1, hq⟩ hok1 (n == 0)
      have hR := noConflict_rank C (s := s1) ⟨h1, hq⟩ hok1 (n == 0)
      revert hs hR he
      generalize noConflict C (n == 0) s1 = r
      intro he hs hR
      cases r with
      | panic => cases he
      | answer s2 r =>
        cases he
        have : n = 0 := by simpa using hR rfl
        obtain ⟨_, hg⟩ := hs
        have hr2 : s1.gain ≤ s'.gain := (hi ▸ hg).gain
        omega
      | again s2 =>
        have := ih n hs.1 (by rw [hs.2.ok]; exact hok1) he
        have hr2 : s1.gain ≤ s2.gain := (hi ▸ hs.2).gain
        omega

/-- There are only finitely many different clauses. -/
theorem gain_le (h : SInv Φ inc q s) (hr : RInv s.toCore) (hok : s.ok = true) : s.gain ≤ 2 ^ (2 * s.nvars) + s.nvars := by
  have hl : s.learnts.length ≤ 2 ^ (2 * s.nvars) := by
    have hg : ∀ id ∈ s.learnts, Good Φ s.nvars (s.data id) := fun id hid => (h.inv.good id (.inr (.inl hid))).1
    have hnod : s.learnts.Nodup := (List.nodup_append.1 h.cnod).2.1
    have hmap : (s.learnts.map fun id => (s.data id).toFinset).Nodup := by
      refine List.Nodup.map_on (fun i hi j hj he => ?_) hnod
      exact hr.tw i hi j hj (List.perm_of_nodup_nodup_toFinset_eq (hg i hi).nodup (hg j hj).nodup he)
    have hsub : (s.learnts.map fun id => (s.data id).toFinset).toFinset ⊆ (Finset.range (2 * s.nvars)).powerset := by
      intro S hS
      obtain ⟨id, hid, rfl⟩ := List.mem_map.1 (List.mem_toFinset.1 hS)
      refine Finset.mem_powerset.2 fun l hl => ?_
      exact Finset.mem_range.2 ((hg id hid).rng l (List.mem_toFinset.1 hl))
    have := Finset.card_le_card hsub
    rw [List.toFinset_card_of_nodup hmap, List.length_map, Finset.card_powerset, Finset.card_range] at this
    exact this
  have hu : s.units.length ≤ s.nvars := by
    refine Nat.le_trans ?_ h.inv.length_le
    have hnod : s.units.Nodup := by
      rw [List.nodup_iff_getElem?_ne_getElem?]
      intro i j hij hj he
      obtain ⟨A, h1, _, _, h2, _⟩ := hr.ind j s.units[j] (List.getElem?_eq_getElem hj)
      refine h2 (h1 _ ?_)
      rw [List.getElem?_eq_getElem hj] at he
      exact List.mem_of_getElem? (i := i) (by rw [List.getElem?_take_of_lt hij]; exact he)
    exact (List.subperm_of_subset hnod fun u hu => (hr.pres hok u hu).1).length_le
  unfold Core.gain
  omega

/-- The number of restarts with a positive budget among `fuel` restarts from number `k` on. -/
def busy (C : Cfg F) : Nat → Nat → Nat
  | 0, _ => 0
  | fuel + 1, k => (if 1 ≤ budget C k then 1 else 0) + busy C fuel (k + 1)

omit [LinearOrder F] in
theorem busy_add (C : Cfg F) (a : Nat) : ∀ b k, busy C (a + b) k = busy C a k + busy C b (k + a) := by
  induction a with
  | zero => intro b k; simp [busy]
  | succ a ih =>
    intro b k
    rw [show a + 1 + b = (a + b) + 1 by omega]
    show (if 1 ≤ budget C k then 1 else 0) + busy C (a + b) (k + 1) = (if 1 ≤ budget C k then 1 else 0) + busy C a (k + 1) + busy C b (k + (a + 1))
    rw [ih b (k + 1), show k + 1 + a = k + (a + 1) by omega]
    omega

omit [LinearOrder F] in
theorem busy_mono (C : Cfg F) {a b : Nat} (h : a ≤ b) (k : Nat) : busy C a k ≤ busy C b k := by
  obtain ⟨c, rfl⟩ := Nat.exists_eq_add_of_le h
  rw [busy_add]; omega

/-- The restarts of an incremental solver end if there are more of them with a positive budget than clauses. -/
theorem restartLoop_ends_inc (C : Cfg F) (hi : C.incremental = true) (hm : C.clauseMin ≠ .none) {fuel0 N : Nat} (h0 : 3 ^ N ≤ fuel0) (fuel : Nat) : ∀ (k : Nat) {s : St F},
    SInv Φ C.incremental s.qhead s → s.ok = true → RInv s.toCore → s.nvars = N → 2 ^ (2 * N) + N < s.gain + busy C fuel k → restartLoop C fuel0 fuel k s ≠ .diverge := by
  induction fuel with
  | zero =>
    intro k s h hok hR hN hk
    have := gain_le h hR hok
    rw [hN] at this
    have e : busy C 0 k = 0 := rfl
    omega
  | succ fuel ih =>
    intro k s h hok hR hN hk
    unfold restartLoop
    obtain ⟨e, he, _⟩ := lubyExp_ok k
    rw [he]
    simp only
    rw [← budget_eq he]
    have hs := search_ok C hm fuel0 (budget C k) h hok
    obtain ⟨a, _⟩ := search_ends C hm (fuel := fuel0) (budget C k) h hok
    rw [hN] at a
    have a := a h0
    have hb : ∀ s', search C fuel0 (budget C k) s = .ok (s', none) → s.gain + budget C k ≤ s'.gain := by
      intro s' he
      unfold search at he
      rw [if_neg (by rw [hok]; simp)] at he
      exact searchLoop_gain C hi hm fuel0 (budget C k) (s := { s with selIdx := 0 }) (h.congr rfl ⟨rfl, rfl, rfl, rfl, rfl, rfl, rfl⟩ { h.heap with } h.seen) hok he
    revert hs a hb
    generalize search C fuel0 (budget C k) s = r
    intro hs a hb
    match r, hs, a, hb with
    | .ok (s1, some r), _, _, _ => nofun
    | .diverge, _, a, _ => exact absurd rfl a
    | .ok (s1, none), hs, _, hb =>
      simp only
      obtain ⟨ha, hg⟩ := hs
      cases ha with
      | restart hf1 hl hc =>
        have hb := hb s1 rfl
        refine ih (k + 1) hf1.1 (hg.ok.trans hok) (hg.rep hi hok hR) (hg.nvars.trans hN) ?_
        unfold busy at hk
        split at hk <;> omega

/-! ### The calls -/

theorem lubyExp_of {x e : Nat} (h : Luby (x + 1) e) : lubyExp x = some e := by
  obtain ⟨e', h1, h2⟩ := lubyExp_ok x
  rw [h1, Luby.unique h2 h]

/-- Every exponent occurs in the sequence of restarts. -/
theorem lubyExp_top (e : Nat) : lubyExp (2 ^ (e + 1) - 2) = some e := by
  refine lubyExp_of ?_
  have hp := Nat.one_le_two_pow (n := e)
  have e1 : 2 ^ (e + 1) - 2 + 1 = 2 ^ (e + 1) - 1 := by rw [Nat.pow_succ]; omega
  rw [e1]
  exact .top e

/-- The exponent 0 occurs again and again. -/
theorem lubyExp_zero (k : Nat) : ∃ j, k ≤ j ∧ lubyExp j = some 0 := by
  refine ⟨2 ^ (k + 1) - 1, ?_, lubyExp_of ?_⟩
  · have := Nat.lt_two_pow_self (n := k + 1)
    omega
  · have hp := Nat.one_le_two_pow (n := k)
    have e1 : 2 ^ (k + 1) - 1 + 1 = 2 ^ (k + 1) := by rw [Nat.pow_succ]; omega
    rw [e1]
    refine .again (k + 1) _ 0 (Nat.le_refl _) ?_ ?_
    · rw [Nat.pow_succ 2 (k + 1), Nat.pow_succ]; omega
    · rw [Nat.sub_self]
      exact .top 0

omit [LinearOrder F] in
theorem busy_large (C : Cfg F) (hb : 1 ≤ Flt.toNat (Flt.mul (Flt.pow C.restartInc 0) (Flt.ofInt C.restartFirst))) (M : Nat) : ∀ k, ∃ f, M ≤ busy C f k := by
  induction M with
  | zero => exact fun k => ⟨0, Nat.zero_le _⟩
  | succ M ih =>
    intro k
    obtain ⟨j, hk, hj⟩ := lubyExp_zero k
    obtain ⟨f, hf⟩ := ih (j + 1)
    refine ⟨(j - k) + (f + 1), ?_⟩
    rw [busy_add, show k + (j - k) = j by omega]
    have e : busy C (f + 1) j = (if 1 ≤ budget C j then 1 else 0) + busy C f (j + 1) := rfl
    rw [e, if_pos (by rw [budget_eq hj]; exact hb)]
    omega

/-- `solve` ends if its restarts end. -/
theorem solve_ends_of (C : Cfg F) (hm : C.clauseMin ≠ .none) {fuel : Nat} (h : Ready Φ C.incremental s)
    (hr : ∀ s0 : St F, s0.toCore = s.toCore → SInv Φ C.incremental s0.qhead s0 → restartLoop C fuel fuel 0 s0 ≠ .diverge) (hok : s.ok = true) : solve C fuel s ≠ .diverge := by
  have hS := solve_ok C hm fuel h
  intro he
  unfold solve at he
  simp only at he
  rw [if_neg (by rw [hok]; simp)] at he
  have hf := h.full hok
  obtain ⟨s0, hs0⟩ : ∃ s0 : St F, s0 = { s with
    model := [], conflict := []
    adjConfl := Flt.ofInt 100
    adjCnt := 100
    maxLearnts := Flt.mul (Flt.ofInt s.clauses.length) C.learntsizeFactor } := ⟨_, rfl⟩
  rw [← hs0] at he
  have hc0 : s0.toCore = s.toCore := by rw [hs0]
  have hS0 : SInv Φ C.incremental s0.qhead s0 := by
    rw [show s0.qhead = s.qhead by rw [hc0]]
    exact hf.1.of_eq hc0 (by rw [hs0]) (by rw [hs0]) (by rw [hs0]) (by rw [hs0]) (by rw [hs0])
  have hr0 := hr s0 hc0 hS0
  revert he hr0
  generalize restartLoop C fuel fuel 0 s0 = r
  intro he hr0
  match r, he, hr0 with
  | .diverge, _, h => exact h rfl
  | .ok (s1, b), he, _ =>
    simp only at he
    split at he <;> cases he

theorem solve_bad (C : Cfg F) (fuel : Nat) (hok : s.ok = false) : solve C fuel s ≠ .diverge := by
  unfold solve
  simp only
  rw [if_pos hok]
  nofun

theorem solve_ends (C : Cfg F) (hm : C.clauseMin ≠ .none) {fuel j : Nat} (hj : 3 ^ s.nvars ≤ budget C j) (h0 : 3 ^ s.nvars ≤ fuel) (h1 : j < fuel)
    (h : Ready Φ C.incremental s) : solve C fuel s ≠ .diverge := by
  cases hok : s.ok with
  | false => exact solve_bad C fuel hok
  | true =>
    exact solve_ends_of C hm h (fun s0 hc hS => restartLoop_ends C hm hj h0 fuel 0 hS (by rw [hc]; exact hok) (by rw [hc]) (Nat.zero_le _) (by omega)) hok

theorem solve_ends_inc (C : Cfg F) (hi : C.incremental = true) (hm : C.clauseMin ≠ .none) {fuel : Nat} (h0 : 3 ^ s.nvars ≤ fuel)
    (h1 : 2 ^ (2 * s.nvars) + s.nvars < busy C fuel 0) (h : Ready Φ C.incremental s) : solve C fuel s ≠ .diverge := by
  cases hok : s.ok with
  | false => exact solve_bad C fuel hok
  | true =>
    exact solve_ends_of C hm h (fun s0 hc hS => restartLoop_ends_inc C hi hm h0 fuel 0 hS (by rw [hc]; exact hok) (by rw [hc]; exact h.rep hi) (by rw [hc]) (by omega)) hok

/-- What makes the restarts end for `n` variables: one restart may have as many conflicts as the trail has values, or the solver is incremental and the first
restart (and all others of its length) may have a conflict. -/
def Ends (C : Cfg F) (n : Nat) : Prop :=
  (∃ e, 3 ^ n ≤ Flt.toNat (Flt.mul (Flt.pow C.restartInc e) (Flt.ofInt C.restartFirst))) ∨
  (C.incremental = true ∧ 1 ≤ Flt.toNat (Flt.mul (Flt.pow C.restartInc 0) (Flt.ofInt C.restartFirst)))

/-- A number of rounds and restarts that suffices. -/
theorem solve_enough (C : Cfg F) (hm : C.clauseMin ≠ .none) {n : Nat} (hE : Ends C n) : ∃ f0, ∀ f ≥ f0, ∀ (Φ : List (List Nat)) (s : St F), s.nvars = n → Ready Φ C.incremental s →
    solve C f s ≠ .diverge := by
  rcases hE with ⟨e, he⟩ | ⟨hi, hb⟩
  · refine ⟨3 ^ n + 2 ^ (e + 1), fun f hf Φ s hn h => ?_⟩
    have hp := Nat.one_le_two_pow (n := e)
    refine solve_ends C hm (j := 2 ^ (e + 1) - 2) ?_ (by rw [hn]; omega) (by have := Nat.pow_succ 2 e; have h3 : 0 < 3 ^ n := Nat.pow_pos (by omega); omega) h
    rw [budget_eq (lubyExp_top e), hn]
    exact he
  · obtain ⟨f1, hf1⟩ := busy_large C hb (2 ^ (2 * n) + n + 1) 0
    refine ⟨3 ^ n + f1, fun f hf Φ s hn h => solve_ends_inc C hi hm (by rw [hn]; exact Nat.le_trans (Nat.le_add_right ..) hf) ?_ h⟩
    have := busy_mono C (Nat.le_trans (Nat.le_add_left ..) hf : f1 ≤ f) 0
    rw [hn]
    omega

theorem solveSel_enough (C : Cfg F) (hm : C.clauseMin ≠ .none) {n : Nat} (hE : Ends C n) : ∃ f0, ∀ f ≥ f0, ∀ (Φ : List (List Nat)) (s : St F) (sel as : List Nat), s.nvars = n →
    Ready Φ C.incremental s → (∀ l ∈ sel, l < 2 * n) → (∀ l ∈ as, l < 2 * n) → Sess.solveSel C f sel as s ≠ .diverge := by
  obtain ⟨f0, hf0⟩ := solve_enough C hm hE
  refine ⟨f0, fun f hf Φ s sel as hn h hs ha => ?_⟩
  have hr : Ready Φ C.incremental { s with sel := sel, assumptions := as } :=
    (h.setSel (sel := sel) (by rw [hn]; exact hs)).assume (as := as) (by show ∀ p ∈ as, p < 2 * s.nvars; rw [hn]; exact ha)
  have := hf0 f hf Φ { s with sel := sel, assumptions := as } hn hr
  unfold Sess.solveSel solveWith
  revert this
  show solve C f { s with sel := sel, assumptions := as } ≠ _ → _
  generalize solve C f { s with sel := sel, assumptions := as } = r
  match r with
  | .ok (s1, b) => nofun
  | .panic => nofun
  | .diverge => exact fun h => absurd rfl h

/-- Without a budget for conflicts the solver restarts forever unless the clauses contradict each other by propagation alone. -/
theorem restartLoop_zero (C : Cfg F) (hb : ∀ k, budget C k = 0) (f0 fuel : Nat) : ∀ (k : Nat) (s : St F), s.qhead = s.trail.length → s.ok = true → s.lim = [] →
    restartLoop C f0 fuel k s = .diverge := by
  induction fuel with
  | zero => exact fun _ _ _ _ _ => rfl
  | succ fuel ih =>
    intro k s hq hok hl
    have hsr : search C f0 0 s = .ok ({ s with selIdx := 0, simpProps := s.simpProps - 0 }, none) ∨ search C f0 0 s = .diverge := by
      unfold search
      rw [if_neg (by rw [hok]; simp)]
      cases f0 with
      | zero => exact .inr rfl
      | succ f0 =>
        left
        unfold searchLoop
        rw [prop_done (s := { s with selIdx := 0 }) hq]
        simp only
        unfold noConflict
        rw [if_pos (by rfl)]
        unfold cancelUntil
        rw [if_neg (by rw [hl]; simp)]
    unfold restartLoop
    obtain ⟨e, he, _⟩ := lubyExp_ok k
    rw [he]
    simp only
    rw [← budget_eq he, hb]
    rcases hsr with h | h
    · rw [h]; exact ih (k + 1) _ hq hok hl
    · rw [h]

end
end Verif.Sat
