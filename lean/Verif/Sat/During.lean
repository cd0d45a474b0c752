import Verif.Sat.Session
/-
The states in the middle of solving.
-/
namespace Verif.Sat
open St Core

section
variable {Φ : List (List Nat)} {inc : Bool} {U : List Nat} {q : Nat} {s : Core}

/-- Every literal of the trail follows from the clauses and the decisions up to its level. -/
theorem Inv.implied (h : Inv Φ inc U q s) {ρ : Nat → Bool} (hρ : Models ρ Φ) (t : List Nat) : ∀ t1, s.trail = t1 ++ t → ∀ x ∈ t,
    (∀ d ∈ s.trail, s.reason (vr d) = none → 0 < s.lv d → s.lv d ≤ s.lv x → litT ρ d) → litT ρ x := by
  induction t with
  | nil => intro _ _ x hx; cases hx
  | cons y t ih =>
    intro t1 ht x hx hd
    have ih' := ih (t1 ++ [y]) (by rw [ht]; simp)
    rcases List.mem_cons.1 hx with rfl | hx
    · have hxt : x ∈ s.trail := by rw [ht]; simp
      cases hr : s.reason (vr x) with
      | none =>
        rcases Nat.eq_zero_or_pos (s.lv x) with h0 | h0
        · exact (h.zero x hxt h0).lit hρ
        · exact hd x hxt hr h0 (Nat.le_refl _)
      | some id =>
        obtain ⟨r, e, hall⟩ := h.rsn t1 x t id ht hr
        obtain ⟨l, hl, hlt⟩ := (h.good id (.inr (.inr (.inr ⟨x, hxt, hr⟩)))).1.ent ρ hρ
        rw [e] at hl
        rcases List.mem_cons.1 hl with rfl | hl
        · exact hlt
        · refine absurd hlt (litT_neg.1 (ih' (neg l) (hall l hl) fun d hdt hdr h0 hle => hd d hdt hdr h0 (Nat.le_trans hle ?_)))
          exact h.twf.mono ht (neg l) (hall l hl)
    · exact ih' x hx hd

/-- When everything is propagated, no clause in use is false or unit. -/
theorem Inv.noUnit (h : Inv Φ inc U q s) (hq : q = s.trail.length) {id : Nat} (hid : id ∈ s.db inc) :
    (∃ l ∈ s.data id, s.value l = some true) ∨ ∃ l ∈ s.data id, ∃ k ∈ s.data id, l ≠ k ∧ s.value l = none ∧ s.value k = none := by
  have hdone : ∀ {l}, l ∈ s.trail → l ∈ s.done q := fun hl => by unfold Core.done; rw [hq]; simpa using hl
  rcases h.cov id hid with ⟨_, t, ht, htt, _⟩ | ⟨c0, c1, r, e, m0, m1⟩
  · exact .inl ⟨t, ht, (h.val t).2 htt⟩
  · have hlive : s.Live id := by
      rcases List.mem_append.1 hid with h' | h'
      · exact .inl h'
      · cases inc with
        | false => simp at h'
        | true => exact .inr (.inl h')
    have hside : ∀ c, id ∈ (s.watches (neg c)).map Prod.fst → s.value c = some false → ∃ l ∈ s.data id, s.value l = some true := by
      intro c hm hv
      obtain ⟨w, hw, ew⟩ := List.mem_map.1 hm
      obtain ⟨t, ht, htt, _⟩ := h.valid (neg c) (hdone ((h.val_false c).1 hv)) w hw
      rw [ew] at ht
      exact ⟨t, ht, (h.val t).2 htt⟩
    cases h0 : s.value c0 with
    | some b =>
      cases b with
      | true => exact .inl ⟨c0, by rw [e]; simp, h0⟩
      | false => exact .inl (hside c0 m0 h0)
    | none =>
      cases h1 : s.value c1 with
      | some b =>
        cases b with
        | true => exact .inl ⟨c1, by rw [e]; simp, h1⟩
        | false => exact .inl (hside c1 m1 h1)
      | none =>
        refine .inr ⟨c0, by rw [e]; simp, c1, by rw [e]; simp, fun e01 => ?_, h0, h1⟩
        have := (h.good id hlive).1.nodup
        rw [e, e01] at this
        simp at this

end

section
variable {F : Type} [LinearOrder F] [Flt F] {Φ : List (List Nat)} {s0 s : St F}

/-- The states at the head of the loop of `search`, minisat2.rs:474, while `solve` runs on `s0` (which contains the assumptions). -/
inductive During (C : Cfg F) (s0 : St F) : St F → Prop
  | start : During C s0 { s0 with
      model := []
      conflict := []
      adjConfl := Flt.ofInt 100
      adjCnt := 100
      maxLearnts := Flt.mul (Flt.ofInt s0.clauses.length) C.learntsizeFactor
      selIdx := 0 }
  | conflict {s s1 s2 : St F} {id : Nat} : During C s0 s → s.prop = some (s1, some id) → s1.lim.length ≠ 0 → learn C id s1 = some s2 → During C s0 s2
  | again {s s1 s2 : St F} : During C s0 s → s.prop = some (s1, none) → noConflict C false s1 = .again s2 → During C s0 s2
  | restart {s s1 s2 : St F} : During C s0 s → s.prop = some (s1, none) → noConflict C true s1 = .answer s2 none → During C s0 { s2 with selIdx := 0 }

/-- The invariant holds in the middle of solving. -/
theorem During.inv {C : Cfg F} (hm : C.clauseMin ≠ .none) (h : Ready Φ C.incremental s0) (hok : s0.ok = true) (hd : During C s0 s) :
    SInv Φ C.incremental s.qhead s ∧ s.ok = true ∧ s.nvars = s0.nvars := by
  induction hd with
  | start =>
    obtain ⟨h1, h2⟩ := h.full hok
    exact ⟨{ h1 with heap := { h1.heap with } }, hok, rfl⟩
  | @conflict s s1 s2 id _ hp hl hle ih =>
    obtain ⟨hi, ho, hn⟩ := ih
    obtain ⟨x, e, hpo⟩ := prop_ok hi.inv hi.heap
    rw [hp] at e
    cases e
    obtain ⟨hcon, q, hq⟩ := hpo.confl id rfl
    obtain ⟨h1, g1⟩ := hi.frame hpo.keep hpo.frame hpo.heap hpo.seen hq
    obtain ⟨s2', e2, h2, g2⟩ := learn_ok C hm (s := s1) h1 (fun e => hl (by rw [e]; rfl)) hcon
    rw [hle] at e2
    cases e2
    exact ⟨h2, by rw [g2.ok, g1.ok, ho], by rw [g2.nvars, g1.nvars, hn]⟩
  | @again s s1 s2 _ hp hno ih =>
    obtain ⟨hi, ho, hn⟩ := ih
    obtain ⟨x, e, hpo⟩ := prop_ok hi.inv hi.heap
    rw [hp] at e
    cases e
    obtain ⟨hq, hiq⟩ := hpo.inv rfl
    obtain ⟨h1, g1⟩ := hi.frame hpo.keep hpo.frame hpo.heap hpo.seen hiq
    have hs := noConflict_ok C (s := s1) ⟨h1, hq⟩ (by rw [g1.ok]; exact ho) false
    rw [hno] at hs
    exact ⟨hs.1, by rw [hs.2.ok, g1.ok, ho], by rw [hs.2.nvars, g1.nvars, hn]⟩
  | @restart s s1 s2 _ hp hno ih =>
    obtain ⟨hi, ho, hn⟩ := ih
    obtain ⟨x, e, hpo⟩ := prop_ok hi.inv hi.heap
    rw [hp] at e
    cases e
    obtain ⟨hq, hiq⟩ := hpo.inv rfl
    obtain ⟨h1, g1⟩ := hi.frame hpo.keep hpo.frame hpo.heap hpo.seen hiq
    have hs := noConflict_ok C (s := s1) ⟨h1, hq⟩ (by rw [g1.ok]; exact ho) true
    rw [hno] at hs
    have hg := hs.2
    have ho2 : s2.ok = s1.ok := hg.ok
    have hn2 : s2.nvars = s1.nvars := hg.nvars
    cases hs.1 with
    | restart hf _ _ => exact ⟨{ hf.1 with heap := { hf.1.heap with } }, by show s2.ok = true; rw [ho2, g1.ok, ho], by show s2.nvars = _; rw [hn2, g1.nvars, hn]⟩

end
end Verif.Sat
