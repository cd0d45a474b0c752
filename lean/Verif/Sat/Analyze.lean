import Verif.Sat.Heur
import Mathlib.Data.List.Nodup
/-
Conflict analysis: the learnt clause follows from the given clauses, contains one literal of the current level and all
others from lower levels, and the analysis neither panics nor leaves `seen` flags behind.
-/
namespace Verif.Sat
open Core

/-- State of the resolution in `analyze`: `t` is the part of the trail still to be gone through, `ls` the literals of the
current clause still to be looked at, `out` the literals of lower levels, `n` the number of marked literals of the
current level. -/
structure AInv (Φ : List (List Nat)) (c : Core) (ls t : List Nat) (seen : Nat → Bool) (n : Nat) (out : List Nat) : Prop where
  sub : ∃ t1, c.trail = t1 ++ t
  cur : ∀ v, seen v = true → (∃ x ∈ t, vr x = v ∧ c.lv x = c.lim.length) ∨ (∃ l ∈ out, vr l = v)
  olow : ∀ l ∈ out, seen (vr l) = true ∧ neg l ∈ c.trail ∧ 0 < c.lv l ∧ c.lv l < c.lim.length
  nod : (out.map vr).Nodup
  cnt : n = t.countP (fun x => seen (vr x) && c.lv x == c.lim.length)
  lits : ∀ l ∈ ls, neg l ∈ t
  sem : ∀ ρ, Models ρ Φ → (∀ l ∈ out, ¬ litT ρ l) → (∀ x ∈ t, seen (vr x) = true → c.lv x = c.lim.length → litT ρ x) →
    (∀ l ∈ ls, ¬ litT ρ l) → False

/-- Marking one more element. -/
theorem countP_upd {lev : Nat → Bool} (t : List Nat) : ∀ (_ : (t.map vr).Nodup) {y : Nat} {seen : Nat → Bool} (_ : y ∈ t) (_ : seen (vr y) = false),
    (∀ x ∈ t, vr x = vr y → lev x = lev y) →
    t.countP (fun x => upd seen (vr y) true (vr x) && lev x) = t.countP (fun x => seen (vr x) && lev x) + if lev y then 1 else 0 := by
  induction t with
  | nil => intro _ y _ hy; simp at hy
  | cons a t ih =>
    intro hn y seen hy hs hl
    simp only [List.map_cons, List.nodup_cons] at hn
    rw [List.countP_cons, List.countP_cons]
    by_cases e : vr a = vr y
    · have hla := hl a (List.mem_cons_self ..) e
      have hrest : t.countP (fun x => upd seen (vr y) true (vr x) && lev x) = t.countP (fun x => seen (vr x) && lev x) := by
        apply List.countP_congr
        intro x hx
        have : vr x ≠ vr y := by
          intro e'
          exact hn.1 (List.mem_map.2 ⟨x, hx, by rw [e', e]⟩)
        rw [upd_ne _ _ this]
      rw [hrest, e, upd_self, hs, hla]
      cases lev y <;> simp
    · have hy' : y ∈ t := by
        rcases List.mem_cons.1 hy with rfl | h
        · exact absurd rfl e
        · exact h
      rw [ih hn.2 hy' hs (fun x hx => hl x (List.mem_cons_of_mem _ hx)), upd_ne _ _ e]
      omega

section
variable {F : Type} [LinearOrder F] [Flt F] {Φ : List (List Nat)} {inc : Bool} {U : List Nat} {q : Nat}
open St

theorem Inv.vr_nodup {s : Core} (h : Inv Φ inc U q s) : (s.trail.map vr).Nodup :=
  List.Nodup.map_on (fun _ ha _ hb he => h.trail_inj ha hb he) h.nodup

theorem anaLits_ok (ls : List Nat) : ∀ {s : St F} {t out : List Nat} {n : Nat}, Inv Φ inc U q s.toCore → HInv s →
    AInv Φ s.toCore ls t s.seen n out →
    ∃ s' n' out', anaLits ls s n out = some (s', n', out') ∧ Heur s s' ∧ AInv Φ s.toCore [] t s'.seen n' out' ∧ n ≤ n' ∧
      (∀ v, s.seen v = true → s'.seen v = true) ∧ (∀ l ∈ ls, 0 < s.lv l → s'.seen (vr l) = true) := by
  induction ls with
  | nil =>
    intro s t out n h hh ha
    exact ⟨s, n, out, rfl, .refl s, ha, Nat.le_refl _, fun _ h => h, by simp⟩
  | cons l ls ih =>
    intro s t out n h hh ha
    obtain ⟨t1, ht1⟩ := ha.sub
    have hlt : neg l ∈ t := ha.lits l (List.mem_cons_self ..)
    have hlT : neg l ∈ s.trail := by rw [ht1]; exact List.mem_append_right _ hlt
    have hsubT : ∀ x ∈ t, x ∈ s.trail := fun x hx => by rw [ht1]; exact List.mem_append_right _ hx
    have hlits : ∀ k ∈ ls, neg k ∈ t := fun k hk => ha.lits k (List.mem_cons_of_mem _ hk)
    unfold anaLits
    by_cases hc : (!s.seen (vr l) && decide (0 < s.lv l)) = true
    · rw [if_pos hc]
      simp only [Bool.and_eq_true, Bool.not_eq_true', decide_eq_true_eq] at hc
      obtain ⟨s1, e1, hu, hs1⟩ := bumpVar_ok hh (vr l)
      rw [e1]
      simp only
      have hcore : s1.toCore = s.toCore := hu.core
      have hu2 : Heur s { s1 with seen := upd s1.seen (vr l) true } :=
        hu.trans ⟨rfl, ⟨rfl, rfl, rfl, rfl, rfl, rfl, rfl⟩, fun h => h.congr rfl rfl rfl fun _ _ h => h⟩
      have hlv : s1.lv l = s.lv l := by rw [hcore]
      have hdl : s1.lim.length = s.lim.length := by rw [hcore]
      have hle : s.lv l ≤ s.lim.length := by
        have := h.lv_le hlT; rwa [Inv.lv_neg] at this
      have hnt : (t.map vr).Nodup := by
        have := h.vr_nodup
        rw [ht1, List.map_append] at this
        exact this.of_append_right
      have hcount := countP_upd (lev := fun x => s.lv x == s.lim.length) t hnt hlt (seen := s.seen) (by rw [vr_neg]; exact hc.1)
        (fun x hx e => by
          have := h.trail_inj (hsubT x hx) hlT e
          rw [this])
      rw [vr_neg] at hcount
      simp only [Inv.lv_neg] at hcount
      show ∃ s' n' out', (if s1.lim.length ≤ s1.lv l then _ else _) = some (s', n', out') ∧ _
      rw [hlv, hdl]
      have hmono : ∀ v, s.seen v = true → upd s1.seen (vr l) true v = true := by
        intro v hv
        unfold upd; split
        · rfl
        · rw [hs1]; exact hv
      by_cases hcur : s.lim.length ≤ s.lv l
      · rw [if_pos hcur]
        have hleq : s.lv l = s.lim.length := by omega
        obtain ⟨s', n', out', e', hu', ha', hn', hm', hl'⟩ := ih (s := { s1 with seen := upd s1.seen (vr l) true }) (t := t) (out := out) (n := n + 1)
          (by show Inv Φ inc U q s1.toCore; rw [hcore]; exact h) (hu2.heap hh)
          (by
            show AInv Φ s1.toCore ls t (upd s1.seen (vr l) true) (n + 1) out
            rw [hcore, hs1]
            exact
            { sub := ha.sub
              cur := fun v hv => by
                by_cases e : v = vr l
                · exact .inl ⟨neg l, hlt, by rw [vr_neg, e], by rw [Inv.lv_neg]; exact hleq⟩
                · rw [upd_ne _ _ e] at hv; exact ha.cur v hv
              olow := fun k hk => by
                obtain ⟨h1, h2⟩ := ha.olow k hk
                refine ⟨?_, h2⟩
                have := hmono _ h1
                rwa [hs1] at this
              nod := ha.nod
              cnt := by rw [hcount, ← ha.cnt]; simp [hleq]
              lits := hlits
              sem := fun ρ hρ ho ht hls => by
                refine ha.sem ρ hρ ho (fun x hx hsx hx0 => ht x hx (by have := hmono _ hsx; rwa [hs1] at this) hx0) ?_
                intro k hk
                rcases List.mem_cons.1 hk with rfl | hk
                · have := ht (neg k) hlt (by rw [vr_neg, upd_self]) (by rw [Inv.lv_neg]; exact hleq)
                  exact litT_neg.1 this
                · exact hls k hk })
        refine ⟨s', n', out', e', hu2.trans hu', ?_, by omega, fun v hv => hm' v (hmono v hv), ?_⟩
        · have : AInv Φ s1.toCore [] t s'.seen n' out' := ha'
          rwa [hcore] at this
        · intro k hk hk0
          rcases List.mem_cons.1 hk with rfl | hk
          · exact hm' _ (upd_self ..)
          · exact hl' k hk (by show 0 < s1.lv k; rw [hcore]; exact hk0)
      · rw [if_neg hcur]
        obtain ⟨s', n', out', e', hu', ha', hn', hm', hl'⟩ := ih (s := { s1 with seen := upd s1.seen (vr l) true }) (t := t) (out := out ++ [l]) (n := n)
          (by show Inv Φ inc U q s1.toCore; rw [hcore]; exact h) (hu2.heap hh)
          (by
            show AInv Φ s1.toCore ls t (upd s1.seen (vr l) true) n (out ++ [l])
            rw [hcore, hs1]
            exact
            { sub := ha.sub
              cur := fun v hv => by
                by_cases e : v = vr l
                · exact .inr ⟨l, by simp, e.symm⟩
                · rw [upd_ne _ _ e] at hv
                  rcases ha.cur v hv with h' | ⟨k, hk, h'⟩
                  · exact .inl h'
                  · exact .inr ⟨k, by simp [hk], h'⟩
              olow := fun k hk => by
                rcases List.mem_append.1 hk with hk | hk
                · obtain ⟨h1, h2⟩ := ha.olow k hk
                  refine ⟨?_, h2⟩
                  have := hmono _ h1
                  rwa [hs1] at this
                · obtain rfl := List.mem_singleton.1 hk
                  exact ⟨upd_self .., hlT, hc.2, by omega⟩
              nod := by
                rw [List.map_append, List.nodup_append]
                refine ⟨ha.nod, by simp, ?_⟩
                intro a ha1 b hb e
                simp at hb
                obtain ⟨k, hk, rfl⟩ := List.mem_map.1 ha1
                have := (ha.olow k hk).1
                rw [e, hb, hc.1] at this
                cases this
              cnt := by
                rw [hcount, ← ha.cnt]
                have : ¬ s.lv l = s.lim.length := by omega
                simp [this]
              lits := hlits
              sem := fun ρ hρ ho ht hls => by
                refine ha.sem ρ hρ (fun k hk => ho k (by simp [hk])) (fun x hx hsx hx0 => ht x hx (by have := hmono _ hsx; rwa [hs1] at this) hx0) ?_
                intro k hk
                rcases List.mem_cons.1 hk with rfl | hk
                · exact ho k (by simp)
                · exact hls k hk })
        refine ⟨s', n', out', e', hu2.trans hu', ?_, by omega, fun v hv => hm' v (hmono v hv), ?_⟩
        · have : AInv Φ s1.toCore [] t s'.seen n' out' := ha'
          rwa [hcore] at this
        · intro k hk hk0
          rcases List.mem_cons.1 hk with rfl | hk
          · exact hm' _ (upd_self ..)
          · exact hl' k hk (by show 0 < s1.lv k; rw [hcore]; exact hk0)
    · rw [if_neg hc]
      obtain ⟨s', n', out', e', hu', ha', hn', hm', hl'⟩ := ih (s := s) (t := t) (out := out) (n := n) h hh
        { ha with
          lits := hlits
          sem := fun ρ hρ ho ht hls => by
            refine ha.sem ρ hρ ho ht ?_
            intro k hk
            rcases List.mem_cons.1 hk with rfl | hk
            · by_cases h0 : s.lv k = 0
              · exact litT_neg.1 ((h.zero (neg k) hlT (by rw [Inv.lv_neg]; exact h0)).lit hρ)
              · have hs : s.seen (vr k) = true := by
                  cases hsk : s.seen (vr k)
                  · exact absurd (by simp [hsk]; omega) hc
                  · rfl
                rcases ha.cur _ hs with ⟨x, hx, hxv, hxl⟩ | ⟨o, ho', hov⟩
                · have e := h.trail_inj (hsubT x hx) hlT (by rw [hxv, vr_neg])
                  have := ht x hx (by rw [hxv]; exact hs) hxl
                  rw [e] at this
                  exact litT_neg.1 this
                · have e := h.trail_inj (ha.olow o ho').2.1 hlT (by rw [vr_neg, vr_neg]; exact hov)
                  rw [← neg_inj.1 e]
                  exact ho o ho'
            · exact hls k hk }
      refine ⟨s', n', out', e', hu', ha', hn', hm', ?_⟩
      intro k hk hk0
      rcases List.mem_cons.1 hk with rfl | hk
      · apply hm'
        cases hsk : s.seen (vr k)
        · exact absurd (by simp [hsk]; exact hk0) hc
        · rfl
      · exact hl' k hk hk0

/-- Result of the resolution: the first unique implication point `x`, and literals of lower levels. -/
structure AnaOk (Φ : List (List Nat)) (c : Core) (x : Nat) (seen : Nat → Bool) (out : List Nat) : Prop where
  mem : x ∈ c.trail
  cur : c.lv x = c.lim.length
  olow : ∀ l ∈ out, neg l ∈ c.trail ∧ 0 < c.lv l ∧ c.lv l < c.lim.length
  nod : (out.map vr).Nodup
  sn : ∀ v, seen v = true ↔ v ∈ out.map vr
  ent : Ent Φ (neg x :: out)

theorem anaLoop_ok (C : Cfg F) (t : List Nat) : ∀ {s : St F} {out : List Nat} {n : Nat}, Inv Φ inc U q s.toCore → HInv s → s.lim ≠ [] →
    AInv Φ s.toCore [] t s.seen n out → 1 ≤ n →
    ∃ x s' out', anaLoop C t s n out = some (x, s', out') ∧ Heur s s' ∧ AnaOk Φ s.toCore x s'.seen out' := by
  induction t with
  | nil =>
    intro s out n h hh hd ha hn
    have := ha.cnt
    simp at this
    omega
  | cons x t ih =>
    intro s out n h hh hd ha hn
    obtain ⟨t1, ht1⟩ := ha.sub
    have hxT : x ∈ s.trail := by rw [ht1]; simp
    have hsubT : ∀ y ∈ t, y ∈ s.trail := fun y hy => by rw [ht1]; simp [hy]
    have hdl : 0 < s.lim.length := List.length_pos_iff.2 hd
    have hvx : ∀ y ∈ t, vr y ≠ vr x := by
      intro y hy e
      have e2 := h.trail_inj (hsubT y hy) hxT e
      have := h.nodup
      rw [ht1, List.nodup_append] at this
      have := (List.nodup_cons.1 this.2.1).1
      rw [← e2] at this
      exact this hy
    unfold anaLoop
    by_cases hs : s.seen (vr x) = true
    · rw [if_pos hs]
      simp only
      -- the marked literal is of the current level
      have hlvx : s.lv x = s.lim.length := by
        have h1 : 0 < (x :: t).countP (fun y => s.seen (vr y) && s.lv y == s.lim.length) := by rw [← ha.cnt]; omega
        obtain ⟨y, hy, hy2⟩ := List.countP_pos_iff.1 h1
        simp only [Bool.and_eq_true, beq_iff_eq] at hy2
        rcases List.mem_cons.1 hy with rfl | hy
        · exact hy2.2
        · have h1 := h.twf.mono ht1 y hy
          have h2 : s.lv y ≤ s.lv x := h1
          have h3 := h.lv_le hxT
          omega
      have hcnt : n = t.countP (fun y => s.seen (vr y) && s.lv y == s.lim.length) + 1 := by
        rw [ha.cnt, List.countP_cons]
        simp [hs, hlvx]
      have hxout : ∀ l ∈ out, vr l ≠ vr x := by
        intro l hl e
        have h2 := (ha.olow l hl).2.2.2
        have : s.lv l = s.lv x := by simp [Core.lv, e]
        omega
      have hupd : ∀ y ∈ t, upd s.seen (vr x) false (vr y) = s.seen (vr y) := fun y hy => upd_ne _ _ (hvx y hy)
      by_cases hn1 : n ≤ 1
      · rw [if_pos hn1]
        have h0 : t.countP (fun y => s.seen (vr y) && s.lv y == s.lim.length) = 0 := by omega
        rw [List.countP_eq_zero] at h0
        refine ⟨x, _, out, rfl, ⟨rfl, ⟨rfl, rfl, rfl, rfl, rfl, rfl, rfl⟩, fun h => h.congr rfl rfl rfl fun _ _ h => h⟩, hxT, hlvx, fun l hl => (ha.olow l hl).2, ha.nod, ?_, ?_⟩
        · intro v
          show upd s.seen (vr x) false v = true ↔ _
          by_cases e : v = vr x
          · subst e
            rw [upd_self]
            constructor
            · intro h; cases h
            · intro h'
              obtain ⟨l, hl, e⟩ := List.mem_map.1 h'
              exact absurd e (hxout l hl)
          · rw [upd_ne _ _ e]
            constructor
            · intro hv
              rcases ha.cur v hv with ⟨y, hy, hyv, hyl⟩ | ⟨l, hl, e'⟩
              · rcases List.mem_cons.1 hy with rfl | hy
                · exact absurd hyv.symm e
                · exact absurd (by simp [hyv, hv, hyl]) (h0 y hy)
              · exact List.mem_map.2 ⟨l, hl, e'⟩
            · intro h'
              obtain ⟨l, hl, rfl⟩ := List.mem_map.1 h'
              exact (ha.olow l hl).1
        · intro ρ hρ
          by_contra hc
          have hno : ∀ l ∈ neg x :: out, ¬ litT ρ l := fun l hl ht => hc ⟨l, hl, ht⟩
          refine ha.sem ρ hρ (fun l hl => hno l (List.mem_cons_of_mem _ hl)) ?_ (by simp)
          intro y hy hsy hly
          rcases List.mem_cons.1 hy with rfl | hy
          · have := hno (neg y) (List.mem_cons_self ..)
            rw [litT_neg, not_not] at this
            exact this
          · exact absurd (by simp [hsy, hly]) (h0 y hy)
      · rw [if_neg hn1]
        cases hr : s.reason (vr x) with
        | none =>
          exfalso
          rcases h.dec _ _ _ ht1 hr with h' | h'
          · omega
          · have h1 : 0 < t.countP (fun y => s.seen (vr y) && s.lv y == s.lim.length) := by omega
            obtain ⟨y, hy, hy2⟩ := List.countP_pos_iff.1 h1
            simp only [Bool.and_eq_true, beq_iff_eq] at hy2
            have h2 : s.lv y < s.lv x := h.twf.decision ht1 h' y hy
            omega
        | some id =>
          obtain ⟨r, hdata, hneg⟩ := h.rsn _ _ _ id ht1 hr
          have hlive : s.Live id := .inr (.inr (.inr ⟨x, hxT, hr⟩))
          have hgood := (h.good id hlive).1
          have hbc := bumpClause_ok C id { s with seen := upd s.seen (vr x) false }
          have hcore : (bumpClause C id { s with seen := upd s.seen (vr x) false }).toCore = s.toCore := hbc.1.core
          have hu0 : Heur s { s with seen := upd s.seen (vr x) false } :=
            ⟨rfl, ⟨rfl, rfl, rfl, rfl, rfl, rfl, rfl⟩, fun h => h.congr rfl rfl rfl fun _ _ h => h⟩
          have hu1 := hu0.trans hbc.1
          simp only
          rw [hdata, List.tail_cons]
          obtain ⟨s', n', out', e', hu', ha', hn', _, _⟩ := anaLits_ok (Φ := Φ) (inc := inc) (U := U) (q := q) r
            (s := bumpClause C id { s with seen := upd s.seen (vr x) false }) (t := t) (out := out) (n := n - 1)
            (by rw [hcore]; exact h) (hu1.heap hh)
            (by
              rw [hcore, hbc.2]
              exact
              { sub := ⟨t1 ++ [x], by rw [ht1]; simp⟩
                cur := fun v hv => by
                  have hv : upd s.seen (vr x) false v = true := hv
                  have e : v ≠ vr x := by rintro rfl; rw [upd_self] at hv; cases hv
                  rw [upd_ne _ _ e] at hv
                  rcases ha.cur v hv with ⟨y, hy, hyv, hyl⟩ | h'
                  · rcases List.mem_cons.1 hy with rfl | hy
                    · exact absurd hyv.symm e
                    · exact .inl ⟨y, hy, hyv, hyl⟩
                  · exact .inr h'
                olow := fun l hl => ⟨by
                  show upd s.seen (vr x) false (vr l) = true
                  rw [upd_ne _ _ (hxout l hl)]; exact (ha.olow l hl).1, (ha.olow l hl).2⟩
                nod := ha.nod
                cnt := by
                  have : t.countP (fun y => upd s.seen (vr x) false (vr y) && s.lv y == s.lim.length) =
                      t.countP (fun y => s.seen (vr y) && s.lv y == s.lim.length) := by
                    apply List.countP_congr
                    intro y hy
                    rw [hupd y hy]
                  show n - 1 = t.countP (fun y => upd s.seen (vr x) false (vr y) && s.lv y == s.lim.length)
                  rw [this]; omega
                lits := hneg
                sem := fun ρ hρ ho ht hls => by
                  refine ha.sem ρ hρ ho ?_ (by simp)
                  intro y hy hsy hly
                  rcases List.mem_cons.1 hy with rfl | hy
                  · obtain ⟨k, hk, hkt⟩ := hgood.ent ρ hρ
                    rw [hdata] at hk
                    rcases List.mem_cons.1 hk with rfl | hk
                    · exact hkt
                    · exact absurd hkt (hls k hk)
                  · exact ht y hy (by show upd s.seen (vr x) false (vr y) = true; rw [hupd y hy]; exact hsy) hly })
          rw [e']
          simp only
          have hc' : s'.toCore = s.toCore := by rw [hu'.core, hcore]
          rw [hcore] at ha'
          obtain ⟨x', s'', out'', e'', hu'', ha''⟩ := ih (s := s') (by rw [hc']; exact h) (hu'.heap (hu1.heap hh)) (by rw [hc']; exact hd)
            (by rw [hc']; exact ha') (by omega)
          rw [hc'] at ha''
          exact ⟨x', s'', out'', e'', (hu1.trans hu').trans hu'', ha''⟩
    · rw [if_neg hs]
      refine ih h hh hd ?_ hn
      have hs' : s.seen (vr x) = false := by cases hsx : s.seen (vr x); rfl; exact absurd hsx hs
      exact
      { sub := ⟨t1 ++ [x], by rw [ht1]; simp⟩
        cur := fun v hv => by
          rcases ha.cur v hv with ⟨y, hy, hyv, hyl⟩ | h'
          · rcases List.mem_cons.1 hy with rfl | hy
            · rw [← hyv, hs'] at hv; cases hv
            · exact .inl ⟨y, hy, hyv, hyl⟩
          · exact .inr h'
        olow := ha.olow
        nod := ha.nod
        cnt := by rw [ha.cnt, List.countP_cons]; simp [hs']
        lits := by simp
        sem := fun ρ hρ ho ht _ => by
          refine ha.sem ρ hρ ho ?_ (by simp)
          intro y hy hsy hly
          rcases List.mem_cons.1 hy with rfl | hy
          · rw [hs'] at hsy; cases hsy
          · exact ht y hy hsy hly }

end
end Verif.Sat
