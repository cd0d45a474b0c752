import Verif.Sat.Analyze
/-
Clause minimization keeps the learnt clause implied, and the whole of `analyze` is correct.
-/
namespace Verif.Sat
open Core

/-- All other literals of the reason of the variable are marked or from level 0. -/
def ClosedV (c : Core) (seen : Nat → Bool) (v : Nat) : Prop :=
  ∃ id, c.reason v = some id ∧ ∀ k ∈ (c.data id).tail, seen (vr k) = true ∨ c.lv k = 0

theorem ClosedV.mono {c : Core} {f g : Nat → Bool} {v : Nat} (h : ClosedV c f v) (hm : ∀ v, f v = true → g v = true) : ClosedV c g v := by
  obtain ⟨id, h1, h2⟩ := h
  exact ⟨id, h1, fun k hk => (h2 k hk).imp (hm _) (fun h => h)⟩

/-- Number of unmarked variables. -/
def unseen (c : Core) (f : Nat → Bool) : Nat := (List.range c.nvars).countP fun v => !f v

theorem countP_dec (L : List Nat) {f : Nat → Bool} {v : Nat} (hv : v ∈ L) (hf : f v = false) :
    L.countP (fun w => !upd f v true w) + 1 ≤ L.countP (fun w => !f w) := by
  induction L with
  | nil => simp at hv
  | cons a L ih =>
    rw [List.countP_cons, List.countP_cons]
    have hle : L.countP (fun w => !upd f v true w) ≤ L.countP (fun w => !f w) := by
      apply List.countP_mono_left
      intro w _ hw
      by_cases e : w = v
      · subst e; rw [upd_self] at hw; cases hw
      · rwa [upd_ne _ _ e] at hw
    by_cases e : a = v
    · subst e
      rw [upd_self, hf]
      simp; exact hle
    · rw [upd_ne _ _ e]
      rcases List.mem_cons.1 hv with h | h
      · exact absurd h.symm e
      · have := ih h; omega

section
variable {Φ : List (List Nat)} {inc : Bool} {U : List Nat} {q : Nat} {c : Core}
open St

/-- What one reason adds. -/
structure RedOk (c : Core) (ls : List Nat) (f : Nat → Bool) (st ad : List Nat) (f' : Nat → Bool) (st' ad' : List Nat) : Prop where
  mono : ∀ v, f v = true → f' v = true
  lits : ∀ l ∈ ls, f' (vr l) = true ∨ c.lv l = 0
  new : ∀ v, f' v = true → f v = true ∨ ((∃ l ∈ st', vr l = v) ∧ ∃ l ∈ ad', vr l = v)
  stk : ∀ l ∈ st, l ∈ st'
  add : ∀ l ∈ ad, l ∈ ad'
  old : ∀ l ∈ st', l ∈ st ∨ (neg l ∈ c.trail ∧ (c.reason (vr l)).isSome)
  size : st'.length + unseen c f' ≤ st.length + unseen c f

theorem redLits_ok (h : Inv Φ inc U q c) (mask : Nat) (ls : List Nat) : ∀ {f st ad f' st' ad'}, (∀ l ∈ ls, neg l ∈ c.trail) →
    redLits c mask ls f st ad = some (f', st', ad') → RedOk c ls f st ad f' st' ad' := by
  induction ls with
  | nil =>
    intro f st ad f' st' ad' _ e
    cases e
    exact ⟨fun _ h => h, by simp, fun _ h => .inl h, fun _ h => h, fun _ h => h, fun _ h => .inl h, Nat.le_refl _⟩
  | cons l ls ih =>
    intro f st ad f' st' ad' hl e
    have hl' : ∀ k ∈ ls, neg k ∈ c.trail := fun k hk => hl k (List.mem_cons_of_mem _ hk)
    unfold redLits at e
    split at e
    · next hc =>
      simp only [Bool.and_eq_true, Bool.not_eq_true', decide_eq_true_eq] at hc
      split at e
      · next hr =>
        simp only [Bool.and_eq_true] at hr
        have r := ih hl' e
        have hlT := hl l (List.mem_cons_self ..)
        refine ⟨fun v hv => r.mono v ?_, ?_, fun v hv => ?_, fun k hk => r.stk k (List.mem_cons_of_mem _ hk), fun k hk => r.add k (List.mem_cons_of_mem _ hk), fun k hk => ?_, ?_⟩
        · unfold upd; split
          · rfl
          · exact hv
        · intro k hk
          rcases List.mem_cons.1 hk with rfl | hk
          · exact .inl (r.mono _ (upd_self ..))
          · exact r.lits k hk
        · rcases r.new v hv with h' | h'
          · by_cases e : v = vr l
            · exact .inr ⟨⟨l, r.stk l (List.mem_cons_self ..), e.symm⟩, l, r.add l (List.mem_cons_self ..), e.symm⟩
            · rw [upd_ne _ _ e] at h'; exact .inl h'
          · exact .inr h'
        · rcases r.old k hk with h' | h'
          · rcases List.mem_cons.1 h' with rfl | h'
            · exact .inr ⟨hlT, hr.1⟩
            · exact .inl h'
          · exact .inr h'
        · have h1 := r.size
          have h2 : unseen c (upd f (vr l) true) + 1 ≤ unseen c f :=
            countP_dec _ (List.mem_range.2 (by rw [← vr_neg]; exact vr_lt.2 (h.rng _ hlT))) hc.1
          rw [List.length_cons] at h1
          omega
      · cases e
    · next hc =>
      have r := ih hl' e
      refine ⟨r.mono, ?_, r.new, r.stk, r.add, r.old, r.size⟩
      intro k hk
      rcases List.mem_cons.1 hk with rfl | hk
      · by_cases h0 : c.lv k = 0
        · exact .inr h0
        · refine .inl (r.mono _ ?_)
          cases hf : f (vr k)
          · exact absurd (by simp [hf]; omega) hc
          · rfl
      · exact r.lits k hk

/-- What a successful redundancy check gives. -/
structure RedRes (c : Core) (f : Nat → Bool) (st ad : List Nat) (f' : Nat → Bool) (ad' : List Nat) : Prop where
  mono : ∀ v, f v = true → f' v = true
  stk : ∀ l ∈ st, ClosedV c f' (vr l)
  new : ∀ v, f' v = true → f v = true ∨ (ClosedV c f' v ∧ ∃ l ∈ ad', vr l = v)
  add : ∀ l ∈ ad, l ∈ ad'

theorem redLoop_ok (h : Inv Φ inc U q c) (mask fuel : Nat) : ∀ {f st ad}, st.length + unseen c f < fuel →
    (∀ l ∈ st, neg l ∈ c.trail ∧ (c.reason (vr l)).isSome) →
    ∃ r, redLoop c mask fuel f st ad = some r ∧ ∀ f' ad', r = some (f', ad') → RedRes c f st ad f' ad' := by
  induction fuel with
  | zero => intro f st ad hf; omega
  | succ fuel ih =>
    intro f st ad hf hst
    unfold redLoop
    cases st with
    | nil =>
      refine ⟨_, rfl, fun f' ad' e => ?_⟩
      cases e
      exact ⟨fun _ h => h, by simp, fun _ h => .inl h, fun _ h => h⟩
    | cons x st =>
      simp only
      obtain ⟨hx, hxr⟩ := hst x (List.mem_cons_self ..)
      obtain ⟨id, hid⟩ := Option.isSome_iff_exists.1 hxr
      rw [hid]
      simp only
      obtain ⟨t1, t2, ht⟩ := List.append_of_mem hx
      obtain ⟨r, hdata, hneg⟩ := h.rsn t1 (neg x) t2 id ht (by rw [vr_neg]; exact hid)
      have hlits : ∀ l ∈ (c.data id).tail, neg l ∈ c.trail := by
        intro l hl
        rw [hdata, List.tail_cons] at hl
        rw [ht]; simp [hneg l hl]
      cases hred : redLits c mask (c.data id).tail f st ad with
      | none => exact ⟨_, rfl, fun f' ad' e => by cases e⟩
      | some res =>
        obtain ⟨f1, st1, ad1⟩ := res
        simp only
        have ro := redLits_ok h mask _ hlits hred
        have hsz := ro.size
        rw [List.length_cons] at hf
        obtain ⟨r', e', hr'⟩ := ih (f := f1) (st := st1) (ad := ad1) (by omega) (fun l hl => by
          rcases ro.old l hl with h' | h'
          · exact hst l (List.mem_cons_of_mem _ h')
          · exact h')
        refine ⟨r', e', fun f' ad' er => ?_⟩
        have rr := hr' f' ad' er
        refine ⟨fun v hv => rr.mono v (ro.mono v hv), ?_, ?_, fun l hl => rr.add l (ro.add l hl)⟩
        · intro l hl
          rcases List.mem_cons.1 hl with rfl | hl
          · exact ⟨id, hid, fun k hk => (ro.lits k hk).imp (rr.mono _) (fun h => h)⟩
          · exact rr.stk l (ro.stk l hl)
        · intro v hv
          rcases rr.new v hv with h' | h'
          · rcases ro.new v h' with h'' | ⟨⟨l, hl, rfl⟩, k, hk, hkv⟩
            · exact .inl h''
            · exact .inr ⟨rr.stk l hl, k, rr.add k hk, hkv⟩
          · exact .inr h'

/-- What minimization gives. -/
structure MinRes (c : Core) (ls : List Nat) (f : Nat → Bool) (cl kept : List Nat) (f' : Nat → Bool) (cl' : List Nat) : Prop where
  mono : ∀ v, f v = true → f' v = true
  sl : kept.Sublist ls
  rest : ∀ l ∈ ls, l ∈ kept ∨ ClosedV c f' (vr l)
  new : ∀ v, f' v = true → f v = true ∨ (ClosedV c f' v ∧ ∃ l ∈ cl', vr l = v)
  add : ∀ l ∈ cl, l ∈ cl'

theorem minDeep_ok (h : Inv Φ inc U q c) (mask : Nat) (ls : List Nat) : ∀ {f cl}, (∀ l ∈ ls, neg l ∈ c.trail) →
    ∃ kept f' cl', minDeep c mask ls f cl = some (kept, f', cl') ∧ MinRes c ls f cl kept f' cl' := by
  induction ls with
  | nil =>
    intro f cl _
    exact ⟨[], f, cl, rfl, fun _ h => h, .slnil, by simp, fun _ h => .inl h, fun _ h => h⟩
  | cons l ls ih =>
    intro f cl hl
    have hl' : ∀ k ∈ ls, neg k ∈ c.trail := fun k hk => hl k (List.mem_cons_of_mem _ hk)
    have keepCase : ∃ kept f' cl', (minDeep c mask ls f cl).map (fun x => (l :: x.1, x.2)) = some (kept, f', cl') ∧ MinRes c (l :: ls) f cl kept f' cl' := by
      obtain ⟨kept, f', cl', e, r⟩ := ih (f := f) (cl := cl) hl'
      refine ⟨l :: kept, f', cl', by rw [e]; rfl, r.mono, r.sl.cons₂ l, ?_, r.new, r.add⟩
      intro k hk
      rcases List.mem_cons.1 hk with rfl | hk
      · exact .inl (List.mem_cons_self ..)
      · exact (r.rest k hk).imp (List.mem_cons_of_mem _) (fun h => h)
    unfold minDeep
    by_cases hr : (c.reason (vr l)).isNone = true
    · rw [if_pos hr]; exact keepCase
    · rw [if_neg hr]
      have hr' : (c.reason (vr l)).isSome = true := by
        cases hx : c.reason (vr l) with
        | none => rw [hx] at hr; simp at hr
        | some _ => rfl
      have hun : unseen c f ≤ c.nvars := by
        have := List.countP_le_length (p := fun v => !f v) (l := List.range c.nvars)
        rwa [List.length_range] at this
      obtain ⟨r, e, hres⟩ := redLoop_ok h mask (c.nvars + 2) (f := f) (st := [l]) (ad := []) (by simp; omega) (fun k hk => by
        obtain rfl := List.mem_singleton.1 hk
        exact ⟨hl k (List.mem_cons_self ..), hr'⟩)
      rw [e]
      cases r with
      | none => exact keepCase
      | some x =>
        obtain ⟨f1, ad1⟩ := x
        simp only
        have rr := hres f1 ad1 rfl
        obtain ⟨kept, f', cl', e', r⟩ := ih (f := f1) (cl := ad1 ++ cl) hl'
        refine ⟨kept, f', cl', e', fun v hv => r.mono v (rr.mono v hv), r.sl.cons l, ?_, ?_, fun k hk => r.add k (List.mem_append_right _ hk)⟩
        · intro k hk
          rcases List.mem_cons.1 hk with rfl | hk
          · exact .inr ((rr.stk k (List.mem_cons_self ..)).mono r.mono)
          · exact r.rest k hk
        · intro v hv
          rcases r.new v hv with h' | h'
          · rcases rr.new v h' with h'' | ⟨h'', k, hk, hkv⟩
            · exact .inl h''
            · exact .inr ⟨h''.mono r.mono, k, r.add k (List.mem_append_left _ hk), hkv⟩
          · exact .inr h'

theorem minBasic_ok (f : Nat → Bool) (ls : List Nat) : MinRes c ls f [] (minBasic c f ls) f [] where
  mono _ h := h
  sl := List.filter_sublist
  rest l hl := by
    by_cases hm : l ∈ minBasic c f ls
    · exact .inl hm
    · right
      unfold minBasic at hm
      rw [List.mem_filter] at hm
      have hm' := fun h' => hm ⟨hl, h'⟩
      cases hr : c.reason (vr l) with
      | none => rw [hr] at hm'; exact absurd rfl hm'
      | some id =>
        rw [hr] at hm'
        simp only at hm'
        refine ⟨id, hr, fun k hk => ?_⟩
        by_contra hc
        apply hm'
        rw [List.any_eq_true]
        refine ⟨k, hk, ?_⟩
        have h1 : ¬ f (vr k) = true := fun h => hc (.inl h)
        have h2 : ¬ c.lv k = 0 := fun h => hc (.inr h)
        simp [h1]; omega
  new v h := .inl h
  add l h := h

/-- Marked trail literals are true when the kept literals are false. -/
theorem min_sem (h : Inv Φ inc U q c) {f : Nat → Bool} {kept : List Nat}
    (hc : ∀ y ∈ c.trail, f (vr y) = true → neg y ∈ kept ∨ ClosedV c f (vr y)) {ρ : Nat → Bool} (hρ : Models ρ Φ)
    (hk : ∀ l ∈ kept, ¬ litT ρ l) (t : List Nat) : ∀ {t1}, c.trail = t1 ++ t → ∀ y ∈ t, f (vr y) = true → litT ρ y := by
  induction t with
  | nil => intro t1 _ y hy; simp at hy
  | cons x t ih =>
    intro t1 ht
    have hrest := ih (t1 := t1 ++ [x]) (by rw [ht]; simp)
    intro y hy hf
    rcases List.mem_cons.1 hy with rfl | hy
    · have hyT : y ∈ c.trail := by rw [ht]; simp
      rcases hc y hyT hf with h' | ⟨id, hid, hcl⟩
      · have := hk _ h'
        rwa [litT_neg, not_not] at this
      · obtain ⟨r, hdata, hneg⟩ := h.rsn t1 y t id ht hid
        obtain ⟨k, hkm, hkt⟩ := (h.good id (.inr (.inr (.inr ⟨y, hyT, hid⟩)))).1.ent ρ hρ
        rw [hdata] at hkm
        rcases List.mem_cons.1 hkm with rfl | hkm
        · exact hkt
        · exfalso
          have hnt := hneg k hkm
          have hcl' := hcl k (by rw [hdata]; exact hkm)
          have : litT ρ (neg k) := by
            rcases hcl' with h' | h'
            · exact hrest (neg k) hnt (by rw [vr_neg]; exact h')
            · exact (h.zero (neg k) (by rw [ht]; simp [hnt]) (by rw [Inv.lv_neg]; exact h')).lit hρ
          exact litT_neg.1 this hkt
    · exact hrest y hy hf

theorem maxIdx_ok (c : Core) (ls : List Nat) : ∀ (i m best : Nat),
    (maxIdx c ls i m best = m ∧ ∀ l ∈ ls, c.lv l ≤ best) ∨
    (∃ (k : Nat) (l : Nat), maxIdx c ls i m best = i + k ∧ ls[k]? = some l ∧ best < c.lv l ∧ ∀ l' ∈ ls, c.lv l' ≤ c.lv l) := by
  induction ls with
  | nil => intro i m best; exact .inl ⟨rfl, by simp⟩
  | cons a ls ih =>
    intro i m best
    unfold maxIdx
    split
    · next hlt =>
      right
      rcases ih (i + 1) i (c.lv a) with ⟨h1, h2⟩ | ⟨k, l, h1, h2, h3, h4⟩
      · refine ⟨0, a, by rw [h1]; rfl, rfl, hlt, ?_⟩
        intro l' hl'
        rcases List.mem_cons.1 hl' with rfl | hl'
        · exact Nat.le_refl _
        · exact h2 l' hl'
      · refine ⟨k + 1, l, by rw [h1]; omega, by simpa using h2, by omega, ?_⟩
        intro l' hl'
        rcases List.mem_cons.1 hl' with rfl | hl'
        · omega
        · exact h4 l' hl'
    · next hlt =>
      rcases ih (i + 1) m best with ⟨h1, h2⟩ | ⟨k, l, h1, h2, h3, h4⟩
      · refine .inl ⟨h1, ?_⟩
        intro l' hl'
        rcases List.mem_cons.1 hl' with rfl | hl'
        · omega
        · exact h2 l' hl'
      · refine .inr ⟨k + 1, l, by rw [h1]; omega, by simpa using h2, h3, ?_⟩
        intro l' hl'
        rcases List.mem_cons.1 hl' with rfl | hl'
        · omega
        · exact h4 l' hl'

theorem maxFront_ok (c : Core) (ls : List Nat) : (maxFront c ls).Perm ls ∧ ∀ a r, maxFront c ls = a :: r → ∀ l ∈ ls, c.lv l ≤ c.lv a := by
  cases ls with
  | nil => exact ⟨.nil, by simp [maxFront]⟩
  | cons a r =>
    unfold maxFront
    simp only
    rcases maxIdx_ok c r 1 0 (c.lv a) with ⟨h1, h2⟩ | ⟨k, l, h1, h2, h3, h4⟩
    · rw [h1]
      refine ⟨.refl _, ?_⟩
      intro b r' e l hl
      cases e
      rcases List.mem_cons.1 hl with rfl | hl
      · exact Nat.le_refl _
      · exact h2 l hl
    · rw [h1, Nat.add_comm 1 k]
      simp only
      have hg : r.getD k 0 = l := by simp [List.getD, h2]
      rw [hg]
      refine ⟨perm_set h2 a, ?_⟩
      intro b r' e l' hl'
      cases e
      rcases List.mem_cons.1 hl' with rfl | hl'
      · omega
      · exact h4 l' hl'

/-- The learnt clause `neg x :: ls` with the level `bt` to go back to. -/
structure Learnt (Φ : List (List Nat)) (c : Core) (x : Nat) (ls : List Nat) (bt : Nat) : Prop where
  mem : x ∈ c.trail
  cur : c.lv x = c.lim.length
  low : ∀ l ∈ ls, neg l ∈ c.trail ∧ 0 < c.lv l ∧ c.lv l ≤ bt
  hd : ∀ l r, ls = l :: r → c.lv l = bt
  lt : bt < c.lim.length
  nil : ls = [] → bt = 0
  nod : (ls.map vr).Nodup
  ent : Ent Φ (neg x :: ls)

end

section
variable {F : Type} [LinearOrder F] [Flt F] {Φ : List (List Nat)} {inc : Bool} {U : List Nat} {q : Nat}
open St

theorem simplifyClause_ok (C : Cfg F) (hm : C.clauseMin ≠ .none) {s : St F} (h : Inv Φ inc U q s.toCore) (hd : s.lim ≠ []) {x : Nat} {out : List Nat}
    (ha : AnaOk Φ s.toCore x s.seen out) :
    ∃ s' ls, simplifyClause C (neg x) out s = some (s', neg x :: ls) ∧ Heur s s' ∧ (∀ v, s'.seen v = false) ∧ Learnt Φ s.toCore x ls s'.bt := by
  have hmin : ∃ kept f' cl', minimize C.clauseMin s.toCore s.seen out = some (kept, f', cl') ∧ MinRes s.toCore out s.seen [] kept f' cl' := by
    cases hcm : C.clauseMin with
    | none => exact absurd hcm hm
    | basic => exact ⟨_, _, _, rfl, minBasic_ok _ _⟩
    | deep => exact minDeep_ok h _ out fun l hl => (ha.olow l hl).1
  obtain ⟨kept, f', cl', e, r⟩ := hmin
  unfold simplifyClause
  rw [e]
  simp only
  obtain ⟨hp, hmax⟩ := maxFront_ok s.toCore kept
  have hsubk : ∀ l ∈ kept, l ∈ out := fun l hl => r.sl.subset hl
  have hsub : ∀ l ∈ maxFront s.toCore kept, l ∈ out := fun l hl => hsubk l (hp.mem_iff.1 hl)
  refine ⟨_, _, rfl, ⟨rfl, ⟨rfl, rfl, rfl, rfl, rfl, rfl, rfl⟩, fun h => h.congr rfl rfl rfl fun _ _ h => h⟩, ?_, ha.mem, ha.cur, ?_, ?_, ?_, ?_, ?_, ?_⟩
  · intro v
    show (if v ∈ (cl' ++ neg x :: out).map vr then false else f' v) = false
    split
    · rfl
    · next hn =>
      cases hf : f' v
      · rfl
      · exfalso
        apply hn
        rcases r.new v hf with h' | ⟨_, l, hl, rfl⟩
        · obtain ⟨l, hl, rfl⟩ := List.mem_map.1 ((ha.sn v).1 h')
          exact List.mem_map.2 ⟨l, by simp [hl], rfl⟩
        · exact List.mem_map.2 ⟨l, by simp [hl], rfl⟩
  · intro l hl
    have ho := ha.olow l (hsub l hl)
    refine ⟨ho.1, ho.2.1, ?_⟩
    show s.lv l ≤ ((maxFront s.toCore kept).head?.map s.lv).getD 0
    cases hk : maxFront s.toCore kept with
    | nil => rw [hk] at hl; simp at hl
    | cons a r' => exact hmax a r' hk l (hp.mem_iff.1 hl)
  · intro l r' e'
    show s.lv l = ((maxFront s.toCore kept).head?.map s.lv).getD 0
    rw [e']; rfl
  · show ((maxFront s.toCore kept).head?.map s.lv).getD 0 < s.lim.length
    cases hk : maxFront s.toCore kept with
    | nil => exact List.length_pos_iff.2 hd
    | cons a r' => exact (ha.olow a (hsub a (by rw [hk]; simp))).2.2
  · intro e'
    show ((maxFront s.toCore kept).head?.map s.lv).getD 0 = 0
    rw [e']; rfl
  · exact ((hp.map vr).nodup_iff).2 (ha.nod.sublist (r.sl.map vr))
  · intro ρ hρ
    by_contra hc
    have hno : ∀ l ∈ neg x :: maxFront s.toCore kept, ¬ litT ρ l := fun l hl ht => hc ⟨l, hl, ht⟩
    have hk : ∀ l ∈ kept, ¬ litT ρ l := fun l hl => hno l (List.mem_cons_of_mem _ (hp.mem_iff.2 hl))
    have hcl : ∀ y ∈ s.trail, f' (vr y) = true → neg y ∈ kept ∨ ClosedV s.toCore f' (vr y) := by
      intro y hy hf
      rcases r.new _ hf with h' | h'
      · obtain ⟨l, hl, hlv⟩ := List.mem_map.1 ((ha.sn _).1 h')
        have hl2 := (ha.olow l hl).1
        have : neg l = y := h.trail_inj hl2 hy (by rw [vr_neg]; exact hlv)
        subst this
        rw [neg_neg, vr_neg]
        exact r.rest l hl
      · exact .inr h'.1
    have hall := min_sem h hcl hρ hk s.trail (t1 := []) rfl
    obtain ⟨l, hl, hlt⟩ := ha.ent ρ hρ
    rcases List.mem_cons.1 hl with rfl | hl
    · exact hno _ (List.mem_cons_self ..) hlt
    · have := hall (neg l) (ha.olow l hl).1 (r.mono _ (by rw [vr_neg]; exact (ha.sn _).2 (List.mem_map.2 ⟨l, hl, rfl⟩)))
      exact litT_neg.1 this hlt

/-- `analyze` succeeds with an implied clause. -/
theorem analyze_ok (C : Cfg F) (hm : C.clauseMin ≠ .none) {s : St F} (h : Inv Φ inc U q s.toCore) (hh : HInv s) (hs : ∀ v, s.seen v = false)
    (hd : s.lim ≠ []) {id : Nat} (hc : Conflict s.toCore id) :
    ∃ s' x ls, analyze C id s = some (s', neg x :: ls) ∧ Heur s s' ∧ (∀ v, s'.seen v = false) ∧ Learnt Φ s.toCore x ls s'.bt := by
  obtain ⟨l0, w, hw, hwi⟩ := hc.live
  have hgood := (h.good id (.inr (.inr (.inl ⟨l0, w, hw, hwi⟩)))).1
  have hdl : 0 < s.lim.length := List.length_pos_iff.2 hd
  obtain ⟨hb1, hb2⟩ := bumpClause_ok C id s
  have hcore : (bumpClause C id s).toCore = s.toCore := hb1.core
  unfold analyze
  obtain ⟨s1, n, out, e1, hu1, ha1, _, _, hl1⟩ := anaLits_ok (Φ := Φ) (inc := inc) (U := U) (q := q) (s.data id) (s := bumpClause C id s) (t := s.trail) (out := []) (n := 0)
    (by rw [hcore]; exact h) (hb1.heap hh)
    (by
      rw [hcore, hb2]
      exact
      { sub := ⟨[], rfl⟩
        cur := fun v hv => by rw [hs] at hv; cases hv
        olow := by simp
        nod := by simp
        cnt := by
          symm
          rw [List.countP_eq_zero]
          intro x _
          simp [hs]
        lits := hc.fls
        sem := fun ρ hρ _ _ hls => by
          obtain ⟨k, hk, hkt⟩ := hgood.ent ρ hρ
          exact hls k hk hkt })
  rw [e1]
  simp only
  have hc1 : s1.toCore = s.toCore := by rw [hu1.core, hcore]
  rw [hcore] at ha1 hl1
  obtain ⟨l, hl, hlc⟩ := hc.cur
  have hn : 1 ≤ n := by
    rw [ha1.cnt]
    refine List.countP_pos_iff.2 ⟨neg l, hc.fls l hl, ?_⟩
    have := hl1 l hl (by omega)
    simp [vr_neg, Inv.lv_neg, this, hlc]
  obtain ⟨x, s2, out2, e2, hu2, ha2⟩ := anaLoop_ok C s.trail (s := s1) (by rw [hc1]; exact h) (hu1.heap (hb1.heap hh)) (by rw [hc1]; exact hd)
    (by rw [hc1]; exact ha1) hn
  have et : s1.trail = s.trail := by rw [hc1]
  rw [et, e2]
  simp only
  have hc2 : s2.toCore = s.toCore := by rw [hu2.core, hc1]
  rw [hc1, ← hc2] at ha2
  obtain ⟨s3, ls, e3, hu3, hs3, hlr⟩ := simplifyClause_ok C hm (s := s2) (by rw [hc2]; exact h) (by rw [hc2]; exact hd) ha2
  rw [hc2] at hlr
  exact ⟨s3, x, ls, e3, ((hb1.trans hu1).trans hu2).trans hu3, hs3, hlr⟩

end
end Verif.Sat
