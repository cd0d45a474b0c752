import Verif.Enc.UpPbm

/-
Unit propagation on the binary merge encoding, continued.
-/
namespace Verif
open ER
namespace Prop1

/-- The literals of a bit. -/
def bk (us : List (Lit × Nat)) (i : Nat) : List Lit := (us.filter fun x => x.2.testBit i).map (·.1)

theorem bmBucket_eq (ts : List (Lit × Nat)) (lt : Nat) (gac : Option Lit) (t : Nat) (tl : Lit) (i : Nat) :
    bmBucket ts lt gac t tl i = bk ((tl, t) :: ts.filter (bmKeep lt gac)) i := by
  unfold bmBucket bk
  rw [List.filter_cons]
  by_cases h : t.testBit i <;> simp [h]

theorem testBit_mod (x i : Nat) : x / 2 ^ i % 2 = if x.testBit i then 1 else 0 := by
  have h : x.testBit i = decide (x / 2 ^ i % 2 = 1) := Nat.testBit_eq_decide_div_mod_eq
  have h2 := Nat.mod_lt (x / 2 ^ i) (show 0 < 2 by omega)
  by_cases h1 : x / 2 ^ i % 2 = 1
  · rw [h]; simp [h1]
  · rw [h]; simp [h1]; omega

open Classical in
theorem bk_trL (S : Lit → Prop) (us : List (Lit × Nat)) (i : Nat) : trL S (bk us i) = wS S (us.map fun t => (t.1, t.2 / 2 ^ i % 2)) := by
  induction us with
  | nil => rfl
  | cons u us ih =>
    rw [List.map_cons, wS_cons, ← ih]
    simp only [testBit_mod]
    unfold bk
    rw [List.filter_cons]
    by_cases hb : u.2.testBit i
    · rw [if_pos hb, List.map_cons, if_pos hb, show (u.1 :: ((us.filter fun x => x.2.testBit i).map (·.1))) = [u.1] ++ ((us.filter fun x => x.2.testBit i).map (·.1)) from rfl,
        trL_append, trL_one]
    · rw [if_neg hb, if_neg hb]; simp

open Classical in
theorem wS_scale (S : Lit → Prop) (ts : List (Lit × Nat)) (f g h : Nat → Nat) (hfg : ∀ t ∈ ts, h t.2 = f t.2 + 2 * g t.2) :
    wS S (ts.map fun t => (t.1, h t.2)) = wS S (ts.map fun t => (t.1, f t.2)) + 2 * wS S (ts.map fun t => (t.1, g t.2)) := by
  induction ts with
  | nil => rfl
  | cons t ts ih =>
    simp only [List.map_cons, wS_cons, ih (fun t ht => hfg t (by simp [ht])), hfg t (by simp)]
    split <;> omega

theorem bvS_bk (S : Lit → Prop) (us : List (Lit × Nat)) : ∀ (n k : Nat),
    bvS S ((List.range' k n).map (bk us)) = wS S (us.map fun t => (t.1, t.2 / 2 ^ k % 2 ^ n))
  | 0, k => by
    simp only [List.range'_zero, List.map_nil, bvS, Nat.pow_zero, Nat.mod_one]
    induction us with
    | nil => rfl
    | cons t ts ih => rw [List.map_cons, wS_cons, ← ih]; simp
  | n + 1, k => by
    rw [List.range'_succ, List.map_cons, bvS, bvS_bk S us n (k + 1), bk_trL]
    refine (wS_scale S us (fun c => c / 2 ^ k % 2) (fun c => c / 2 ^ (k + 1) % 2 ^ n) (fun c => c / 2 ^ k % 2 ^ (n + 1)) ?_).symm
    intro t _
    rw [Nat.pow_succ 2 n, Nat.mul_comm (2 ^ n) 2, Nat.mod_mul, Nat.pow_succ, Nat.div_div_eq_div_mul]

theorem bvS_all (S : Lit → Prop) (us : List (Lit × Nat)) (n : Nat) (h : ∀ x ∈ us, x.2 < 2 ^ n) :
    bvS S ((List.range n).map (bk us)) = wS S us := by
  rw [List.range_eq_range', bvS_bk]
  congr 1
  conv => rhs; rw [← List.map_id us]
  refine List.map_congr_left fun x hx => ?_
  simp only [Nat.pow_zero, Nat.div_one, id]
  rw [Nat.mod_eq_of_lt (h x hx)]

open Classical in
theorem wS_filter {S : Lit → Prop} {ts : List (Lit × Nat)} {p : Lit × Nat → Bool} (h : ∀ x ∈ ts, p x = false → ¬ S x.1) : wS S (ts.filter p) = wS S ts := by
  induction ts with
  | nil => rfl
  | cons t ts ih =>
    have ih := ih fun x hx => h x (by simp [hx])
    rw [List.filter_cons, wS_cons]
    by_cases hp : p t = true
    · rw [if_pos hp, wS_cons, ih]
    · rw [if_neg hp, ih, if_neg (h t (by simp) (by simpa using hp)), Nat.zero_add]

/-- What `binary_merge` propagates: too much weight, and terms whose coefficient is a power of two. -/
structure BmP (S : Lit → Prop) (gac : Option Lit) (ts : List (Lit × Nat)) (leq : Nat) : Prop where
  fwd : leq < wS S ts → Fire S gac
  single : Act S gac → ∀ t ∈ ts, isPow2 t.2 = true → ¬ S t.1 → leq < wS S ts + t.2 → Confl S ∨ S t.1.neg

theorem binaryMerge_up {wd : Bool} {ts : List (Lit × Nat)} {leq maxW : Nat} {gac : Option Lit} {s s' : ER} (hpos : ∀ t ∈ ts, 0 < t.2)
    (hmax : ∀ t ∈ ts, t.2 ≤ maxW) (hm0 : 0 < maxW) (e : binaryMerge wd ts leq maxW gac s = some s') :
    (∀ c ∈ s.clauses, c ∈ s'.clauses) ∧ ∀ S, ClN S s'.clauses → BmP S gac ts leq := by
  simp only [binaryMerge] at e
  generalize hp : Nat.log2 maxW = p at e
  have hp2 : maxW < 2 ^ (p + 1) := by rw [← hp]; exact Nat.lt_log2_self
  have hpp : 0 < 2 ^ p := Nat.two_pow_pos p
  have hp3 : 2 ^ (p + 1) = 2 * 2 ^ p := by rw [Nat.pow_succ]; omega
  obtain ⟨hm1, hm2⟩ := divCeil_spec (a := leq + 1) hpp
  generalize divCeil (leq + 1) (2 ^ p) = m at *
  have hnlt : 2 ^ p ∣ m * 2 ^ p := ⟨m, by rw [Nat.mul_comm]⟩
  generalize m * 2 ^ p = nlt at *
  have hs1 : (newPb s).2.clauses = s.clauses := rfl
  generalize (newPb s).2 = s1 at *
  generalize (newPb s).1 = tl at *
  obtain ⟨m3, L⟩ := bmLoop_up wd nlt gac (by omega) _ 0 [] _ s' e (fun _ => rfl) (fun j hj => by
    simp only [List.length_map, List.length_range] at hj
    exact Nat.dvd_trans (Nat.pow_dvd_pow 2 (by omega)) hnlt)
  have htl : [tl] ∈ s'.clauses := m3 _ (mem_addClauses.2 (.inl (mem_addClauses.2 (.inr (by simp)))))
  have hgac : ∀ x ∈ ts, bmKeep (leq + 1) gac x = false → guardCl gac x.1.neg ∈ s'.clauses := fun x hx hk => by
    refine m3 _ (mem_addClauses.2 (.inr (List.mem_flatMap.2 ?_)))
    have h1 := hpos x hx
    have h2 : x.2 < 2 ^ (p + 1) := by have := hmax x hx; omega
    obtain ⟨i, hi⟩ := Nat.exists_testBit_of_ne_zero (x := x.2) (by omega)
    refine ⟨i, List.mem_range.2 ?_, List.mem_map.2 ⟨x, List.mem_filter.2 ⟨hx, by simp [hi, hk]⟩, rfl⟩⟩
    refine Classical.byContradiction fun hge => ?_
    rw [Nat.testBit_lt_two_pow (Nat.lt_of_lt_of_le h2 (Nat.pow_le_pow_right (by omega) (by omega)))] at hi
    simp at hi
  refine ⟨fun c hc => m3 c (mem_addClauses.2 (.inl (mem_addClauses.2 (.inl (hs1 ▸ hc))))), fun S hS => ?_⟩
  have LP := L S hS (by simp) 0 (by simp) (fun k hk => by simp at hk) (fun h => by
    simp only [Nat.pow_zero, Nat.div_one, List.length_nil] at h; omega)
  rw [Nat.pow_zero, Nat.div_one] at LP
  have hbk : ((List.range (p + 1)).map (bmBucket ts (leq + 1) gac (nlt - (leq + 1)) tl)) =
      (List.range (p + 1)).map (bk ((tl, nlt - (leq + 1)) :: ts.filter (bmKeep (leq + 1) gac))) :=
    List.map_congr_left fun i _ => bmBucket_eq ..
  rw [hbk] at LP
  have hval : bvS S ((List.range (p + 1)).map (bk ((tl, nlt - (leq + 1)) :: ts.filter (bmKeep (leq + 1) gac)))) =
      nlt - (leq + 1) + wS S (ts.filter (bmKeep (leq + 1) gac)) := by
    rw [bvS_all, wS_cons, if_pos (hS.one htl)]
    intro x hx
    rcases List.mem_cons.1 hx with rfl | hx
    · show nlt - (leq + 1) < _
      omega
    · have := hmax x (List.mem_filter.1 hx).1; omega
  by_cases hfil : ∃ x ∈ ts, bmKeep (leq + 1) gac x = false ∧ S x.1
  · obtain ⟨x, hx, hk, hSx⟩ := hfil
    have f := (guard_clause hS (hgac x hx hk)).1 hSx
    exact ⟨fun _ => f, fun ha _ _ _ _ _ => .inl (f.confl ha)⟩
  · have hw : wS S (ts.filter (bmKeep (leq + 1) gac)) = wS S ts :=
      wS_filter fun x hx hk hS => hfil ⟨x, hx, hk, hS⟩
    rw [hw] at hval
    refine ⟨fun h => LP.fwd (by rw [hval]; omega), fun ha t ht hpow hnS hlt => ?_⟩
    by_cases hk : bmKeep (leq + 1) gac t = true
    · have hpow : t.2 = 2 ^ Nat.log2 t.2 := by simpa [isPow2] using hpow
      generalize Nat.log2 t.2 = j at hpow
      have hj : j < p + 1 := by
        have := hmax t ht
        exact (Nat.pow_lt_pow_iff_right (show 1 < 2 by omega)).1 (by omega)
      rcases LP.single ha j (by simpa using hj) (by rw [hval]; omega) with h | h
      · exact .inl h
      · right
        refine (h t.1 ?_).resolve_left hnS
        rw [getBang _ _ (by simpa using hj)]
        simp only [List.getElem_map, List.getElem_range]
        refine List.mem_map.2 ⟨t, List.mem_filter.2 ⟨List.mem_cons_of_mem _ (List.mem_filter.2 ⟨ht, hk⟩), ?_⟩, rfl⟩
        rw [hpow]; simp
    · exact .inr ((guard_clause hS (hgac t ht (by simpa using hk))).2 ha)

/-- What the clauses for one term propagate. -/
structure BlockP (S : Lit → Prop) (t : Lit × Nat) (others : List (Lit × Nat)) (rhs : Nat) : Prop where
  fwd : rhs < t.2 + wS S others → S t.1.neg
  single : S t.1 → ∀ u ∈ others, isPow2 u.2 = true → ¬ S u.1 → rhs < t.2 + wS S others + u.2 → Confl S ∨ S u.1.neg

theorem bmRound_up {wd : Bool} {t : Lit × Nat} {ts' : List (Lit × Nat)} {rhs maxW : Nat} {s s' : ER} (ht : t.2 ≤ rhs) (hm0 : 0 < maxW)
    (hpos : ∀ t ∈ ts', 0 < t.2) (hmax : ∀ t ∈ ts', t.2 ≤ maxW)
    (e : (if maxW = t.2 then
        (maxCoeff ts').bind fun mw =>
        if rhs ≤ t.2 then some (s.addClauses (ts'.map fun x => [t.1.neg, x.1.neg]))
        else binaryMerge wd ts' (rhs - t.2) mw (some t.1.neg) s
      else
        let s := if rhs ≤ t.2 then s.addClauses (ts'.map fun x => [t.1.neg, x.1.neg]) else s
        binaryMerge wd ts' (rhs - t.2) maxW (some t.1.neg) s) = some s') :
    (∀ c ∈ s.clauses, c ∈ s'.clauses) ∧ ∀ S, ClN S s'.clauses → BlockP S t ts' rhs := by
  have hbm : ∀ {S : Lit → Prop}, BmP S (some t.1.neg) ts' (rhs - t.2) → BlockP S t ts' rhs := fun {S} h =>
    ⟨fun hlt => h.fwd (by omega), fun hS u hu hp hn hlt => h.single (by show S t.1.neg.neg; rwa [Lit.neg_neg]) u hu hp hn (by omega)⟩
  have hpair : ∀ {S : Lit → Prop} {cs : List Clause}, rhs ≤ t.2 → ClN S cs → (∀ x ∈ ts', [t.1.neg, x.1.neg] ∈ cs) → BlockP S t ts' rhs := by
    intro S cs hr hS hc
    refine ⟨fun hlt => ?_, fun hSt u hu _ _ _ => ?_⟩
    · obtain ⟨x, hx, hSx⟩ := wS_pos (S := S) (ts := ts') (by omega)
      have := (hS.two (hc x hx)).2
      rw [Lit.neg_neg] at this
      exact this hSx
    · have := (hS.two (hc u hu)).1
      rw [Lit.neg_neg] at this
      exact .inr (this hSt)
  by_cases hm : maxW = t.2
  · rw [if_pos hm] at e
    cases hmc : maxCoeff ts' with
    | none => rw [hmc] at e; simp at e
    | some mw =>
      rw [hmc] at e
      simp only [Option.bind_some] at e
      have hne : ts' ≠ [] := fun h => by rw [h] at hmc; simp [maxCoeff] at hmc
      obtain ⟨m, h1, h2, h3⟩ := maxCoeff_spec hne
      rw [hmc] at h1
      simp only [Option.some.injEq] at h1
      subst h1
      by_cases hr : rhs ≤ t.2
      · rw [if_pos hr] at e
        simp only [Option.some.injEq] at e
        subst e
        exact ⟨fun c hc => mem_addClauses.2 (.inl hc), fun S hS => hpair hr hS fun x hx => mem_addClauses.2 (.inr (List.mem_map.2 ⟨x, hx, rfl⟩))⟩
      · rw [if_neg hr] at e
        obtain ⟨u, hu, hu2⟩ := h3
        obtain ⟨h4, h5⟩ := binaryMerge_up hpos h2 (by have := hpos u hu; omega) e
        exact ⟨h4, fun S hS => hbm (h5 S hS)⟩
  · rw [if_neg hm] at e
    obtain ⟨h4, h5⟩ := binaryMerge_up hpos hmax hm0 e
    refine ⟨fun c hc => h4 c ?_, fun S hS => hbm (h5 S hS)⟩
    split
    · exact mem_addClauses.2 (.inl hc)
    · exact hc

/-- Whether a term is left to the complete constraint. -/
def left (cfg : BmCfg) (t : Lit × Nat) : Bool := cfg.noSingle && isPow2 t.2

theorem bmGacLoop_up (cfg : BmCfg) {rhs maxW : Nat} {ts : List (Lit × Nat)} (hmax : ∀ t ∈ ts, t.2 ≤ maxW) (hm0 : 0 < maxW) (hpos : ∀ t ∈ ts, 0 < t.2)
    (hle : ∀ t ∈ ts, t.2 ≤ rhs) : ∀ (k i : Nat) (fl : Bool) (s : ER) (ts' : List (Lit × Nat)) (fl' : Bool) (s' : ER), i + k = ts.length → 0 < k →
    bmGacLoop cfg rhs maxW (List.range' i k) ts fl s = some (ts', fl', s') →
      ts' = (if left cfg (ts.nth (ts.length - 1)) then ts else ts.dropLast) ∧ (fl = true → fl' = true) ∧ (∀ c ∈ s.clauses, c ∈ s'.clauses) ∧
      ∀ j, i ≤ j → j < ts.length → (left cfg (ts.nth j) = true → fl' = true) ∧
        (left cfg (ts.nth j) = false → ∀ S, ClN S s'.clauses → BlockP S (ts.nth j) (swapRemove ts j) rhs)
  | 0, i, fl, s, ts', fl', s', _, h, _ => by omega
  | k + 1, i, fl, s, ts', fl', s', hik, _, e => by
    have hi : i < ts.length := by omega
    rw [List.range'_succ] at e
    simp only [bmGacLoop] at e
    -- the rest of the loop
    have rest : ∀ fl1 s1, bmGacLoop cfg rhs maxW (List.range' (i + 1) k) (if left cfg (ts.nth i) ∨ i + 1 < ts.length then ts else ts.dropLast) fl1 s1 = some (ts', fl', s') →
        (∀ c ∈ s.clauses, c ∈ s1.clauses) → (fl = true → fl1 = true) → (left cfg (ts.nth i) = true → fl1 = true) →
        (left cfg (ts.nth i) = false → ∀ S, ClN S s1.clauses → BlockP S (ts.nth i) (swapRemove ts i) rhs) →
        ts' = (if left cfg (ts.nth (ts.length - 1)) then ts else ts.dropLast) ∧ (fl = true → fl' = true) ∧ (∀ c ∈ s.clauses, c ∈ s'.clauses) ∧
        ∀ j, i ≤ j → j < ts.length → (left cfg (ts.nth j) = true → fl' = true) ∧
          (left cfg (ts.nth j) = false → ∀ S, ClN S s'.clauses → BlockP S (ts.nth j) (swapRemove ts j) rhs) := by
      intro fl1 s1 e1 m1 f1 f2 f3
      by_cases hk : k = 0
      · subst hk
        simp only [List.range'_zero, bmGacLoop, Option.some.injEq, Prod.mk.injEq] at e1
        obtain ⟨rfl, rfl, rfl⟩ := e1
        have hl : i = ts.length - 1 := by omega
        refine ⟨?_, f1, m1, fun j h1 h2 => ?_⟩
        · rw [← hl]
          by_cases hx : left cfg (ts.nth i) = true
          · rw [if_pos (.inl hx), if_pos hx]
          · rw [if_neg hx, if_neg (fun h => h.elim hx (fun h => by omega))]
        · have : j = i := by omega
          subst this
          exact ⟨f2, f3⟩
      · rw [if_pos (.inr (by omega))] at e1
        obtain ⟨g1, g2, g3, g4⟩ := bmGacLoop_up cfg hmax hm0 hpos hle k (i + 1) fl1 s1 ts' fl' s' (by omega) (by omega) e1
        refine ⟨g1, fun h => g2 (f1 h), fun c hc => g3 c (m1 c hc), fun j h1 h2 => ?_⟩
        by_cases hj : j = i
        · subst hj
          exact ⟨fun h => g2 (f2 h), fun h S hS => f3 h S (hS.mono g3)⟩
        · exact g4 j (by omega) h2
    by_cases hlf : left cfg (ts.nth i) = true
    · have hlf' : (cfg.noSingle && isPow2 (ts.nth i).2) = true := hlf
      rw [if_pos hlf'] at e
      exact rest true s (by rw [if_pos (.inl hlf)]; exact e) (fun _ h => h) (fun _ => rfl) (fun _ => rfl) fun h => by rw [hlf] at h; simp at h
    · have hlf' : ¬ (cfg.noSingle && isPow2 (ts.nth i).2) = true := hlf
      rw [if_neg hlf'] at e
      have hp := swapRemove_perm hi
      have hsub : ∀ x ∈ swapRemove ts i, x ∈ ts := fun x hx => hp.subset (by simp [hx])
      obtain ⟨s1, er, e⟩ := Option.bind_eq_some_iff.1 e
      obtain ⟨m1, B⟩ := bmRound_up (hle _ (getBang_mem hi)) hm0 (fun t ht => hpos t (hsub t ht)) (fun t ht => hmax t (hsub t ht)) er
      rw [swapRestore_eq hi] at e
      refine rest fl s1 ?_ m1 id (fun h => absurd h hlf) fun _ => B
      rw [show (if left cfg (ts.nth i) = true ∨ i + 1 < ts.length then ts else ts.dropLast) = if i + 1 < ts.length then ts else ts.dropLast by simp [hlf]]
      exact e

theorem isPow2_left {cfg : BmCfg} {t : Lit × Nat} (h : left cfg t = true) : isPow2 t.2 = true ∧ cfg.noSingle = true := by
  simp only [left, Bool.and_eq_true] at h; exact ⟨h.2, h.1⟩

open Classical in
/-- With `binary_merge_use_gac` the encoding propagates fully. -/
theorem encodeBinaryMerge_up {cfg : BmCfg} (hg : cfg.gac = true) {ts : List (Lit × Nat)} {rhs : Nat} {s s' : ER}
    (e : encodeBinaryMerge cfg ts rhs s = some s') (hpos : ∀ t ∈ ts, 0 < t.2) (hle : ∀ t ∈ ts, t.2 ≤ rhs) {S : Lit → Prop} (hS : ClN S s'.clauses) :
    (∀ c ∈ s.clauses, c ∈ s'.clauses) ∧ PbS S ts rhs := by
  unfold encodeBinaryMerge at e
  cases hmc : maxCoeff ts with
  | none => rw [hmc] at e; simp at e
  | some maxW =>
    rw [hmc] at e
    simp only [Option.bind_some, hg, Bool.not_true, Bool.false_eq_true, if_false] at e
    have hne : ts ≠ [] := fun h => by rw [h] at hmc; simp [maxCoeff] at hmc
    have hn : 0 < ts.length := List.length_pos_iff.2 hne
    obtain ⟨m, h1, hmax, u, hu, hu2⟩ := maxCoeff_spec hne
    rw [hmc] at h1
    simp only [Option.some.injEq] at h1
    subst h1
    have hm0 : 0 < maxW := by have := hpos u hu; omega
    cases hl : bmGacLoop cfg rhs maxW (List.range ts.length) ts false s with
    | none => rw [hl] at e; simp at e
    | some r =>
      obtain ⟨ts', fl, s1⟩ := r
      rw [hl] at e
      simp only [Option.bind_some] at e
      rw [List.range_eq_range'] at hl
      obtain ⟨ets, _, m1, J⟩ := bmGacLoop_up cfg hmax hm0 hpos hle ts.length 0 false s ts' fl s1 (by omega) hn hl
      have m2 : ∀ c ∈ s1.clauses, c ∈ s'.clauses := by
        by_cases hf : (cfg.noSingle && fl) = true
        · rw [if_pos hf] at e
          have hsub : ∀ t ∈ ts', t ∈ ts := fun t ht => by
            rw [ets] at ht
            split at ht
            · exact ht
            · exact List.dropLast_subset _ ht
          exact (binaryMerge_up (fun t ht => hpos t (hsub t ht)) (fun t ht => hmax t (hsub t ht)) hm0 e).1
        · rw [if_neg hf] at e; simp at e; subst e; exact fun _ h => h
      refine ⟨fun c hc => m2 c (m1 c hc), ?_⟩
      intro pre t post ht hw
      have hj : pre.length < ts.length := by rw [ht]; simp
      have hnth : ts.nth pre.length = t := by rw [getBang _ _ hj]; simp [ht]
      obtain ⟨Ja, Jb⟩ := J pre.length (by omega) hj
      rw [hnth] at Ja Jb
      by_cases hleft : left cfg t = true
      · -- the complete constraint
        obtain ⟨hpow, hns⟩ := isPow2_left hleft
        have hf : (cfg.noSingle && fl) = true := by rw [hns, Ja hleft]; rfl
        rw [if_pos hf] at e
        have whole : wS S ts = wS S pre + wS S [t] + wS S post := by rw [ht, wS_append, show t :: post = [t] ++ post from rfl, wS_append]; omega
        have one : wS S [t] = if S t.1 then t.2 else 0 := by rw [wS_cons, wS_nil]; simp
        by_cases hlast : left cfg (ts.nth (ts.length - 1)) = true
        · rw [if_pos hlast] at ets
          subst ets
          have B := (binaryMerge_up hpos hmax hm0 e).2 S hS
          by_cases hSt : S t.1
          · rw [if_pos hSt] at one
            exact .inl (B.fwd (by omega))
          · rw [if_neg hSt] at one
            exact B.single trivial t (by rw [ht]; simp) hpow hSt (by omega)
        · rw [if_neg hlast] at ets
          subst ets
          have hsub : ∀ t ∈ ts.dropLast, t ∈ ts := fun t ht => List.dropLast_subset _ ht
          have B := (binaryMerge_up (fun t ht => hpos t (hsub t ht)) (fun t ht => hmax t (hsub t ht)) hm0 e).2 S hS
          have Bz := (J (ts.length - 1) (by omega) (by omega)).2 (by simpa using hlast) S (hS.mono m2)
          have hz : ts = ts.dropLast ++ [ts.nth (ts.length - 1)] := by
            rw [getBang _ _ (by omega)]
            conv => lhs; rw [← List.dropLast_concat_getLast hne]
            rw [List.getLast_eq_getElem]
          generalize hzz : ts.nth (ts.length - 1) = z at *
          generalize hin : ts.dropLast = init at *
          have hoth : swapRemove ts (ts.length - 1) = init := by
            rw [hz]; simp only [List.length_append, List.length_cons, List.length_nil, Nat.zero_add, Nat.add_sub_cancel]
            exact swapRemove_last
          rw [hoth] at Bz
          have htin : t ∈ init := by
            have : t ∈ ts := by rw [ht]; simp
            rw [hz] at this
            rcases List.mem_append.1 this with h | h
            · exact h
            · simp only [List.mem_singleton] at h
              rw [h] at hleft
              exact absurd hleft hlast
          have onez : wS S [z] = if S z.1 then z.2 else 0 := by rw [wS_cons, wS_nil]; simp
          have whole2 : wS S ts = wS S init + wS S [z] := by rw [hz, wS_append]
          by_cases hSz : S z.1
          · rw [if_pos hSz] at onez
            by_cases hSt : S t.1
            · rw [if_pos hSt] at one
              exact .inl ⟨_, hSz, Bz.fwd (by omega)⟩
            · rw [if_neg hSt] at one
              exact Bz.single hSz t htin hpow hSt (by omega)
          · rw [if_neg hSz] at onez
            by_cases hSt : S t.1
            · rw [if_pos hSt] at one
              exact .inl (B.fwd (by omega))
            · rw [if_neg hSt] at one
              exact B.single trivial t htin hpow hSt (by omega)
      · have B := Jb (by simpa using hleft) S (hS.mono m2)
        refine .inr (B.fwd ?_)
        have hp := swapRemove_perm hj
        rw [hnth] at hp
        have hp2 : (t :: swapRemove ts pre.length).Perm (t :: (pre ++ post)) := hp.trans (by rw [ht]; exact List.perm_middle)
        have := wS_perm (S := S) (List.perm_cons t |>.1 hp2)
        rw [wS_append] at this
        omega

/-- Without it, too much weight is still found, and terms whose coefficient is a power of two propagate. -/
theorem encodeBinaryMerge_weak {cfg : BmCfg} (hg : cfg.gac = false) {ts : List (Lit × Nat)} {rhs : Nat} {s s' : ER}
    (e : encodeBinaryMerge cfg ts rhs s = some s') (hpos : ∀ t ∈ ts, 0 < t.2) {S : Lit → Prop} (hS : ClN S s'.clauses) :
    (∀ c ∈ s.clauses, c ∈ s'.clauses) ∧ BmP S none ts rhs := by
  unfold encodeBinaryMerge at e
  cases hmc : maxCoeff ts with
  | none => rw [hmc] at e; simp at e
  | some maxW =>
    rw [hmc] at e
    simp only [Option.bind_some, hg, Bool.not_false, if_true] at e
    have hne : ts ≠ [] := fun h => by rw [h] at hmc; simp [maxCoeff] at hmc
    obtain ⟨m, h1, hmax, u, hu, hu2⟩ := maxCoeff_spec hne
    rw [hmc] at h1
    simp only [Option.some.injEq] at h1
    subst h1
    have := binaryMerge_up hpos hmax (by have := hpos u hu; omega) e
    exact ⟨this.1, this.2 S hS⟩

end Prop1
end Verif
