import Verif.Enc.PbMerge
/-!
Pseudo-Boolean encoders, part 3 (continued): `binary_merge` and `encode_binary_merge`.
-/
namespace Verif
open ER

theorem bmBucket_cnt (σ : Asg) (ts : List (Lit × Nat)) (lt : Nat) (gac : Option Lit) (t : Nat) (tl : Lit) (i : Nat) :
    cntL σ (bmBucket ts lt gac t tl i) = cntL σ (adderBucket ((tl, t) :: ts.filter (bmKeep lt gac)) i) := by
  unfold bmBucket adderBucket
  unfold cntL
  rw [List.countP_reverse, List.countP_append, List.filter_cons]
  split <;> simp [List.countP_cons, Nat.add_comm]

theorem bmBuckets_val (σ : Asg) (ts : List (Lit × Nat)) (lt : Nat) (gac : Option Lit) (t : Nat) (tl : Lit) (n : Nat)
    (ht : t < 2 ^ n) (hts : ∀ x ∈ ts, x.2 < 2 ^ n) :
    bval σ ((List.range n).map (bmBucket ts lt gac t tl)) =
      (if tl.eval σ then t else 0) + wsum σ (ts.filter (bmKeep lt gac)) := by
  have h1 : ∀ is : List Nat, bval σ (is.map (bmBucket ts lt gac t tl)) =
      bval σ (is.map (adderBucket ((tl, t) :: ts.filter (bmKeep lt gac)))) := by
    intro is
    induction is with
    | nil => rfl
    | cons i is ih => simp only [List.map_cons, bval, ih, bmBucket_cnt]
  rw [h1, List.range_eq_range', adderBuckets_val]
  have : (((tl, t) :: ts.filter (bmKeep lt gac)).map fun x => (x.1, x.2 / 2 ^ 0 % 2 ^ n)) = (tl, t) :: ts.filter (bmKeep lt gac) := by
    conv => rhs; rw [← List.map_id ((tl, t) :: ts.filter (bmKeep lt gac))]
    refine List.map_congr_left fun x hx => ?_
    simp only [Nat.pow_zero, Nat.div_one, id]
    rw [Nat.mod_eq_of_lt]
    simp only [List.mem_cons] at hx
    rcases hx with rfl | hx
    · exact ht
    · exact hts x (List.mem_filter.1 hx).1
  rw [this]; simp

theorem bmGac_sat (σ : Asg) (ts : List (Lit × Nat)) (lt : Nat) (gac : Option Lit) (n : Nat)
    (hpos : ∀ x ∈ ts, 0 < x.2 ∧ x.2 < 2 ^ n) :
    (∀ c ∈ (List.range n).flatMap (bmGac ts lt gac), Clause.Sat σ c) ↔
    ∀ x ∈ ts, bmKeep lt gac x = false → (∃ g, gac = some g ∧ g.eval σ = true) ∨ x.1.eval σ = false := by
  simp only [List.mem_flatMap, List.mem_range, bmGac, List.mem_map, List.mem_filter]
  constructor
  · intro h x hx hk
    obtain ⟨h0, h1⟩ := hpos x hx
    obtain ⟨i, hi⟩ : ∃ i, x.2.testBit i = true := Nat.exists_testBit_of_ne_zero (by omega)
    have hin : i < n := by
      apply Nat.lt_of_not_le; intro hge
      have := Nat.testBit_lt_two_pow (x := x.2) (i := i) (Nat.lt_of_lt_of_le h1 (Nat.pow_le_pow_right (by omega) hge))
      rw [hi] at this; exact absurd this (by decide)
    have := h (guardCl gac x.1.neg) ⟨i, hin, x, ⟨hx, by simp [hi, hk]⟩, rfl⟩
    rw [guardCl_sat] at this; simpa using this
  · rintro h c ⟨i, hi, x, ⟨hx, hb⟩, rfl⟩
    simp only [Bool.and_eq_true, Bool.not_eq_true'] at hb
    rw [guardCl_sat]; simpa using h x hx hb.2

theorem wsum_filter_of_false (σ : Asg) (ts : List (Lit × Nat)) (p : Lit × Nat → Bool)
    (h : ∀ x ∈ ts, p x = false → x.1.eval σ = false) : wsum σ (ts.filter p) = wsum σ ts := by
  induction ts with
  | nil => rfl
  | cons t ts ih =>
    rw [List.filter_cons]
    have := ih (fun x hx => h x (by simp [hx]))
    cases hp : p t
    · simp [this, h t (by simp) hp]
    · simp [this]

theorem wsum_filter_le (σ : Asg) (ts : List (Lit × Nat)) (p : Lit × Nat → Bool) : wsum σ (ts.filter p) ≤ wsum σ ts := by
  induction ts with
  | nil => simp
  | cons t ts ih =>
    rw [List.filter_cons]
    split <;> simp <;> omega

theorem mem_le_wsum {σ : Asg} {ts : List (Lit × Nat)} {x : Lit × Nat} (hx : x ∈ ts) (he : x.1.eval σ = true) : x.2 ≤ wsum σ ts := by
  induction ts with
  | nil => simp at hx
  | cons t ts ih =>
    simp only [List.mem_cons] at hx
    rcases hx with rfl | hx
    · simp [he]
    · have := ih hx; simp; omega

theorem divCeil_spec {a b : Nat} (hb : 0 < b) : a ≤ divCeil a b * b ∧ divCeil a b * b < a + b := by
  unfold divCeil
  have h1 := Nat.div_add_mod a b
  have h2 := Nat.mod_lt a hb
  rw [Nat.mul_comm] at h1
  split
  · omega
  · rw [Nat.add_mul]; omega

/-- `binary_merge` says exactly: the guard holds or the weighted sum is at most `leq`. -/
theorem binaryMerge_encodes (wd : Bool) {ts : List (Lit × Nat)} {leq maxW : Nat} {gac : Option Lit} {s : ER} (hw : Wf s)
    (ho : TermsOld s ts) (hg : ∀ g, gac = some g → s.Old g.v) (hpos : ∀ t ∈ ts, 0 < t.2) (hmax : ∀ t ∈ ts, t.2 ≤ maxW)
    (hm0 : 0 < maxW) (hnone : gac = none → maxW ≤ leq) (hnd : (ts.map (·.1)).Nodup) (hbig : ts.length + 1 < 2 ^ 30) :
    ∃ s', binaryMerge wd ts leq maxW gac s = some s' ∧
      Encodes s s' (fun σ => (∃ g, gac = some g ∧ g.eval σ = true) ∨ wsum σ ts ≤ leq) := by
  simp only [binaryMerge]
  generalize hp : Nat.log2 maxW = p
  have hp1 : 2 ^ p ≤ maxW := by rw [← hp]; exact Nat.log2_self_le (by omega)
  have hp2 : maxW < 2 ^ (p + 1) := by rw [← hp]; exact Nat.lt_log2_self
  have hpp : 0 < 2 ^ p := Nat.two_pow_pos p
  obtain ⟨hm1, hm2⟩ := divCeil_spec (a := leq + 1) hpp
  generalize hm : divCeil (leq + 1) (2 ^ p) = m at *
  have hmpos : 0 < m := by
    apply Nat.pos_of_ne_zero; intro h; rw [h] at hm1; omega
  generalize hnlt : m * 2 ^ p = nlt at *
  generalize ht : nlt - (leq + 1) = t at *
  have htlt : t < 2 ^ p := by omega
  have htl_le := newPb_le s
  have htl_old := newPb_old s
  have htl_not := newPb_not_old s
  have htl_wf := newPb_wf hw
  have htl_sat := @newPb_sat s
  have htl_ext := newPb_ext s
  generalize newPb s = r at *
  obtain ⟨tl, s1⟩ := r
  simp only at *
  have hpos2 : ∀ x ∈ ts, 0 < x.2 ∧ x.2 < 2 ^ (p + 1) := fun x hx => ⟨hpos x hx, by have := hmax x hx; omega⟩
  have wf2 : Wf (s1.addClauses [[tl]]) := addClauses_wf htl_wf (by simpa using htl_old)
  have le2 : Le s (s1.addClauses [[tl]]) := htl_le.trans (addClauses_le _ _)
  generalize hs2 : s1.addClauses [[tl]] = s2 at *
  have sat2 : ∀ σ, Sat σ s2 ↔ Sat σ s ∧ tl.eval σ = true := by
    intro σ; rw [← hs2, addClauses_sat, htl_sat]; simp
  have otl2 : s2.Old tl.v := by rw [← hs2, addClauses_old]; exact htl_old
  have wf3 : Wf (s2.addClauses ((List.range (p + 1)).flatMap (bmGac ts (leq + 1) gac))) := by
    refine addClauses_wf wf2 ?_
    intro c hc l hl
    simp only [List.mem_flatMap, bmGac, List.mem_map, List.mem_filter] at hc
    obtain ⟨i, _, x, ⟨hx, _⟩, rfl⟩ := hc
    exact guardCl_vars (P := s2.Old) (fun g h => le2.old (hg g h)) (by simpa using le2.old (ho x hx)) _ (List.mem_singleton.2 rfl) l hl
  have le3 : Le s2 (s2.addClauses ((List.range (p + 1)).flatMap (bmGac ts (leq + 1) gac))) := addClauses_le _ _
  have sat3 : ∀ σ, Sat σ (s2.addClauses ((List.range (p + 1)).flatMap (bmGac ts (leq + 1) gac))) ↔ Sat σ s2 ∧
      ∀ x ∈ ts, bmKeep (leq + 1) gac x = false → (∃ g, gac = some g ∧ g.eval σ = true) ∨ x.1.eval σ = false := by
    intro σ; rw [addClauses_sat, bmGac_sat σ ts _ gac _ hpos2]
  generalize hs3 : s2.addClauses ((List.range (p + 1)).flatMap (bmGac ts (leq + 1) gac)) = s3 at *
  have le03 := le2.trans le3
  have hbval := fun σ => bmBuckets_val σ ts (leq + 1) gac t tl (p + 1) (by rw [Nat.pow_succ]; omega) (fun x hx => (hpos2 x hx).2)
  have hmem : ∀ b ∈ (List.range (p + 1)).map (bmBucket ts (leq + 1) gac t tl), (∀ l ∈ b, s3.Old l.v) ∧ b.Nodup ∧ b.length < 2 ^ 30 := by
    intro b hb
    simp only [List.mem_map] at hb
    obtain ⟨i, _, rfl⟩ := hb
    have hsub : (((ts.filter (bmKeep (leq + 1) gac)).filter fun x => x.2.testBit i).map (·.1)).Sublist (ts.map (·.1)) :=
      (List.filter_sublist.trans List.filter_sublist).map _
    have hl2 := hsub.length_le
    refine ⟨?_, ?_, ?_⟩
    · intro l hl
      simp only [bmBucket, List.mem_append] at hl
      rcases hl with hl | hl
      · split at hl <;> simp at hl; subst hl; exact le3.old otl2
      · have := hsub.subset hl
        simp only [List.mem_map] at this
        obtain ⟨x, hx, rfl⟩ := this
        exact le03.old (ho x hx)
    · unfold bmBucket
      have hn := hnd.sublist hsub
      split
      · rw [List.singleton_append, List.nodup_cons]
        refine ⟨fun hc => ?_, hn⟩
        have := hsub.subset hc
        simp only [List.mem_map] at this
        obtain ⟨x, hx, he⟩ := this
        exact htl_not (he ▸ ho x hx)
      · simpa using hn
    · simp only [bmBucket, List.length_append] at hl2 ⊢
      simp only [List.length_map] at hl2 ⊢
      split <;> simp only [List.length_cons, List.length_nil] <;> omega
  have hnlt0 : 0 < nlt := by omega
  obtain ⟨s4, e4, le4, wf4, snd4, cpl4⟩ := bmLoop_ok wd nlt gac hnlt0 ((List.range (p + 1)).map (bmBucket ts (leq + 1) gac t tl)) 0 [] s3
    wf3 (fun b hb => (hmem b hb).1) (fun b hb => (hmem b hb).2) (by simp) (fun g h => le03.old (hg g h))
    (by
      intro j hj
      simp only [List.length_map, List.length_range] at hj
      have hjp : 2 ^ p = 2 ^ j * 2 ^ (p - j) := by rw [← Nat.pow_add]; congr 1; omega
      have hdiv : nlt / 2 ^ j = m * 2 ^ (p - j) := by
        rw [← hnlt, hjp, Nat.mul_left_comm, Nat.mul_div_cancel_left _ (Nat.two_pow_pos j)]
      rw [Nat.zero_add]
      refine ⟨?_, fun h3 => ?_⟩
      · rw [← hnlt, hjp, Nat.mul_left_comm]; exact Nat.dvd_mul_right _ _
      · rw [hdiv]
        by_cases hjlt : j < p
        · have : 2 ^ 1 ≤ 2 ^ (p - j) := Nat.pow_le_pow_right (by omega) (by omega)
          calc 2 = 1 * 2 ^ 1 := by decide
            _ ≤ m * 2 ^ (p - j) := Nat.mul_le_mul hmpos this
        · have hjeq : j = p := by omega
          subst hjeq
          rw [Nat.sub_self, Nat.pow_zero, Nat.mul_one]
          apply Nat.le_of_not_lt
          intro hm2
          have hm1' : m = 1 := by omega
          rw [hm1', Nat.one_mul] at hnlt
          -- the top bucket is empty
          have hempty : bmBucket ts (leq + 1) gac t tl j = [] := by
            unfold bmBucket
            rw [Nat.testBit_lt_two_pow htlt]
            simp only [Bool.false_eq_true, if_false, List.nil_append, List.map_eq_nil_iff, List.filter_eq_nil_iff, List.mem_filter]
            rintro x ⟨hx, hk⟩ hb
            have hge : 2 ^ j ≤ x.2 := Nat.ge_two_pow_of_testBit hb
            cases hgc : gac with
            | none => have := hnone hgc; omega
            | some g =>
              rw [hgc] at hk
              simp only [bmKeep, Option.isSome_some, Bool.true_and, Bool.not_eq_true', decide_eq_false_iff_not] at hk
              omega
          rw [getBang _ _ (by simp)] at h3
          simp only [List.getElem_map, List.getElem_range, hempty, List.length_nil] at h3
          omega)
    (fun _ => rfl)
  refine ⟨s4, e4, Encodes.mk' (le03.trans le4) hw wf4 ?_ ?_ ?_⟩
  · intro σ σ' ha h
    rcases h with ⟨g, h1, h2⟩ | h
    · exact .inl ⟨g, h1, by rw [← ha.lit (hg g h1)]; exact h2⟩
    · right; rwa [← ha.wsum ho]
  · intro σ hs
    by_cases hgt : ∃ g, gac = some g ∧ g.eval σ = true
    · exact .inl hgt
    · right
      obtain ⟨hs2, hgc⟩ := (sat3 σ).1 (le4.sat hs)
      have htl := ((sat2 σ).1 hs2).2
      have hb := snd4 σ 0 hs (fun g h => by
        cases he : g.eval σ with
        | false => rfl
        | true => exact absurd ⟨g, h, he⟩ hgt) hnlt0 (by intro k hk; simp at hk) (by simp)
      rw [hbval σ, htl, wsum_filter_of_false σ ts _ (fun x hx hk => (hgc x hx hk).resolve_left hgt)] at hb
      simp at hb; omega
  · intro σ hs hc
    obtain ⟨σ1, a1, htl⟩ := htl_ext true σ
    have hs1 : Sat σ1 s := (a1.sat hw).1 hs
    have hc1 : (∃ g, gac = some g ∧ g.eval σ1 = true) ∨ wsum σ1 ts ≤ leq := by
      rcases hc with ⟨g, h1, h2⟩ | h
      · exact .inl ⟨g, h1, by rw [← a1.lit (hg g h1)]; exact h2⟩
      · right; rwa [← a1.wsum ho]
    have hs3' : Sat σ1 s3 := by
      refine (sat3 σ1).2 ⟨(sat2 σ1).2 ⟨hs1, htl⟩, fun x hx hk => ?_⟩
      rcases hc1 with h | h
      · exact .inl h
      · right
        simp only [bmKeep, Bool.not_eq_false', Bool.and_eq_true, decide_eq_true_iff] at hk
        cases he : x.1.eval σ1 with
        | false => rfl
        | true => have := mem_le_wsum hx he; omega
    obtain ⟨σ2, a2, hs4⟩ := cpl4 σ1 0 0 hs3' (by intro k hk; simp at hk) (by simp) (by simp) (by
      rcases hc1 with h | h
      · exact .inl h
      · right
        rw [hbval σ1, htl]
        have := wsum_filter_le σ1 ts (bmKeep (leq + 1) gac)
        simp; omega)
    exact ⟨σ2, a1.trans le03 a2, hs4⟩

/-! ### `encode_binary_merge` -/

/-- Options of the binary merge, src/pseudo_booleans/pb_config.rs. -/
structure BmCfg where
  gac : Bool
  noSingle : Bool
  watchDog : Bool
  deriving DecidableEq, Repr

/-- Remove element `i` by moving the last element to its place,
src/pseudo_booleans/pb_binary_merge.rs:40-44. -/
def swapRemove (ts : List (Lit × Nat)) (i : Nat) : List (Lit × Nat) := (ts.set i (ts.nth (ts.length - 1))).dropLast

/-- Undo `swapRemove`, src/pseudo_booleans/pb_binary_merge.rs:80-85. -/
def swapRestore (ts : List (Lit × Nat)) (i : Nat) (t : Lit × Nat) : List (Lit × Nat) :=
  if i < ts.length then (ts ++ [ts.nth i]).set i t else ts

/-- `coeffs.iter().max()`, src/pseudo_booleans/pb_binary_merge.rs:27, 46. -/
def maxCoeff : List (Lit × Nat) → Option Nat
  | [] => none
  | t :: ts => some (ts.foldl (fun m x => max m x.2) t.2)

/-- `count_ones() == 1`, src/pseudo_booleans/pb_binary_merge.rs:35. -/
def isPow2 (n : Nat) : Bool := decide (n = 2 ^ Nat.log2 n)

/-- The loop of `encode_binary_merge`, src/pseudo_booleans/pb_binary_merge.rs:33-87, over the
indices left.  State: the term vector, `encode_complete_constraint`, the result.
`none`: `max().unwrap()` on an empty vector, or a panic in `binary_merge`. -/
def bmGacLoop (cfg : BmCfg) (rhs maxW : Nat) : List Nat → List (Lit × Nat) → Bool → ER → Option (List (Lit × Nat) × Bool × ER)
  | [], ts, fl, s => some (ts, fl, s)
  | i :: is, ts, fl, s =>
    let t := ts.nth i
    if cfg.noSingle && isPow2 t.2 then bmGacLoop cfg rhs maxW is ts true s
    else
      let ts' := swapRemove ts i
      (if maxW = t.2 then
        (maxCoeff ts').bind fun mw =>
        if rhs ≤ t.2 then some (s.addClauses (ts'.map fun x => [t.1.neg, x.1.neg]))
        else binaryMerge cfg.watchDog ts' (rhs - t.2) mw (some t.1.neg) s
      else
        let s := if rhs ≤ t.2 then s.addClauses (ts'.map fun x => [t.1.neg, x.1.neg]) else s
        binaryMerge cfg.watchDog ts' (rhs - t.2) maxW (some t.1.neg) s).bind fun s =>
      bmGacLoop cfg rhs maxW is (swapRestore ts' i t) fl s

/-- Models `encode_binary_merge`, src/pseudo_booleans/pb_binary_merge.rs:17-94. -/
def encodeBinaryMerge (cfg : BmCfg) (ts : List (Lit × Nat)) (rhs : Nat) (s : ER) : Option ER :=
  (maxCoeff ts).bind fun maxW =>
  if !cfg.gac then binaryMerge cfg.watchDog ts rhs maxW none s
  else
    (bmGacLoop cfg rhs maxW (List.range ts.length) ts false s).bind fun (ts, fl, s) =>
    if cfg.noSingle && fl then binaryMerge cfg.watchDog ts rhs maxW none s else some s

theorem foldl_max_spec : ∀ (ts : List (Lit × Nat)) (m : Nat),
    m ≤ ts.foldl (fun m x => max m x.2) m ∧ (∀ t ∈ ts, t.2 ≤ ts.foldl (fun m x => max m x.2) m) ∧
    (ts.foldl (fun m x => max m x.2) m = m ∨ ∃ t ∈ ts, t.2 = ts.foldl (fun m x => max m x.2) m)
  | [], m => by simp
  | x :: ts, m => by
    obtain ⟨h1, h2, h3⟩ := foldl_max_spec ts (max m x.2)
    simp only [List.foldl_cons]
    refine ⟨by omega, ?_, ?_⟩
    · intro t ht
      simp only [List.mem_cons] at ht
      rcases ht with rfl | ht
      · omega
      · exact h2 t ht
    · rcases h3 with h3 | ⟨t, ht, h3⟩
      · rw [h3]
        by_cases h : m ≤ x.2
        · right; exact ⟨x, by simp, by omega⟩
        · left; omega
      · right; exact ⟨t, by simp [ht], h3⟩

theorem maxCoeff_spec {ts : List (Lit × Nat)} (h : ts ≠ []) :
    ∃ m, maxCoeff ts = some m ∧ (∀ t ∈ ts, t.2 ≤ m) ∧ ∃ t ∈ ts, t.2 = m := by
  cases ts with
  | nil => exact absurd rfl h
  | cons x ts =>
    obtain ⟨h1, h2, h3⟩ := foldl_max_spec ts x.2
    refine ⟨_, rfl, ?_, ?_⟩
    · intro t ht
      simp only [List.mem_cons] at ht
      rcases ht with rfl | ht
      · exact h1
      · exact h2 t ht
    · rcases h3 with h3 | ⟨t, ht, h3⟩
      · exact ⟨x, by simp, h3.symm⟩
      · exact ⟨t, by simp [ht], h3⟩

theorem swapRemove_last {ts : List (Lit × Nat)} {x : Lit × Nat} : swapRemove (ts ++ [x]) ts.length = ts := by
  unfold swapRemove
  rw [List.set_append_right _ _ (Nat.le_refl _)]
  simp

theorem swapRemove_lt {ts : List (Lit × Nat)} {x : Lit × Nat} {i : Nat} (hi : i < ts.length) :
    swapRemove (ts ++ [x]) i = ts.set i x := by
  unfold swapRemove
  have : (ts ++ [x]).nth ((ts ++ [x]).length - 1) = x := by
    rw [getBang _ _ (by simp)]; simp
  rw [this, List.set_append_left _ _ hi]; simp

theorem set_perm_cons {α} {l : List α} {i : Nat} (hi : i < l.length) (x : α) : (l[i] :: l.set i x).Perm (x :: l) := by
  induction l generalizing i with
  | nil => simp at hi
  | cons a l ih =>
    cases i with
    | zero => simp only [List.getElem_cons_zero, List.set_cons_zero]; exact List.Perm.swap _ _ _
    | succ i =>
      simp only [List.length_cons, Nat.add_lt_add_iff_right] at hi
      simp only [List.getElem_cons_succ, List.set_cons_succ]
      exact (List.Perm.swap _ _ _).trans (((ih hi).cons a).trans (List.Perm.swap _ _ _))

theorem swapRemove_perm {ts : List (Lit × Nat)} {i : Nat} (hi : i < ts.length) : (ts.nth i :: swapRemove ts i).Perm ts := by
  rcases List.eq_nil_or_concat ts with rfl | ⟨l, x, rfl⟩
  · simp at hi
  · rw [List.concat_eq_append] at hi ⊢
    by_cases h : i < l.length
    · rw [swapRemove_lt h, getBang _ _ hi, List.getElem_append_left h]
      exact (set_perm_cons h x).trans (List.perm_append_singleton x l).symm
    · have : i = l.length := by simp at hi; omega
      subst this
      rw [swapRemove_last, getBang _ _ hi]
      simp only [List.getElem_append_right (Nat.le_refl _), Nat.sub_self, List.getElem_cons_zero]
      exact (List.perm_append_singleton x l).symm

theorem swapRestore_eq {ts : List (Lit × Nat)} {i : Nat} (hi : i < ts.length) :
    swapRestore (swapRemove ts i) i (ts.nth i) = if i + 1 < ts.length then ts else ts.dropLast := by
  rcases List.eq_nil_or_concat ts with rfl | ⟨l, x, rfl⟩
  · simp at hi
  · rw [List.concat_eq_append] at hi ⊢
    by_cases h : i < l.length
    · rw [swapRemove_lt h, if_pos (by simp; omega)]
      unfold swapRestore
      rw [if_pos (by simpa using h), getBang _ _ (by simpa using h), getBang _ _ hi, List.getElem_append_left h]
      rw [List.set_append_left _ _ (by simpa using h)]; simp
    · have : i = l.length := by simp at hi; omega
      subst this
      rw [swapRemove_last, if_neg (by simp)]
      unfold swapRestore; simp

/-- The pairwise clauses written when the coefficient equals the bound. -/
theorem pairClauses_encodes {t : Lit × Nat} {ts : List (Lit × Nat)} {s : ER} (hw : Wf s) (ht : s.Old t.1.v) (ho : TermsOld s ts) :
    Encodes s (s.addClauses (ts.map fun x => [t.1.neg, x.1.neg])) (fun σ => t.1.eval σ = false ∨ ∀ x ∈ ts, x.1.eval σ = false) := by
  refine (addClauses_encodes hw ?_).congr ?_
  · intro c hc l hl
    simp only [List.mem_map] at hc
    obtain ⟨x, hx, rfl⟩ := hc
    simp at hl
    rcases hl with rfl | rfl
    · simpa using ht
    · simpa using ho x hx
  · intro σ
    simp only [List.mem_map, forall_exists_index, and_imp, forall_apply_eq_imp_iff₂, Clause.sat_cons, Lit.eval_neg, Clause.sat_nil,
      or_false, Bool.not_eq_true']
    constructor
    · intro h
      cases ht : t.1.eval σ with
      | false => exact .inl rfl
      | true => right; intro x hx; rcases h x hx with h | h; rw [ht] at h; exact absurd h (by decide); exact h
    · rintro (h | h) x hx
      · exact .inl h
      · exact .inr (h x hx)

theorem wsum_zero_iff {σ : Asg} {ts : List (Lit × Nat)} (hpos : ∀ t ∈ ts, 0 < t.2) : wsum σ ts = 0 ↔ ∀ x ∈ ts, x.1.eval σ = false := by
  induction ts with
  | nil => simp
  | cons t ts ih =>
    have ih := ih (fun t ht => hpos t (by simp [ht]))
    have := hpos t (by simp)
    simp only [wsum_cons, List.mem_cons, forall_eq_or_imp, ← ih]
    cases t.1.eval σ <;> simp; omega

/-- Properties of a term list that survive permutation and removal. -/
structure TermsOk (ts : List (Lit × Nat)) (rhs : Nat) (s : ER) : Prop where
  old : TermsOld s ts
  pos : ∀ t ∈ ts, 0 < t.2
  le : ∀ t ∈ ts, t.2 ≤ rhs
  nodup : (ts.map (·.1)).Nodup
  big : ts.length + 1 < 2 ^ 30

theorem TermsOk.mono {ts rhs s s'} (h : TermsOk ts rhs s) (hle : Le s s') : TermsOk ts rhs s' :=
  ⟨h.old.mono hle, h.pos, h.le, h.nodup, h.big⟩

theorem TermsOk.remove {ts rhs s} (h : TermsOk ts rhs s) {i : Nat} (hi : i < ts.length) : TermsOk (swapRemove ts i) rhs s := by
  have hp := swapRemove_perm hi
  have hsub : ∀ x ∈ swapRemove ts i, x ∈ ts := fun x hx => hp.subset (by simp [hx])
  have hlen := hp.length_eq
  refine ⟨fun x hx => h.old x (hsub x hx), fun x hx => h.pos x (hsub x hx), fun x hx => h.le x (hsub x hx), ?_, ?_⟩
  · have := (hp.map (·.1)).nodup_iff.2 h.nodup
    exact (List.nodup_cons.1 this).2
  · simp at hlen; have := h.big; omega

/-- One round of the loop: literal `i` true implies the constraint. -/
theorem bmRound_encodes (cfg : BmCfg) {ts : List (Lit × Nat)} {rhs maxW i : Nat} {s : ER} (hw : Wf s) (hok : TermsOk ts rhs s)
    (hmax : ∀ t ∈ ts, t.2 ≤ maxW) (hi : i < ts.length) (hn : 2 ≤ ts.length) :
    ∃ s', ((if maxW = (ts.nth i).2 then
        (maxCoeff (swapRemove ts i)).bind fun mw =>
        if rhs ≤ (ts.nth i).2 then some (s.addClauses ((swapRemove ts i).map fun x => [(ts.nth i).1.neg, x.1.neg]))
        else binaryMerge cfg.watchDog (swapRemove ts i) (rhs - (ts.nth i).2) mw (some (ts.nth i).1.neg) s
      else
        let s := if rhs ≤ (ts.nth i).2 then s.addClauses ((swapRemove ts i).map fun x => [(ts.nth i).1.neg, x.1.neg]) else s
        binaryMerge cfg.watchDog (swapRemove ts i) (rhs - (ts.nth i).2) maxW (some (ts.nth i).1.neg) s) = some s') ∧
      Encodes s s' (fun σ => (ts.nth i).1.eval σ = false ∨ wsum σ ts ≤ rhs) := by
  have hok' := hok.remove hi
  have hp := swapRemove_perm hi
  have htm : ts.nth i ∈ ts := getBang_mem hi
  have hsub : ∀ x ∈ swapRemove ts i, x ∈ ts := fun x hx => hp.subset (by simp [hx])
  have hw' : ∀ σ, wsum σ ts = (if (ts.nth i).1.eval σ then (ts.nth i).2 else 0) + wsum σ (swapRemove ts i) := by
    intro σ; rw [← wsum_perm hp]; simp
  have hle := hok.le _ htm
  have hpos := hok.pos _ htm
  have hmax0 : 0 < maxW := by have := hmax _ htm; omega
  have hbm : ∀ (s : ER) mw, Wf s → TermsOk (swapRemove ts i) rhs s → s.Old (ts.nth i).1.v → (∀ x ∈ swapRemove ts i, x.2 ≤ mw) → 0 < mw →
      ∃ s', binaryMerge cfg.watchDog (swapRemove ts i) (rhs - (ts.nth i).2) mw (some (ts.nth i).1.neg) s = some s' ∧
      Encodes s s' (fun σ => (ts.nth i).1.eval σ = false ∨ wsum σ ts ≤ rhs) := by
    intro s mw hws hok'' hos hmw hmw0
    obtain ⟨s', e, en⟩ := binaryMerge_encodes cfg.watchDog (leq := rhs - (ts.nth i).2) (maxW := mw) (gac := some (ts.nth i).1.neg) hws hok''.old
      (by rintro g hg; simp at hg; subst hg; simpa using hos) hok''.pos hmw hmw0 (by simp) hok''.nodup hok''.big
    refine ⟨s', e, en.congr fun σ => ?_⟩
    rw [hw' σ]
    simp only [Option.some.injEq, exists_eq_left', Lit.eval_neg, Bool.not_eq_true']
    cases (ts.nth i).1.eval σ <;> simp; omega
  have hne : swapRemove ts i ≠ [] := by
    intro h; have := hp.length_eq; rw [h] at this; simp at this; omega
  have hpair : ∀ (hr : rhs ≤ (ts.nth i).2), Encodes s (s.addClauses ((swapRemove ts i).map fun x => [(ts.nth i).1.neg, x.1.neg]))
      (fun σ => (ts.nth i).1.eval σ = false ∨ wsum σ ts ≤ rhs) := by
    intro hr
    refine (pairClauses_encodes hw (hok.old _ htm) hok'.old).congr fun σ => ?_
    rw [← wsum_zero_iff hok'.pos, hw' σ]
    cases (ts.nth i).1.eval σ <;> simp; omega
  by_cases hm : maxW = (ts.nth i).2
  · rw [if_pos hm]
    obtain ⟨mw, e, h1, t, ht, h2⟩ := maxCoeff_spec hne
    rw [e]; simp only [Option.bind_some]
    by_cases hr : rhs ≤ (ts.nth i).2
    · rw [if_pos hr]; exact ⟨_, rfl, hpair hr⟩
    · rw [if_neg hr]
      exact hbm s mw hw hok' (hok.old _ htm) h1 (by rw [← h2]; exact hok'.pos t ht)
  · rw [if_neg hm]
    by_cases hr : rhs ≤ (ts.nth i).2
    · simp only [if_pos hr]
      have en1 := hpair hr
      obtain ⟨s', e, en2⟩ := hbm _ maxW en1.wf (hok'.mono en1.le) (en1.le.old (hok.old _ htm)) (fun x hx => hmax x (hsub x hx)) hmax0
      refine ⟨s', e, (en1.trans en2 ?_).congr fun σ => and_self_iff⟩
      intro σ σ' ha h
      rwa [← ha.lit (hok.old _ htm), ← ha.wsum hok.old]
    · simp only [if_neg hr]
      exact hbm s maxW hw hok' (hok.old _ htm) (fun x hx => hmax x (hsub x hx)) hmax0

/-- The whole loop: every literal with support implies the constraint. -/
theorem bmGacLoop_ok (cfg : BmCfg) {rhs maxW : Nat} {ts : List (Lit × Nat)} (hmax : ∀ t ∈ ts, t.2 ≤ maxW) (hn : 2 ≤ ts.length) :
    ∀ (k i : Nat) (fl : Bool) (s : ER), i + k = ts.length → Wf s → TermsOk ts rhs s → 0 < k →
    ∃ ts' fl' s', bmGacLoop cfg rhs maxW (List.range' i k) ts fl s = some (ts', fl', s') ∧
      ts' = (if cfg.noSingle && isPow2 (ts.nth (ts.length - 1)).2 then ts else ts.dropLast) ∧
      (fl' = true ↔ fl = true ∨ ∃ j, i ≤ j ∧ j < ts.length ∧ (cfg.noSingle && isPow2 (ts.nth j).2) = true) ∧
      Encodes s s' (fun σ => ∀ j, i ≤ j → j < ts.length → (cfg.noSingle && isPow2 (ts.nth j).2) = false →
        (ts.nth j).1.eval σ = false ∨ wsum σ ts ≤ rhs) := by
  intro k
  induction k with
  | zero => intros; omega
  | succ k ih =>
    intro i fl s hik hw hok _
    rw [List.range'_succ]
    simp only [bmGacLoop]
    have hi : i < ts.length := by omega
    have hagree : ∀ (i' : Nat) (σ σ' : Asg), Agree s σ σ' → (∀ j, i' ≤ j → j < ts.length → (cfg.noSingle && isPow2 (ts.nth j).2) = false →
        (ts.nth j).1.eval σ = false ∨ wsum σ ts ≤ rhs) → (∀ j, i' ≤ j → j < ts.length → (cfg.noSingle && isPow2 (ts.nth j).2) = false →
        (ts.nth j).1.eval σ' = false ∨ wsum σ' ts ≤ rhs) := by
      intro i' σ σ' ha h j h1 h2 h3
      rw [← ha.lit (hok.old _ (getBang_mem h2)), ← ha.wsum hok.old]; exact h j h1 h2 h3
    by_cases hsk : (cfg.noSingle && isPow2 (ts.nth i).2) = true
    · rw [if_pos hsk]
      by_cases hk0 : k = 0
      · subst hk0
        have hlast : ts.length - 1 = i := by omega
        refine ⟨ts, true, s, by simp [bmGacLoop], by rw [hlast, if_pos hsk], ?_, ?_⟩
        · simp only [true_iff]; right; exact ⟨i, Nat.le_refl _, hi, hsk⟩
        · refine (Encodes.id hw).congr fun σ => ?_
          simp only [true_iff]
          intro j h1 h2 h3
          have : j = i := by omega
          subst this; rw [hsk] at h3; exact absurd h3 (by decide)
      · obtain ⟨ts', fl', s', e, h1, h2, h3⟩ := ih (i + 1) true s (by omega) hw hok (by omega)
        refine ⟨ts', fl', s', e, h1, ?_, h3.congr fun σ => ?_⟩
        · rw [h2]; simp only [true_or, true_iff]; right; exact ⟨i, Nat.le_refl _, hi, hsk⟩
        · constructor
          · intro h j hj1 hj2 hj3
            by_cases hji : j = i
            · subst hji; rw [hsk] at hj3; exact absurd hj3 (by decide)
            · exact h j (by omega) hj2 hj3
          · intro h j hj1; exact h j (by omega)
    · rw [if_neg hsk]
      have hsk' : (cfg.noSingle && isPow2 (ts.nth i).2) = false := by simpa using hsk
      obtain ⟨s1, e1, en1⟩ := bmRound_encodes cfg (rhs := rhs) (maxW := maxW) hw hok hmax hi hn
      rw [e1]; simp only [Option.bind_some]
      rw [swapRestore_eq hi]
      by_cases hk0 : k = 0
      · subst hk0
        have hlast : ts.length - 1 = i := by omega
        rw [if_neg (by omega)]
        refine ⟨ts.dropLast, fl, s1, by simp [bmGacLoop], by rw [hlast, if_neg hsk], ?_, en1.congr fun σ => ?_⟩
        · constructor
          · exact .inl
          · rintro (h | ⟨j, h1, h2, h3⟩)
            · exact h
            · have : j = i := by omega
              subst this; exact absurd h3 hsk
        · constructor
          · intro h j h1 h2 _
            have : j = i := by omega
            subst this; exact h
          · intro h; exact h i (Nat.le_refl _) hi hsk'
      · rw [if_pos (by omega)]
        obtain ⟨ts', fl', s', e, h1, h2, h3⟩ := ih (i + 1) fl s1 (by omega) en1.wf (hok.mono en1.le) (by omega)
        refine ⟨ts', fl', s', e, h1, ?_, (en1.trans h3 (hagree (i + 1))).congr fun σ => ?_⟩
        · rw [h2]
          refine or_congr Iff.rfl ⟨?_, ?_⟩
          · rintro ⟨j, hj1, hj⟩; exact ⟨j, by omega, hj⟩
          · rintro ⟨j, hj1, hj2, hj3⟩
            refine ⟨j, ?_, hj2, hj3⟩
            by_cases hji : j = i
            · subst hji; exact absurd hj3 hsk
            · omega
        · constructor
          · rintro ⟨ha, hb⟩ j hj1 hj2 hj3
            by_cases hji : j = i
            · subst hji; exact ha
            · exact hb j (by omega) hj2 hj3
          · intro h
            exact ⟨h i (Nat.le_refl _) hi hsk', fun j hj1 => h j (by omega)⟩

/-- The binary merge encoding says exactly `weighted sum ≤ rhs`, for every configuration. -/
theorem encodeBinaryMerge_encodes (cfg : BmCfg) {ts : List (Lit × Nat)} {rhs : Nat} {s : ER} (hw : Wf s) (hok : TermsOk ts rhs s)
    (hn : 2 ≤ ts.length) :
    ∃ s', encodeBinaryMerge cfg ts rhs s = some s' ∧ Encodes s s' (fun σ => wsum σ ts ≤ rhs) := by
  have hne : ts ≠ [] := by intro h; rw [h] at hn; simp at hn
  obtain ⟨maxW, em, hmax, t0, ht0, hm0⟩ := maxCoeff_spec hne
  have hmax0 : 0 < maxW := by rw [← hm0]; exact hok.pos t0 ht0
  have hmaxr : maxW ≤ rhs := by rw [← hm0]; exact hok.le t0 ht0
  unfold encodeBinaryMerge
  rw [em]; simp only [Option.bind_some]
  by_cases hg : cfg.gac
  · rw [if_neg (by simpa using hg)]
    obtain ⟨ts', fl, s1, e, h1, h2, h3⟩ := bmGacLoop_ok cfg (rhs := rhs) hmax hn ts.length 0 false s (by omega) hw hok (by omega)
    rw [List.range_eq_range', e]; simp only [Option.bind_some]
    have hidx : ∀ x ∈ ts, ∃ j, j < ts.length ∧ ts.nth j = x := by
      intro x hx
      obtain ⟨j, hj, he⟩ := List.getElem_of_mem hx
      exact ⟨j, hj, by rw [getBang _ _ hj]; exact he⟩
    by_cases hf : (cfg.noSingle && fl) = true
    · rw [if_pos hf]
      have hsubl : ts'.Sublist ts := by
        rw [h1]; split
        · exact List.Sublist.refl _
        · exact List.dropLast_sublist _
      have hsub : ∀ x ∈ ts', x ∈ ts := fun x hx => hsubl.subset hx
      obtain ⟨s2, e2, en2⟩ := binaryMerge_encodes cfg.watchDog (leq := rhs) (maxW := maxW) (gac := none) (ts := ts') h3.wf
        (fun x hx => h3.le.old (hok.old x (hsub x hx))) (by simp) (fun x hx => hok.pos x (hsub x hx)) (fun x hx => hmax x (hsub x hx)) hmax0
        (fun _ => hmaxr) (hok.nodup.sublist (hsubl.map _)) (by have := hsubl.length_le; have := hok.big; omega)
      refine ⟨s2, e2, (h3.trans en2 ?_).congr fun σ => ?_⟩
      · intro σ σ' ha h
        rcases h with ⟨g, hg, _⟩ | h
        · simp at hg
        · right; rwa [← ha.wsum (fun x hx => hok.old x (hsub x hx))]
      · simp only [reduceCtorEq, false_and, exists_false, false_or]
        constructor
        · rintro ⟨ha, hb⟩
          rw [h1] at hb
          split at hb
          · exact hb
          · rename_i hl
            rcases ha (ts.length - 1) (by omega) (by omega) (by simpa using hl) with hlit | hall
            · have hdl : ts = ts.dropLast ++ [ts.nth (ts.length - 1)] := by
                rw [getBang _ _ (by omega)]
                conv => lhs; rw [← List.dropLast_concat_getLast hne]
                rw [List.getLast_eq_getElem]
              rw [hdl, wsum_append]
              simp [hlit]; exact hb
            · exact hall
        · intro h
          refine ⟨fun _ _ _ _ => .inr h, ?_⟩
          have : wsum σ ts' ≤ wsum σ ts := by
            rw [h1]; split
            · exact Nat.le_refl _
            · conv => rhs; rw [← List.dropLast_concat_getLast hne]
              rw [wsum_append]; omega
          omega
    · rw [if_neg hf]
      refine ⟨s1, rfl, h3.congr fun σ => ⟨fun h => ?_, fun h _ _ _ _ => .inr h⟩⟩
      have hnone : ∀ j, j < ts.length → (cfg.noSingle && isPow2 (ts.nth j).2) = false := by
        intro j hj
        cases hc : (cfg.noSingle && isPow2 (ts.nth j).2) with
        | false => rfl
        | true =>
          have hfl : fl = true := h2.2 (.inr ⟨j, by omega, hj, hc⟩)
          rw [Bool.and_eq_true] at hc
          rw [hc.1, hfl] at hf; exact absurd rfl hf
      by_cases hany : ∃ x ∈ ts, x.1.eval σ = true
      · obtain ⟨x, hx, hex⟩ := hany
        obtain ⟨j, hj, rfl⟩ := hidx x hx
        rcases h j (by omega) hj (hnone j hj) with h' | h'
        · rw [h'] at hex; exact absurd hex (by decide)
        · exact h'
      · have : wsum σ ts = 0 := (wsum_zero_iff hok.pos).2 (fun x hx => by
          cases he : x.1.eval σ with
          | false => rfl
          | true => exact absurd ⟨x, hx, he⟩ hany)
        omega
  · rw [if_pos (by simpa using hg)]
    obtain ⟨s2, e2, en2⟩ := binaryMerge_encodes cfg.watchDog (leq := rhs) (maxW := maxW) (gac := none) hw
        hok.old (by simp) hok.pos hmax hmax0 (fun _ => hmaxr) hok.nodup hok.big
    exact ⟨s2, e2, en2.congr fun σ => by simp⟩

end Verif
