import Verif.Drup.Verify
import Mathlib.Data.List.Forall2
/-
The clauses and the proof are read; the result of the DRUP trimmer.
-/
namespace Verif.Drup

variable {S S' : T}

/-- The state while the clauses are read. -/
structure Read (pre : List (List Int)) (S : T) : Prop where
  inv : Inv S.cl S.num [] (fun _ => False) S
  fw : Fw S
  proc : S.processed = 0
  forced : S.forced = 0
  mark : ∀ j, S.mark j = false
  num : S.num = pre.length
  cls : ∀ i, S.cl i = pre.getD i []
  unit : ∀ x ∈ S.stack, [-x] ∈ pre

theorem Read.init : Read [] T.init := by
  refine ⟨⟨⟨fun _ => List.Perm.refl _, fun i x => ?_⟩, ⟨fun x => ?_, fun x hx => ?_, fun p x i hp => ?_⟩, fun v c hv => ?_⟩, ⟨List.nodup_nil, fun v c hv => ?_⟩, rfl, rfl, fun _ => rfl, rfl, fun i => by simp [T.init], fun x hx => ?_⟩
  · exact Nat.zero_le _
  · simp [T.init]
  · simp [T.init] at hx
  · simp [T.init] at hp
  · simp [T.init] at hv
  · simp [T.init] at hv
  · simp [T.init] at hx

/-- One more clause that is not watched yet. -/
theorem Read.grow {pre : List (List Int)} (h : Read pre S) (c : List Int) : Inv (put S.cl S.num c) S.num [] (fun _ => False) { S with cl := put S.cl S.num c, num := S.num + 1 } := by
  refine ⟨⟨fun _ => List.Perm.refl _, fun i x => ?_⟩, ⟨h.inv.inv.fs, h.inv.inv.asm, fun p x i hp hr => ?_⟩, h.inv.ri⟩
  · have := h.inv.wf.cnt i x
    by_cases hi : i = S.num
    · have hz := h.inv.wf.zero (i := i) (by omega) x
      show wcount S.wl x i ≤ _
      rw [hz]; exact Nat.zero_le _
    · show wcount S.wl x i ≤ if i < S.num ∧ i ∉ [] ∧ 2 ≤ (put S.cl S.num c i).length then ((put S.cl S.num c i).take 2).count x else 0
      rw [put_ne _ _ hi]; exact this
  · obtain ⟨hi, tl, ec, ht⟩ := h.inv.inv.why p x i hp hr
    refine ⟨hi, tl, ?_, ht⟩
    show put S.cl S.num c i = _
    rw [put_ne _ _ (by omega)]; exact ec

theorem cls_put {pre : List (List Int)} {cl : Nat → List Int} (h : ∀ i, cl i = pre.getD i []) (c : List Int) : ∀ i, put cl pre.length c i = (pre ++ [c]).getD i [] := by
  intro i
  by_cases hi : i = pre.length
  · subst hi; simp
  · rw [put_ne _ _ hi, h i]
    simp only [List.getD_eq_getElem?_getD]
    by_cases hlt : i < pre.length
    · rw [List.getElem?_append_left hlt]
    · rw [List.getElem?_eq_none (by omega), List.getElem?_eq_none (by simp; omega)]

theorem Wf.bound {c0 : Nat → List Int} {b b' : Nat} (h : Wf c0 b [] S) (hb : b ≤ b') : Wf c0 b' [] S := by
  refine ⟨h.perm, fun i x => Nat.le_trans (h.cnt i x) ?_⟩
  by_cases hh : i < b ∧ i ∉ [] ∧ 2 ≤ (S.cl i).length
  · rw [if_pos hh, if_pos ⟨by omega, hh.2⟩]; exact Nat.le_refl _
  · rw [if_neg hh]; exact Nat.zero_le _

theorem Inv.bound {c0 : Nat → List Int} {b b' : Nat} {A : Int → Prop} (h : Inv c0 b [] A S) (hb : b ≤ b') : Inv c0 b' [] A S :=
  ⟨h.wf.bound hb, ⟨h.inv.fs, h.inv.asm, fun p x i hp hr => let ⟨h1, h2⟩ := h.inv.why p x i hp hr; ⟨by omega, h2⟩⟩, h.ri⟩

theorem parseOrig_ok : ∀ {cs pre : List (List Int)} {S : T}, Read pre S →
    (∀ S', parseOrig cs S = some S' → Read (pre ++ cs) S') ∧
    (parseOrig cs S = none → [] ∈ pre ++ cs ∨ ∃ x, [x] ∈ pre ++ cs ∧ [-x] ∈ pre ++ cs) := by
  intro cs
  induction cs with
  | nil =>
    intro pre S h
    refine ⟨fun S' e => ?_, fun e => by cases e⟩
    injection e with e
    subst e
    rwa [List.append_nil]
  | cons c cs ih =>
    intro pre S h
    have hg := h.grow c
    have hcl : ∀ i, put S.cl S.num c i = (pre ++ [c]).getD i [] := by rw [h.num]; exact cls_put h.cls c
    have happ : pre ++ c :: cs = (pre ++ [c]) ++ cs := by simp
    have hu : ∀ x ∈ S.stack, [-x] ∈ pre ++ [c] := fun x hx => List.mem_append_left _ (h.unit x hx)
    unfold parseOrig
    simp only
    match c with
    | [] => exact ⟨nofun, fun _ => .inl (by simp)⟩
    | [x] =>
      simp only
      by_cases h1 : S.fals x ≠ 0
      · rw [if_pos h1]
        refine ⟨nofun, fun _ => .inr ⟨x, by simp, ?_⟩⟩
        exact List.mem_append_left _ (h.unit x ((h.inv.inv.fs x).1 h1))
      · rw [if_neg h1]
        have h1 : S.fals x = 0 := by simpa using h1
        by_cases h2 : S.fals (-x) = 0
        · rw [if_pos h2, happ]
          refine ih ?_
          obtain ⟨f1, f2⟩ := (hg.bound (b' := S.num + 1) (by omega)).inv.force (i := S.num) (a := x) (tl := []) (by omega) (by simp) (by simp) h1 h2
          have hnm : -x ∉ S.stack := fun hm => (h.inv.inv.fs (-x)).2 hm h2
          refine ⟨⟨(hg.bound (b' := S.num + 1) (by omega)).wf.congr rfl (fun _ _ => rfl), ⟨f1.fs, f1.asm, f1.why⟩, fun v c hv => by simp⟩, ⟨?_, fun v c hv => ?_⟩, h.proc, h.forced, h.mark, ?_, hcl, fun y hy => ?_⟩
          · show (S.stack ++ [-x]).Nodup
            rw [List.nodup_append]
            refine ⟨h.fw.nd, by simp, fun a ha y hy e' => ?_⟩
            rw [List.mem_singleton.1 hy] at e'
            exact hnm (e' ▸ ha)
          · show ∃ z ∈ S.stack ++ [-x], z.natAbs = v
            have hv : put S.reason x.natAbs (some S.num) v = some c := hv
            by_cases hv' : v = x.natAbs
            · exact ⟨-x, by simp, by rw [hv', Int.natAbs_neg]⟩
            · rw [put_ne _ _ hv'] at hv
              obtain ⟨z, hz, e'⟩ := h.fw.rs v c hv
              exact ⟨z, List.mem_append_left _ hz, e'⟩
          · show S.num + 1 = _
            rw [h.num]; simp
          · have hy : y ∈ S.stack ++ [-x] := hy
            rcases List.mem_append.1 hy with hy | hy
            · exact hu y hy
            · rw [List.mem_singleton.1 hy, Int.neg_neg]; simp
        · rw [if_neg h2, happ]
          refine ih ⟨hg.bound (by simp), ⟨h.fw.nd, h.fw.rs⟩, h.proc, h.forced, h.mark, ?_, hcl, hu⟩
          show S.num + 1 = _
          rw [h.num]; simp
    | x :: y :: rest =>
      simp only
      rw [happ]
      refine ih ?_
      rw [addWatches_fields]
      have := hg.wf.add (c := S.num) (b' := S.num + 1) (rm' := []) (by omega) (fun i _ h1 h2 => ⟨by omega, h2⟩) ⟨by omega, by simp⟩
      rw [addWatches_fields] at this
      refine ⟨⟨this, ⟨h.inv.inv.fs, h.inv.inv.asm, ?_⟩, h.inv.ri⟩, ⟨h.fw.nd, h.fw.rs⟩, h.proc, h.forced, h.mark, ?_, hcl, hu⟩
      · exact (hg.bound (b' := S.num + 1) (by omega)).inv.why
      · show S.num + 1 = _
        rw [h.num]; simp

/-- What reading the proof changes. -/
theorem parseProof_ok {hash : List Int → Int} : ∀ {ps : List (List Int)} {S : T} {tb : Int → Option (List Nat)} {ds : List Nat} {acc : List (List Nat × Nat)} {S' : T} {ls : Option (List (List Nat × Nat))} {n : Nat},
    (∀ c ∈ ps, ∀ x ∈ c.tail, x ≠ 0) → Numbered n acc → S.num = n + acc.length → parseProof hash ps S tb ds acc = some (S', ls) →
    S' = { S with cl := S'.cl, num := S'.num } ∧ S.num ≤ S'.num ∧ (∀ i < S.num, S'.cl i = S.cl i) ∧ (∀ l, ls = some l → Numbered n l) ∧ ((∀ i, ∀ x ∈ S.cl i, x ≠ 0) → ∀ i, ∀ x ∈ S'.cl i, x ≠ 0) := by
  intro ps
  induction ps with
  | nil =>
    intro S tb ds acc S' ls n hz hn hl e
    injection e with e
    injection e with e e'
    subst e e'
    exact ⟨rfl, Nat.le_refl _, fun _ _ => rfl, nofun, id⟩
  | cons p ps ih =>
    intro S tb ds acc S' ls n hz hn hl e
    match p with
    | [] => cases e
    | h :: c =>
      unfold parseProof at e
      have hnn : ∀ d, Numbered n (acc ++ [(d, S.num)]) := by
        intro d
        unfold Numbered at hn ⊢
        rw [List.map_append, hn, List.length_append, hl]
        simp [List.range'_1_concat]
      have hzc : (∀ i, ∀ x ∈ S.cl i, x ≠ 0) → ∀ i, ∀ x ∈ put S.cl S.num c i, x ≠ 0 := by
        intro h0 i
        by_cases hi : i = S.num
        · rw [hi, put_same]
          exact hz (h :: c) List.mem_cons_self
        · rw [put_ne _ _ hi]; exact h0 i
      split at e
      · split at e
        · cases e
        · exact ih (fun c hc => hz c (List.mem_cons_of_mem _ hc)) hn hl e
      · simp only at e
        split at e
        · injection e with e
          injection e with e e'
          subst e e'
          refine ⟨rfl, Nat.le_succ _, fun i hi => put_ne _ _ (by omega), fun l el => ?_, hzc⟩
          injection el with el
          subst el
          exact hnn _
        · obtain ⟨i1, i2, i3, i4, i5⟩ := ih (fun c hc => hz c (List.mem_cons_of_mem _ hc)) (hnn _) (by simp [hl]; omega) e
          have i2 : S.num + 1 ≤ S'.num := i2
          refine ⟨by rw [i1], by omega, fun i hi => ?_, i4, fun h0 => i5 (hzc h0)⟩
          rw [i3 i (show i < S.num + 1 by omega)]
          exact put_ne _ _ (by omega)

/-- The marked clauses are some of the clauses of the problem in the same order, with literals in any order. -/
theorem core_sub {cl : Nat → List Int} {mark : Nat → Bool} {orig : List (List Int)} (h : ∀ i < orig.length, (cl i).Perm (orig.getD i [])) :
    ∃ sub, sub.Sublist orig ∧ List.Forall₂ List.Perm (((List.range orig.length).filter mark).map cl) sub := by
  refine ⟨((List.range orig.length).filter mark).map fun i => orig.getD i [], ?_, ?_⟩
  · have h1 : (List.range orig.length).map (fun i => orig.getD i []) = orig := by
      apply List.ext_getElem
      · simp
      · intro i h1 h2
        simp [h2]
    have h2 : (((List.range orig.length).filter mark).map fun i => orig.getD i []).Sublist ((List.range orig.length).map fun i => orig.getD i []) := List.filter_sublist.map _
    rwa [h1] at h2
  · rw [List.forall₂_map_left_iff, List.forall₂_map_right_iff, List.forall₂_same]
    intro i hi
    exact h i (by have := (List.mem_filter.1 hi).1; simpa using this)

/-- The DRUP trimmer returns an unsatisfiable set of clauses of the problem. -/
theorem drup_core {hash : List Int → Int} {fuel : Nat} {orig proof core : List (List Int)} (ho : ∀ c ∈ orig, ∀ x ∈ c, x ≠ 0) (hp : ∀ c ∈ proof, ∀ x ∈ c.tail, x ≠ 0)
    (e : drup hash fuel orig proof = some (some core)) : (∃ sub, sub.Sublist orig ∧ List.Forall₂ List.Perm core sub) ∧ ∀ σ, ∃ c ∈ core, ¬ satC σ c := by
  unfold drup at e
  split at e
  · cases e
  · rename_i S e1
    have hR := (parseOrig_ok Read.init).1 S e1
    rw [List.nil_append] at hR
    split at e
    · cases e
    · rename_i S1 ls e2
      obtain ⟨S2, e3, e4⟩ := Option.map_eq_some_iff.1 e
      injection e4 with e4
      have hz0 : ∀ i, ∀ x ∈ S.cl i, x ≠ 0 := by
        intro i x hx
        rw [hR.cls i] at hx
        by_cases hi : i < orig.length
        · rw [List.getD_eq_getElem?_getD, List.getElem?_eq_getElem hi] at hx
          exact ho _ (List.getElem_mem hi) x hx
        · rw [List.getD_eq_getElem?_getD, List.getElem?_eq_none (by omega)] at hx
          simp at hx
      have hS1 : S1 = { S with cl := S1.cl, num := S1.num } ∧ S.num ≤ S1.num ∧ (∀ i < S.num, S1.cl i = S.cl i) ∧ (∀ l, ls = some l → Numbered S.num l) ∧ (∀ i, ∀ x ∈ S1.cl i, x ≠ 0) := by
        split at e2
        · injection e2 with e2
          injection e2 with e2 e2'
          subst e2 e2'
          exact ⟨rfl, Nat.le_refl _, fun _ _ => rfl, nofun, hz0⟩
        · obtain ⟨h1, h2, h3, h4, h5⟩ := parseProof_ok hp (n := S.num) (by simp [Numbered]) (by simp) e2
          exact ⟨h1, h2, h3, h4, h5 hz0⟩
      obtain ⟨h1, h2, h3, h4, h5⟩ := hS1
      have hI : Inv S1.cl S.num [] (fun _ => False) S1 := by
        refine ⟨⟨fun _ => List.Perm.refl _, fun i x => ?_⟩, ⟨?_, ?_, ?_⟩, fun _ _ _ => by simp⟩
        · have h6 := hR.inv.wf.cnt i x
          have h7 : S1.wl = S.wl := by rw [h1]
          rw [h7]
          by_cases hi : i < S.num
          · rw [h3 i hi]; exact h6
          · rw [hR.inv.wf.zero (by omega)]; exact Nat.zero_le _
        · rw [h1]; exact hR.inv.inv.fs
        · rw [h1]; exact hR.inv.inv.asm
        · rw [h1]
          intro p x i hp' hr
          obtain ⟨hi, tl, ec, ht⟩ := hR.inv.inv.why p x i hp' hr
          exact ⟨hi, tl, (h3 i hi).trans ec, ht⟩
      have hv := verify_ok h5 h4 hI (by rw [h1]; exact ⟨hR.fw.nd, hR.fw.rs⟩) (by rw [h1]; exact hR.proc) (by rw [h1]; exact hR.forced) (by rw [h1]; exact hR.mark) e3
      obtain ⟨v1, v2, v3⟩ := hv
      have hnum : S.num = orig.length := hR.num
      have hperm : ∀ i < orig.length, (S2.cl i).Perm (orig.getD i []) := by
        intro i hi
        rw [← hR.cls i, ← h3 i (by omega)]
        exact v3 i
      have hcore : core = ((List.range orig.length).filter S2.mark).map S2.cl := by
        rw [← e4]
        cases ls with
        | some l => rfl
        | none =>
          have hle : orig.length ≤ S1.num := by omega
          obtain ⟨d, hd⟩ := Nat.exists_eq_add_of_le hle
          simp only [Option.isSome_none, Bool.false_eq_true, if_false]
          rw [hd, List.range_add, List.filter_append]
          have : (List.map (orig.length + ·) (List.range d)).filter S2.mark = [] := by
            rw [List.filter_eq_nil_iff]
            intro j hj hm
            obtain ⟨q, _, rfl⟩ := List.mem_map.1 hj
            have := v2 rfl _ hm
            omega
          rw [this, List.append_nil]
      refine ⟨by rw [hcore]; exact core_sub hperm, fun σ => ?_⟩
      obtain ⟨i, hi, hm, hs⟩ := v1 σ
      refine ⟨S2.cl i, ?_, fun h => hs ((satC_perm (v3 i)).1 h)⟩
      rw [hcore]
      exact List.mem_map.2 ⟨i, List.mem_filter.2 ⟨List.mem_range.2 (by omega), hm⟩, rfl⟩

/-- A trivially unsatisfiable problem has an empty clause or two contrary units. -/
theorem drup_trivial {hash : List Int → Int} {fuel : Nat} {orig proof : List (List Int)} (e : drup hash fuel orig proof = some none) :
    [] ∈ orig ∨ ∃ x, [x] ∈ orig ∧ [-x] ∈ orig := by
  unfold drup at e
  split at e
  · rename_i e1
    exact (parseOrig_ok Read.init).2 e1
  · split at e
    · cases e
    · obtain ⟨_, _, e4⟩ := Option.map_eq_some_iff.1 e
      cases e4

end Verif.Drup
