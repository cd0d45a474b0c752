import Verif.Drup.Scan
/-
Conflict analysis of the DRUP trimmer: the marked clauses cannot all be true while the assumed literals are false.
-/
namespace Verif.Drup

variable {c0 : Nat → List Int} {b : Nat} {rm : List Nat} {A : Int → Prop} {S S' : T}

theorem markLits_get (ls : List Int) : ∀ (f : Int → Nat) (y : Int), markLits f ls y = if y ∈ ls then 3 else f y := by
  unfold markLits
  induction ls with
  | nil => intro f y; simp
  | cons x l ih =>
    intro f y
    rw [List.foldl_cons, ih]
    by_cases h1 : y ∈ l
    · simp [h1]
    · by_cases h2 : y = x
      · subst h2; simp [h1]
      · simp [h1, h2, put_ne _ _ h2]

/-- What marking changes. -/
structure Marked (S S' : T) : Prop where
  cl : S'.cl = S.cl
  reason : S'.reason = S.reason
  stack : S'.stack = S.stack
  forced : S'.forced = S.forced
  cnt : ∀ y i, wcount S'.wl y i = wcount S.wl y i
  mono : ∀ j, S.mark j = true → S'.mark j = true

theorem Marked.trans {S S' S'' : T} (h : Marked S S') (h' : Marked S' S'') : Marked S S'' :=
  ⟨h'.cl.trans h.cl, h'.reason.trans h.reason, h'.stack.trans h.stack, h'.forced.trans h.forced, fun y i => (h'.cnt y i).trans (h.cnt y i), fun j hj => h'.mono j (h.mono j hj)⟩

theorem markClause_ok {skip c : Nat} (h : markClause skip c S = some S') (hs : skip = 1 ∨ 2 ≤ (S.cl c).length) :
    Marked S S' ∧ (∀ j, S'.mark j = true ↔ S.mark j = true ∨ j = c) ∧ ∀ y, S'.fals y = if y ∈ (S.cl c).drop skip then 3 else S.fals y := by
  have hput : ∀ j, put S.mark c true j = true ↔ S.mark j = true ∨ j = c := by
    intro j
    by_cases hj : j = c
    · simp [hj]
    · simp [put_ne _ _ hj, hj]
  unfold markClause at h
  split at h
  · rename_i hm
    injection h with h; subst h
    refine ⟨⟨rfl, rfl, rfl, rfl, fun _ _ => rfl, fun _ h => h⟩, fun j => ⟨.inl, fun h => h.elim id (fun e => e ▸ hm)⟩, markLits_get _ _⟩
  · split at h
    · rename_i x y rest e
      obtain ⟨w, e1, h⟩ := Option.bind_eq_some_iff.1 h
      obtain ⟨w', e2, rfl⟩ := Option.map_eq_some_iff.1 h
      exact ⟨⟨rfl, rfl, rfl, rfl, fun y i => (markWatch_count e2 y i).trans (markWatch_count e1 y i), fun j hj => (hput j).2 (.inl hj)⟩, hput, markLits_get _ _⟩
    · rename_i hn
      injection h with h; subst h
      refine ⟨⟨rfl, rfl, rfl, rfl, fun _ _ => rfl, fun j hj => (hput j).2 (.inl hj)⟩, hput, fun y => ?_⟩
      match e : S.cl c with
      | [] => simp
      | [x] =>
        rcases hs with rfl | hs
        · simp
        · rw [e] at hs; simp at hs
      | x :: y :: rest => exact absurd e (hn x y rest)

/-- A literal is not in the rest of its own reason. -/
theorem TInv.irrefl (h : TInv b A S) {x : Int} (hx : x ∈ S.stack) {i : Nat} (hr : S.reason x.natAbs = some i) {tl : List Int} (e : S.cl i = -x :: tl) : x ∉ tl := by
  intro hxt
  have hp : S.stack[S.stack.idxOf x]? = some x := by
    rw [List.getElem?_eq_some_iff]
    exact ⟨List.idxOf_lt_length_iff.2 hx, by simp⟩
  obtain ⟨_, tl', e', ht⟩ := h.why _ x i hp hr
  rw [e] at e'
  injection e' with _ e'
  subst e'
  obtain ⟨q, hq, e2⟩ := List.mem_take_iff_getElem.1 (ht x hxt)
  have h1 : q < S.stack.idxOf x := by omega
  have := List.not_of_lt_findIdx (p := (· == x)) (xs := S.stack) (i := q) h1
  simp only [beq_eq_false_iff_ne, ne_eq] at this
  exact this e2

/-- The stack part of the invariant, which the analysis leaves alone. -/
structure Why (b : Nat) (A : Int → Prop) (S : T) : Prop where
  asm : ∀ x ∈ S.stack, S.reason x.natAbs = none → A x
  why : ∀ p x i, S.stack[p]? = some x → S.reason x.natAbs = some i → i < b ∧ ∃ tl, S.cl i = -x :: tl ∧ ∀ y ∈ tl, y ∈ S.stack.take p
  irr : ∀ x ∈ S.stack, ∀ i tl, S.reason x.natAbs = some i → S.cl i = -x :: tl → x ∉ tl

theorem Why.congr (h : Why b A S) (m : Marked S S') : Why b A S' := by
  refine ⟨?_, ?_, ?_⟩
  · rw [m.stack, m.reason]; exact h.asm
  · rw [m.stack, m.reason, m.cl]; exact h.why
  · rw [m.stack, m.reason, m.cl]; exact h.irr

theorem take_succ_mem {l : List Int} {p : Nat} {x y : Int} (hp : l[p]? = some x) (h : y ∈ l.take (p + 1)) : y ∈ l.take p ∨ y = x := by
  rw [List.take_add_one, hp] at h
  simpa using h

/-- The loop of the analysis. -/
theorem unwind_ok (hz : ∀ i, ∀ x ∈ c0 i, x ≠ 0) : ∀ {p : Nat} {S S' : T}, Why b A S → (∀ i, (S.cl i).Perm (c0 i)) → unwind p S = some S' →
    Marked S S' ∧
    (∀ j, S'.mark j = true → S.mark j = true ∨ ∃ x ∈ S.stack, S.reason x.natAbs = some j) ∧
    ((∀ y, S.fals y ≠ 0 → y ∈ S.stack.take p ∨ y ∈ S.stack.take S.forced) → (∀ q y, p ≤ q → q < S.forced → S.stack[q]? = some y → S.fals y ≠ 0) →
      ∀ y, S'.fals y ≠ 0 ↔ y ∈ S.stack.take S.forced) ∧
    (∀ σ, (∀ j < b, S'.mark j = true → satC σ (c0 j)) → (∀ x, A x → litT σ x = false) → ∀ x ∈ S.stack.take p, S.fals x = 3 → litT σ x = false) := by
  intro p
  induction p with
  | zero =>
    intro S S' hw hpm e
    injection e with e
    subst e
    refine ⟨⟨rfl, rfl, rfl, rfl, fun _ _ => rfl, fun _ h => h⟩, fun j => .inl, fun h1 h2 y => ⟨fun hy => ?_, fun hy => ?_⟩, fun σ _ _ x hx => by simp at hx⟩
    · rcases h1 y hy with h | h
      · simp at h
      · exact h
    · obtain ⟨q, hq, e2⟩ := List.mem_take_iff_getElem.1 hy
      exact h2 q y (Nat.zero_le _) (by omega) (by rw [List.getElem?_eq_some_iff]; exact ⟨by omega, e2⟩)
  | succ p ih =>
    intro S S' hw hpm e
    unfold unwind at e
    split at e
    · cases e
    · rename_i x ex
      split at e
      · cases e
      · rename_i S1 e1
        have hx : x ∈ S.stack := List.mem_of_getElem? ex
        -- the state after marking the reason
        have hS1 : Marked S S1 ∧ (∀ j, S1.mark j = true → S.mark j = true ∨ ∃ x ∈ S.stack, S.reason x.natAbs = some j) ∧
            (∀ y, S.fals y = 3 → S1.fals y = 3) ∧ (∀ y, S1.fals y ≠ 0 → S.fals y ≠ 0 ∨ y ∈ S.stack.take p) ∧ (∀ y, S.fals y ≠ 0 → S1.fals y ≠ 0) ∧
            (S.fals x = 3 → ∀ i, S.reason x.natAbs = some i → S1.mark i = true ∧ ∀ tl, S.cl i = -x :: tl → ∀ y ∈ tl, S1.fals y = 3) := by
          by_cases h3 : S.fals x = 3
          · rw [if_pos h3] at e1
            cases hr : S.reason x.natAbs with
            | none =>
              rw [hr] at e1
              simp only [Option.some.injEq] at e1
              subst e1
              exact ⟨⟨rfl, rfl, rfl, rfl, fun _ _ => rfl, fun _ h => h⟩, fun j => .inl, fun _ h => h, fun _ => .inl, fun _ h => h, fun _ i hi => by cases hi⟩
            | some i =>
              rw [hr] at e1
              simp only at e1
              obtain ⟨m1, m2, m3⟩ := markClause_ok e1 (.inl rfl)
              obtain ⟨hib, tl, ec, ht⟩ := hw.why p x i ex hr
              have hd : (S.cl i).drop 1 = tl := by rw [ec]; rfl
              rw [hd] at m3
              refine ⟨m1, fun j hj => ?_, fun y hy => ?_, fun y hy => ?_, fun y hy => ?_, fun _ k hk => ?_⟩
              · rcases (m2 j).1 hj with h | rfl
                · exact .inl h
                · exact .inr ⟨x, hx, hr⟩
              · rw [m3]; split
                · rfl
                · exact hy
              · rw [m3] at hy
                split at hy
                · rename_i hyt; exact .inr (ht y hyt)
                · exact .inl hy
              · rw [m3]; split
                · decide
                · exact hy
              · injection hk with hk
                subst hk
                refine ⟨(m2 i).2 (.inr rfl), fun tl' e' y hy => ?_⟩
                rw [ec] at e'
                injection e' with _ e'
                subst e'
                rw [m3, if_pos hy]
          · rw [if_neg h3] at e1
            injection e1 with e1
            subst e1
            exact ⟨⟨rfl, rfl, rfl, rfl, fun _ _ => rfl, fun _ h => h⟩, fun j => .inl, fun _ h => h, fun _ => .inl, fun _ h => h, fun h => absurd h h3⟩
        obtain ⟨m1, m2, m3, m4, m5, m6⟩ := hS1
        have m1' : Marked S { S1 with fals := put S1.fals x (if p < S1.forced then 1 else 0) } := ⟨m1.cl, m1.reason, m1.stack, m1.forced, m1.cnt, m1.mono⟩
        have hi := ih (hw.congr m1') (by rw [m1'.cl]; exact hpm) e
        obtain ⟨i1, i2, i3, i4⟩ := hi
        refine ⟨m1'.trans i1, fun j hj => ?_, fun h1 h2 => ?_, fun σ hs hA y hy h3 => ?_⟩
        · rcases i2 j hj with h | ⟨z, hz', h⟩
          · exact m2 j h
          · rw [m1'.stack] at hz'; rw [m1'.reason] at h; exact .inr ⟨z, hz', h⟩
        · have key := i3 ?_ ?_
          · rw [m1'.stack, m1'.forced] at key; exact key
          · intro y hy
            rw [m1'.stack, m1'.forced]
            by_cases hyx : y = x
            · subst hyx
              simp only [put_same] at hy
              split at hy
              · rename_i hf
                right
                rw [m1.forced] at hf
                exact List.mem_take_iff_getElem.2 ⟨p, by have := (List.getElem?_eq_some_iff.1 ex).1; omega, (List.getElem?_eq_some_iff.1 ex).2⟩
              · exact absurd rfl hy
            · simp only [put_ne _ _ hyx] at hy
              rcases m4 y hy with h | h
              · rcases h1 y h with h | h
                · rcases take_succ_mem ex h with h | h
                  · exact .inl h
                  · exact absurd h hyx
                · exact .inr h
              · exact .inl h
          · intro q y hq hqf hy
            rw [m1'.stack] at hy
            rw [m1'.forced] at hqf
            show put S1.fals x (if p < S1.forced then 1 else 0) y ≠ 0
            by_cases hyx : y = x
            · subst hyx
              rw [put_same, if_pos (by rw [m1.forced]; omega)]
              decide
            · rw [put_ne _ _ hyx]
              rcases Nat.lt_or_eq_of_le hq with hq | hq
              · exact m5 y (h2 q y hq hqf hy)
              · subst hq
                rw [ex] at hy
                injection hy with hy
                exact absurd hy.symm hyx
        · have old : ∀ z ∈ S.stack.take p, S1.fals z = 3 → z ≠ x → litT σ z = false := by
            intro z hz1 hz2 hz3
            refine i4 σ hs hA z (by rw [m1'.stack]; exact hz1) ?_
            show put S1.fals x _ z = 3
            rw [put_ne _ _ hz3]
            exact hz2
          by_cases hyx : y = x
          · subst hyx
            cases hr : S.reason y.natAbs with
            | none => exact hA y (hw.asm y hx hr)
            | some i =>
              obtain ⟨hib, tl, ec, ht⟩ := hw.why p y i ex hr
              obtain ⟨k1, k2⟩ := m6 h3 i hr
              have hmi : S'.mark i = true := i1.mono i k1
              obtain ⟨l, hl, hlt⟩ := (satC_perm (hpm i)).2 (hs i hib hmi)
              have hy0 : -y ≠ 0 := hz i (-y) ((hpm i).mem_iff.1 (by rw [ec]; simp))
              rw [ec] at hl
              rcases List.mem_cons.1 hl with rfl | hl
              · rw [litT_neg σ (by omega)] at hlt
                simpa using hlt
              · have := old l (ht l hl) (k2 tl ec l hl) (fun e' => hw.irr y hx i tl hr ec (e' ▸ hl))
                rw [this] at hlt
                cases hlt
          · rcases take_succ_mem ex hy with h | h
            · exact old y h (m3 y h3) hyx
            · exact absurd h hyx

/-- The analysis of a conflict. -/
structure Analyzed (c0 : Nat → List Int) (b : Nat) (rm : List Nat) (A : Int → Prop) (i : Nat) (S S' : T) : Prop where
  cl : S'.cl = S.cl
  reason : S'.reason = S.reason
  stack : S'.stack = S.stack.take S.forced
  forced : S'.forced = S.forced
  processed : S'.processed = S.forced
  cnt : ∀ y i, wcount S'.wl y i = wcount S.wl y i
  mono : ∀ j, S.mark j = true → S'.mark j = true
  new : ∀ j, S'.mark j = true → S.mark j = true ∨ j = i ∨ ∃ x ∈ S.stack, S.reason x.natAbs = some j
  fs : ∀ x, S'.fals x ≠ 0 ↔ x ∈ S'.stack
  unsat : ∀ σ, (∀ j < b, S'.mark j = true → satC σ (c0 j)) → (∀ x, A x → litT σ x = false) → False

theorem analyze_ok (hz : ∀ i, ∀ x ∈ c0 i, x ≠ 0) (h : Inv c0 b rm A S) {i : Nat} (hi : i < b) (h2 : 2 ≤ (S.cl i).length) (hc : ∀ y ∈ S.cl i, y ∈ S.stack) (e : analyze i S = some S') :
    Analyzed c0 b rm A i S S' := by
  unfold analyze at e
  split at e
  · cases e
  · rename_i S1 e1
    obtain ⟨m1, m2, m3⟩ := markClause_ok e1 (.inr h2)
    rw [List.drop_zero] at m3
    split at e
    · cases e
    · rename_i S2 e2
      injection e with e
      subst e
      have hw : Why b A S := ⟨h.inv.asm, h.inv.why, fun x hx i tl hr ec => h.inv.irrefl hx hr ec⟩
      obtain ⟨u1, u2, u3, u4⟩ := unwind_ok hz (hw.congr m1) (by rw [m1.cl]; exact h.wf.perm) e2
      have hm := m1.trans u1
      have htk : S1.stack.take S1.stack.length = S1.stack := List.take_length
      refine ⟨hm.cl, hm.reason, by rw [hm.stack, hm.forced], hm.forced, hm.forced, hm.cnt, hm.mono, fun j hj => ?_, ?_, fun σ hs hA => ?_⟩
      · rcases u2 j hj with h | ⟨x, hx, h⟩
        · rcases (m2 j).1 h with h | h
          · exact .inl h
          · exact .inr (.inl h)
        · rw [m1.stack] at hx
          rw [m1.reason] at h
          exact .inr (.inr ⟨x, hx, h⟩)
      · have := u3 ?_ ?_
        · intro x
          show S2.fals x ≠ 0 ↔ x ∈ S2.stack.take S2.forced
          rw [u1.stack, u1.forced]
          exact this x
        · intro y hy
          rw [htk, m1.stack]
          left
          rw [m3] at hy
          split at hy
          · rename_i hy'; exact hc y hy'
          · exact (h.inv.fs y).1 hy
        · intro q y hq _ hy
          have := (List.getElem?_eq_some_iff.1 hy).1
          omega
      · have hmi : S2.mark i = true := u1.mono i ((m2 i).2 (.inr rfl))
        obtain ⟨l, hl, hlt⟩ := (satC_perm (h.wf.perm i)).2 (hs i hi hmi)
        have := u4 σ hs hA l (by rw [htk, m1.stack]; exact hc l hl) (by rw [m3, if_pos hl])
        rw [this] at hlt
        cases hlt

/-- Propagation that ends in a conflict. -/
structure Refuted (c0 : Nat → List Int) (b : Nat) (rm : List Nat) (A : Int → Prop) (S S' : T) : Prop where
  wf : Wf c0 b rm S'
  ri : ∀ v c, S'.reason v = some c → c ∉ rm
  stack : S'.stack = S.stack.take S.forced
  forced : S'.forced = S.forced
  processed : S'.processed = S.forced
  rs : ∀ x ∈ S.stack, S'.reason x.natAbs = S.reason x.natAbs
  fs : ∀ x, S'.fals x ≠ 0 ↔ x ∈ S'.stack
  why : ∀ p x i, S'.stack[p]? = some x → S'.reason x.natAbs = some i → i < b ∧ ∃ tl, S'.cl i = -x :: tl ∧ ∀ y ∈ tl, y ∈ S'.stack.take p
  mono : ∀ j, S.mark j = true → S'.mark j = true
  /-- A clause with a literal that is true for another reason is not marked. -/
  new : ∀ j, S'.mark j = true → S.mark j = true ∨ j < b ∧ ∀ l ∈ c0 j, -l ∈ S.stack → l ∉ S.stack → S.reason l.natAbs ≠ none → S.reason l.natAbs = some j
  unsat : ∀ σ, (∀ j < b, S'.mark j = true → satC σ (c0 j)) → (∀ x, A x → litT σ x = false) → False

theorem take_prefix {l l' : List Int} (h : l <+: l') {n : Nat} (hn : n ≤ l.length) : l'.take n = l.take n := by
  obtain ⟨t, rfl⟩ := h
  exact List.take_append_of_le_length hn

theorem prop_refuted (hz : ∀ i, ∀ x ∈ c0 i, x ≠ 0) (h : Inv c0 b rm A S) (hf : S.forced ≤ S.stack.length) {fuel : Nat} (e : propagate fuel S = some (S', false)) : Refuted c0 b rm A S S' := by
  obtain ⟨S1, i, k1, g, hi, h2, hc, ea⟩ := (prop_ok h e).2 rfl
  have a := analyze_ok hz k1 hi h2 hc ea
  have hst : S1.stack.take S1.forced = S.stack.take S.forced := by rw [g.forced]; exact take_prefix g.pre hf
  refine ⟨k1.wf.congr a.cl a.cnt, ?_, ?_, ?_, ?_, fun x hx => ?_, a.fs, fun p x j hp hr => ?_, fun j hj => a.mono j (by rw [g.mark]; exact hj), fun j hj => ?_, a.unsat⟩
  · rw [a.reason]; exact k1.ri
  · rw [a.stack, hst]
  · rw [a.forced, g.forced]
  · rw [a.processed, g.forced]
  · rw [a.reason, g.rs x hx]
  · rw [a.stack] at hp
    rw [a.reason] at hr
    have hlt : p < (S1.stack.take S1.forced).length := (List.getElem?_eq_some_iff.1 hp).1
    have hpf : p < S1.forced := by rw [List.length_take] at hlt; omega
    rw [List.getElem?_take_of_lt hpf] at hp
    obtain ⟨hj, tl, ec, ht⟩ := k1.inv.why p x j hp hr
    refine ⟨hj, tl, by rw [a.cl]; exact ec, fun y hy => ?_⟩
    rw [a.stack, List.take_take, Nat.min_eq_left (by omega)]
    exact ht y hy
  · rcases a.new j hj with h3 | rfl | ⟨x, hx, hr⟩
    · left; rw [g.mark] at h3; exact h3
    · right
      refine ⟨hi, fun l hl h4 h5 _ => ?_⟩
      exact absurd (hc l ((k1.wf.perm j).mem_iff.2 hl)) (g.tr l h4 h5)
    · right
      obtain ⟨p, hp⟩ := List.getElem?_of_mem hx
      obtain ⟨hj', tl, ec, ht⟩ := k1.inv.why p x j hp hr
      refine ⟨hj', fun l hl h4 h5 h6 => ?_⟩
      have hl' := (k1.wf.perm j).mem_iff.2 hl
      rw [ec] at hl'
      rcases List.mem_cons.1 hl' with rfl | hl'
      · have := g.rs x (by simpa using h4)
        rw [Int.natAbs_neg, ← this]
        exact hr
      · exact absurd (List.mem_of_mem_take (ht l hl')) (g.tr l h4 h5)

theorem prop_done (h : Inv c0 b rm A S) {fuel : Nat} (e : propagate fuel S = some (S', true)) : Inv c0 b rm A S' ∧ Grow S S' ∧ S'.processed = S'.stack.length := (prop_ok h e).1 rfl

end Verif.Drup
