import Verif.Enc.UpPb
import Verif.Enc.PbAdder

/-
Unit propagation on adder networks: once the inputs are decided, so is everything.
-/
namespace Verif
open ER
namespace Prop1

/-- A literal is decided. -/
def Dec (S : Lit → Prop) (l : Lit) : Prop := S l ∨ S l.neg

theorem Dec.neg {S : Lit → Prop} {l : Lit} (h : Dec S l) : Dec S l.neg := by
  rcases h with h | h
  · exact .inr (by rwa [Lit.neg_neg])
  · exact .inl h

theorem ClN.four {S : Lit → Prop} {cs : List Clause} {a b c d : Lit} (h : ClN S cs) (hc : [a, b, c, d] ∈ cs) (h1 : S a.neg) (h2 : S b.neg) (h3 : S c.neg) : S d := by
  refine h _ hc d (by simp) fun l' hl' hne => ?_
  simp only [List.mem_cons, List.not_mem_nil, or_false] at hl'
  rcases hl' with rfl | rfl | rfl | rfl
  · exact h1
  · exact h2
  · exact h3
  · exact absurd rfl hne

theorem ClN.three3 {S : Lit → Prop} {cs : List Clause} {a b d : Lit} (h : ClN S cs) (hc : [a, b, d] ∈ cs) (h1 : S a.neg) (h2 : S b.neg) : S d := by
  refine h _ hc d (by simp) fun l' hl' hne => ?_
  simp only [List.mem_cons, List.not_mem_nil, or_false] at hl'
  rcases hl' with rfl | rfl | rfl
  · exact h1
  · exact h2
  · exact absurd rfl hne

theorem nn {S : Lit → Prop} {l : Lit} (h : S l) : S l.neg.neg := by rwa [Lit.neg_neg]

theorem faSum_dec {S : Lit → Prop} {a b c x : Lit} (h : ClN S (faSum a b c x)) (ha : Dec S a) (hb : Dec S b) (hc : Dec S c) : Dec S x := by
  rcases ha with ha | ha <;> rcases hb with hb | hb <;> rcases hc with hc | hc
  · exact .inl (h.four (a := a.neg) (b := b.neg) (c := c.neg) (by simp [faSum]) (nn ha) (nn hb) (nn hc))
  · exact .inr (h.four (a := a.neg) (b := b.neg) (c := c) (by simp [faSum]) (nn ha) (nn hb) hc)
  · exact .inr (h.four (a := a.neg) (b := b) (c := c.neg) (by simp [faSum]) (nn ha) hb (nn hc))
  · exact .inl (h.four (a := a.neg) (b := b) (c := c) (by simp [faSum]) (nn ha) hb hc)
  · exact .inr (h.four (a := a) (b := b.neg) (c := c.neg) (by simp [faSum]) ha (nn hb) (nn hc))
  · exact .inl (h.four (a := a) (b := b.neg) (c := c) (by simp [faSum]) ha (nn hb) hc)
  · exact .inl (h.four (a := a) (b := b) (c := c.neg) (by simp [faSum]) ha hb (nn hc))
  · exact .inr (h.four (a := a) (b := b) (c := c) (by simp [faSum]) ha hb hc)

theorem faCarry_dec {S : Lit → Prop} {a b c x : Lit} (h : ClN S (faCarry a b c x)) (ha : Dec S a) (hb : Dec S b) (hc : Dec S c) : Dec S x := by
  rcases ha with ha | ha <;> rcases hb with hb | hb
  · exact .inl (h.three3 (a := a.neg) (b := b.neg) (by simp [faCarry]) (nn ha) (nn hb))
  · rcases hc with hc | hc
    · exact .inl (h.three3 (a := a.neg) (b := c.neg) (by simp [faCarry]) (nn ha) (nn hc))
    · exact .inr (h.three3 (a := b) (b := c) (by simp [faCarry]) hb hc)
  · rcases hc with hc | hc
    · exact .inl (h.three3 (a := b.neg) (b := c.neg) (by simp [faCarry]) (nn hb) (nn hc))
    · exact .inr (h.three3 (a := a) (b := c) (by simp [faCarry]) ha hc)
  · exact .inr (h.three3 (a := a) (b := b) (by simp [faCarry]) ha hb)

theorem haSum_dec {S : Lit → Prop} {a b x : Lit} (h : ClN S (haSum a b x)) (ha : Dec S a) (hb : Dec S b) : Dec S x := by
  rcases ha with ha | ha <;> rcases hb with hb | hb
  · exact .inr (h.three3 (a := a.neg) (b := b.neg) (by simp [haSum]) (nn ha) (nn hb))
  · exact .inl (h.three3 (a := a.neg) (b := b) (by simp [haSum]) (nn ha) hb)
  · exact .inl (h.three3 (a := a) (b := b.neg) (by simp [haSum]) ha (nn hb))
  · exact .inr (h.three3 (a := a) (b := b) (by simp [haSum]) ha hb)

theorem haCarry_dec {S : Lit → Prop} {a b x : Lit} (h : ClN S (haCarry a b x)) (ha : Dec S a) (hb : Dec S b) : Dec S x := by
  rcases ha with ha | ha
  · rcases hb with hb | hb
    · exact .inl (h.three3 (a := a.neg) (b := b.neg) (by simp [haCarry]) (nn ha) (nn hb))
    · exact .inr ((h.two (a := b) (b := x.neg) (by simp [haCarry])).1 hb)
  · exact .inr ((h.two (a := a) (b := x.neg) (by simp [haCarry])).1 ha)

/-- All new clauses consist of decided literals. -/
def NewDec (S : Lit → Prop) (s s' : ER) : Prop := (∀ c ∈ s.clauses, c ∈ s'.clauses) ∧ ∀ c ∈ s'.clauses, c ∈ s.clauses ∨ ∀ l ∈ c, Dec S l

theorem NewDec.refl (S : Lit → Prop) (s : ER) : NewDec S s s := ⟨fun _ h => h, fun _ h => .inl h⟩
theorem NewDec.trans {S : Lit → Prop} {s s1 s2 : ER} (h : NewDec S s s1) (h' : NewDec S s1 s2) : NewDec S s s2 :=
  ⟨fun c hc => h'.1 c (h.1 c hc), fun c hc => (h'.2 c hc).elim (fun hc => h.2 c hc) .inr⟩
theorem NewDec.add {S : Lit → Prop} {s : ER} {cs : List Clause} (h : ∀ c ∈ cs, ∀ l ∈ c, Dec S l) : NewDec S s (s.addClauses cs) :=
  ⟨fun c hc => mem_addClauses.2 (.inl hc), fun c hc => (mem_addClauses.1 hc).imp id (h c)⟩

theorem NewDec.new (S : Lit → Prop) (s : ER) : NewDec S s (newPb s).2 := ⟨fun _ h => h, fun _ h => .inl h⟩

theorem faSum_lits {S : Lit → Prop} {a b c x : Lit} (ha : Dec S a) (hb : Dec S b) (hc : Dec S c) (hx : Dec S x) : ∀ d ∈ faSum a b c x, ∀ l ∈ d, Dec S l := by
  have := ha.neg; have := hb.neg; have := hc.neg; have := hx.neg
  intro d hd l hl
  simp only [faSum, List.mem_cons, List.not_mem_nil, or_false] at hd
  rcases hd with rfl | rfl | rfl | rfl | rfl | rfl | rfl | rfl <;> (simp only [List.mem_cons, List.not_mem_nil, or_false] at hl; rcases hl with rfl | rfl | rfl | rfl <;> assumption)
theorem faCarry_lits {S : Lit → Prop} {a b c x : Lit} (ha : Dec S a) (hb : Dec S b) (hc : Dec S c) (hx : Dec S x) : ∀ d ∈ faCarry a b c x, ∀ l ∈ d, Dec S l := by
  have := ha.neg; have := hb.neg; have := hc.neg; have := hx.neg
  intro d hd l hl
  simp only [faCarry, List.mem_cons, List.not_mem_nil, or_false] at hd
  rcases hd with rfl | rfl | rfl | rfl | rfl | rfl <;> (simp only [List.mem_cons, List.not_mem_nil, or_false] at hl; rcases hl with rfl | rfl | rfl <;> assumption)
theorem faExtra_lits {S : Lit → Prop} {xs xc a b c : Lit} (hs : Dec S xs) (hx : Dec S xc) (ha : Dec S a) (hb : Dec S b) (hc : Dec S c) :
    ∀ d ∈ faExtra xs xc a b c, ∀ l ∈ d, Dec S l := by
  have := ha.neg; have := hb.neg; have := hc.neg; have := hx.neg; have := hs.neg
  intro d hd l hl
  simp only [faExtra, List.mem_cons, List.not_mem_nil, or_false] at hd
  rcases hd with rfl | rfl | rfl | rfl | rfl | rfl <;> (simp only [List.mem_cons, List.not_mem_nil, or_false] at hl; rcases hl with rfl | rfl | rfl <;> assumption)
theorem haSum_lits {S : Lit → Prop} {a b x : Lit} (ha : Dec S a) (hb : Dec S b) (hx : Dec S x) : ∀ d ∈ haSum a b x, ∀ l ∈ d, Dec S l := by
  have := ha.neg; have := hb.neg; have := hx.neg
  intro d hd l hl
  simp only [haSum, List.mem_cons, List.not_mem_nil, or_false] at hd
  rcases hd with rfl | rfl | rfl | rfl <;> (simp only [List.mem_cons, List.not_mem_nil, or_false] at hl; rcases hl with rfl | rfl | rfl <;> assumption)
theorem haCarry_lits {S : Lit → Prop} {a b x : Lit} (ha : Dec S a) (hb : Dec S b) (hx : Dec S x) : ∀ d ∈ haCarry a b x, ∀ l ∈ d, Dec S l := by
  have := ha.neg; have := hb.neg; have := hx.neg
  intro d hd l hl
  simp only [haCarry, List.mem_cons, List.not_mem_nil, or_false] at hd
  rcases hd with rfl | rfl | rfl
  · simp only [List.mem_cons, List.not_mem_nil, or_false] at hl; rcases hl with rfl | rfl <;> assumption
  · simp only [List.mem_cons, List.not_mem_nil, or_false] at hl; rcases hl with rfl | rfl <;> assumption
  · simp only [List.mem_cons, List.not_mem_nil, or_false] at hl; rcases hl with rfl | rfl | rfl <;> assumption

theorem reduceBucket_mono : ∀ (fuel : Nat) (b nxt : List Lit) (s : ER) (x : Lit) (nxt' : List Lit) (s' : ER), reduceBucket fuel b nxt s = some (x, nxt', s') →
    ∀ c ∈ s.clauses, c ∈ s'.clauses
  | 0, [], _, _, _, _, _, e => by simp [reduceBucket] at e
  | 0, [_], _, _, _, _, _, e => by simp [reduceBucket] at e
  | 0, [_, _], _, _, _, _, _, e => by simp [reduceBucket] at e
  | 0, _ :: _ :: _ :: _, _, _, _, _, _, e => by simp [reduceBucket] at e
  | _ + 1, [], _, _, _, _, _, e => by simp [reduceBucket] at e
  | _ + 1, [_], nxt, s, x, nxt', s', e => by
    simp only [reduceBucket, Option.some.injEq, Prod.mk.injEq] at e
    obtain ⟨_, _, rfl⟩ := e
    exact fun _ h => h
  | _ + 1, [_, _], nxt, s, x, nxt', s', e => by
    simp only [reduceBucket, Option.some.injEq, Prod.mk.injEq] at e
    obtain ⟨_, _, rfl⟩ := e
    intro c hc
    exact mem_addClauses.2 (.inl (show c ∈ (ER.addClauses _ _).clauses from mem_addClauses.2 (.inl hc)))
  | fuel + 1, a :: b :: c :: r, nxt, s, x, nxt', s', e => by
    simp only [reduceBucket] at e
    intro d hd
    refine reduceBucket_mono fuel _ _ _ x nxt' s' e d ?_
    exact mem_addClauses.2 (.inl (mem_addClauses.2 (.inl (show d ∈ (ER.addClauses _ _).clauses from mem_addClauses.2 (.inl hd)))))

theorem reduceBucket_dec {S : Lit → Prop} : ∀ (fuel : Nat) (b nxt : List Lit) (s : ER) (x : Lit) (nxt' : List Lit) (s' : ER),
    reduceBucket fuel b nxt s = some (x, nxt', s') → ClN S s'.clauses → (∀ l ∈ b, Dec S l) → (∀ l ∈ nxt, Dec S l) →
    NewDec S s s' ∧ Dec S x ∧ ∀ l ∈ nxt', Dec S l
  | 0, [], _, _, _, _, _, e, _, _, _ => by simp [reduceBucket] at e
  | 0, [_], _, _, _, _, _, e, _, _, _ => by simp [reduceBucket] at e
  | 0, [_, _], _, _, _, _, _, e, _, _, _ => by simp [reduceBucket] at e
  | 0, _ :: _ :: _ :: _, _, _, _, _, _, e, _, _, _ => by simp [reduceBucket] at e
  | _ + 1, [], _, _, _, _, _, e, _, _, _ => by simp [reduceBucket] at e
  | _ + 1, [y], nxt, s, x, nxt', s', e, _, hb, hn => by
    simp only [reduceBucket, Option.some.injEq, Prod.mk.injEq] at e
    obtain ⟨rfl, rfl, rfl⟩ := e
    exact ⟨.refl _ _, hb y (by simp), hn⟩
  | _ + 1, [a, b], nxt, s, x, nxt', s', e, hS, hb, hn => by
    simp only [reduceBucket, Option.some.injEq, Prod.mk.injEq] at e
    have ha := hb a (by simp)
    have hb := hb b (by simp)
    obtain ⟨rfl, rfl, rfl⟩ := e
    have hx : Dec S (newPb s).1 := haSum_dec (hS.mono fun d hd => mem_addClauses.2 (.inl
      (show d ∈ (ER.addClauses _ _).clauses from mem_addClauses.2 (.inr hd)))) ha hb
    have hy := haCarry_dec (hS.mono fun d hd => mem_addClauses.2 (.inr hd)) ha hb
    refine ⟨((NewDec.new S s).trans (.add (haSum_lits ha hb hx))).trans ((NewDec.new S _).trans (.add (haCarry_lits ha hb hy))), hx, fun l hl => ?_⟩
    rcases List.mem_append.1 hl with hl | hl
    · exact hn l hl
    · rw [List.mem_singleton.1 hl]; exact hy
  | fuel + 1, a :: b :: c :: r, nxt, s, x, nxt', s', e, hS, hb, hn => by
    simp only [reduceBucket] at e
    have hM := reduceBucket_mono fuel _ _ _ x nxt' s' e
    have ha := hb a (by simp)
    have hc := hb c (by simp)
    have hr : ∀ l ∈ r, Dec S l := fun l hl => hb l (by simp [hl])
    have hb := hb b (by simp)
    have hx : Dec S (newPb s).1 := faSum_dec (hS.mono fun d hd => hM d (mem_addClauses.2 (.inl (mem_addClauses.2 (.inl
      (show d ∈ (ER.addClauses _ _).clauses from mem_addClauses.2 (.inr hd))))))) ha hb hc
    have hy := faCarry_dec (hS.mono fun d hd => hM d (mem_addClauses.2 (.inl (mem_addClauses.2 (.inr hd))))) ha hb hc
    obtain ⟨h1, h2, h3⟩ := reduceBucket_dec fuel _ _ _ x nxt' s' e hS
      (fun l hl => (List.mem_append.1 hl).elim (hr l) fun h => by rw [List.mem_singleton.1 h]; exact hx)
      (fun l hl => (List.mem_append.1 hl).elim (hn l) fun h => by rw [List.mem_singleton.1 h]; exact hy)
    exact ⟨(((NewDec.new S s).trans (.add (faSum_lits ha hb hc hx))).trans
      (((NewDec.new S _).trans (.add (faCarry_lits ha hb hc hy))).trans (.add (faExtra_lits hx hy ha hb hc)))).trans h1, h2, h3⟩

/-- All result bits are decided. -/
def DecX (S : Lit → Prop) (xs : List (Option Lit)) : Prop := ∀ l, some l ∈ xs → Dec S l

theorem DecX.cons_none {S : Lit → Prop} {xs : List (Option Lit)} (h : DecX S xs) : DecX S (none :: xs) := fun l hl => h l (by simpa using hl)
theorem DecX.cons_some {S : Lit → Prop} {xs : List (Option Lit)} {x : Lit} (hx : Dec S x) (h : DecX S xs) : DecX S (some x :: xs) := fun l hl => by
  rcases List.mem_cons.1 hl with hl | hl
  · rw [Option.some.inj hl]; exact hx
  · exact h l hl

theorem adderTree_mono : ∀ (fuel : Nat) (bs : List (List Lit)) (s : ER) (xs : List (Option Lit)) (s' : ER), adderTree fuel bs s = some (xs, s') →
    ∀ c ∈ s.clauses, c ∈ s'.clauses
  | _, [], s, xs, s', e => by
    simp only [adderTree, Option.some.injEq, Prod.mk.injEq] at e
    obtain ⟨_, rfl⟩ := e
    exact fun _ h => h
  | 0, _ :: _, _, _, _, e => by simp [adderTree] at e
  | fuel + 1, b :: bs, s, xs, s', e => by
    simp only [adderTree] at e
    by_cases hb : b.isEmpty = true
    · rw [if_pos hb] at e
      obtain ⟨⟨ys, s1⟩, h1, h2⟩ := Option.map_eq_some_iff.1 e
      simp only [Prod.mk.injEq] at h2
      obtain ⟨_, rfl⟩ := h2
      exact adderTree_mono fuel bs s ys s1 h1
    · rw [if_neg hb] at e
      generalize (if bs.isEmpty = true ∧ 2 ≤ b.length then [[]] else bs) = bs' at e
      match bs', e with
      | [], e =>
        obtain ⟨⟨x, n, s1⟩, h1, h2⟩ := Option.bind_eq_some_iff.1 e
        obtain ⟨⟨ys, s2⟩, h3, h4⟩ := Option.map_eq_some_iff.1 h2
        have h3 : adderTree fuel [] s1 = some (ys, s2) := by rw [adderTree]; exact h3
        simp only [Prod.mk.injEq] at h4
        obtain ⟨_, rfl⟩ := h4
        exact fun c hc => adderTree_mono fuel _ _ ys s2 h3 c (reduceBucket_mono _ _ _ _ _ _ _ h1 c hc)
      | nxt :: rest, e =>
        obtain ⟨⟨x, n, s1⟩, h1, h2⟩ := Option.bind_eq_some_iff.1 e
        obtain ⟨⟨ys, s2⟩, h3, h4⟩ := Option.map_eq_some_iff.1 h2
        simp only [Prod.mk.injEq] at h4
        obtain ⟨_, rfl⟩ := h4
        exact fun c hc => adderTree_mono fuel _ _ ys s2 h3 c (reduceBucket_mono _ _ _ _ _ _ _ h1 c hc)

theorem adderTree_dec {S : Lit → Prop} : ∀ (fuel : Nat) (bs : List (List Lit)) (s : ER) (xs : List (Option Lit)) (s' : ER), adderTree fuel bs s = some (xs, s') →
    ClN S s'.clauses → (∀ b ∈ bs, ∀ l ∈ b, Dec S l) → NewDec S s s' ∧ DecX S xs
  | _, [], s, xs, s', e, _, _ => by
    simp only [adderTree, Option.some.injEq, Prod.mk.injEq] at e
    obtain ⟨rfl, rfl⟩ := e
    exact ⟨.refl _ _, fun l hl => by simp at hl⟩
  | 0, _ :: _, _, _, _, e, _, _ => by simp [adderTree] at e
  | fuel + 1, b :: bs, s, xs, s', e, hS, hd => by
    simp only [adderTree] at e
    by_cases hb : b.isEmpty = true
    · rw [if_pos hb] at e
      obtain ⟨⟨ys, s1⟩, h1, h2⟩ := Option.map_eq_some_iff.1 e
      simp only [Prod.mk.injEq] at h2
      obtain ⟨rfl, rfl⟩ := h2
      obtain ⟨g1, g2⟩ := adderTree_dec fuel bs s ys s1 h1 hS fun b' hb' => hd b' (by simp [hb'])
      exact ⟨g1, g2.cons_none⟩
    · rw [if_neg hb] at e
      have hbd : ∀ l ∈ b, Dec S l := hd b (by simp)
      generalize hbs : (if bs.isEmpty = true ∧ 2 ≤ b.length then [[]] else bs) = bs' at e
      have hd' : ∀ b' ∈ bs', ∀ l ∈ b', Dec S l := by
        intro b' hb' l hl
        rw [← hbs] at hb'
        split at hb'
        · rw [List.mem_singleton.1 hb'] at hl; simp at hl
        · exact hd b' (by simp [hb']) l hl
      match bs', e, hd' with
      | [], e, _ =>
        obtain ⟨⟨x, n, s1⟩, h1, h2⟩ := Option.bind_eq_some_iff.1 e
        obtain ⟨⟨ys, s2⟩, h3, h4⟩ := Option.map_eq_some_iff.1 h2
        have h3 : adderTree fuel [] s1 = some (ys, s2) := by rw [adderTree]; exact h3
        simp only [Prod.mk.injEq] at h4
        obtain ⟨rfl, rfl⟩ := h4
        obtain ⟨g1, g2, _⟩ := reduceBucket_dec _ _ _ _ _ _ _ h1 (hS.mono (adderTree_mono _ _ _ _ _ h3)) hbd (by simp)
        obtain ⟨g4, g5⟩ := adderTree_dec fuel [] s1 ys s2 h3 hS (by simp)
        exact ⟨g1.trans g4, .cons_some g2 g5⟩
      | nxt :: rest, e, hd' =>
        obtain ⟨⟨x, n, s1⟩, h1, h2⟩ := Option.bind_eq_some_iff.1 e
        obtain ⟨⟨ys, s2⟩, h3, h4⟩ := Option.map_eq_some_iff.1 h2
        simp only [Prod.mk.injEq] at h4
        obtain ⟨rfl, rfl⟩ := h4
        obtain ⟨g1, g2, g3⟩ := reduceBucket_dec _ _ _ _ _ _ _ h1 (hS.mono (adderTree_mono _ _ _ _ _ h3)) hbd (hd' nxt (by simp))
        obtain ⟨g4, g5⟩ := adderTree_dec fuel (n :: rest) s1 ys s2 h3 hS (fun b' hb' => by
          rcases List.mem_cons.1 hb' with rfl | hb'
          · exact g3
          · exact hd' b' (by simp [hb']))
        exact ⟨g1.trans g4, .cons_some g2 g5⟩

theorem Dec.of_v {S : Lit → Prop} {l m : Lit} (h : Dec S m) (e : m.v = l.v) : Dec S l := by
  obtain ⟨v, p⟩ := l
  obtain ⟨w, q⟩ := m
  simp only at e
  subst e
  rcases h with h | h <;> cases p <;> cases q <;> first | exact .inl h | exact .inr h

/-- Once all literals are decided, all clauses consist of decided literals. -/
theorem encodeAdder_dec {S : Lit → Prop} {ts : List (Lit × Nat)} {rhs : Nat} {s s' : ER} (e : encodeAdder ts rhs s = some s')
    (hS : ClN S s'.clauses) (hd : ∀ t ∈ ts, Dec S t.1) : NewDec S s s' := by
  unfold encodeAdder at e
  obtain ⟨⟨xs, s1⟩, h1, h2⟩ := Option.map_eq_some_iff.1 e
  simp only at h2
  subst h2
  obtain ⟨g1, g2⟩ := adderTree_dec _ _ _ _ _ h1 (hS.mono fun c hc => mem_addClauses.2 (.inl hc)) (by
    intro b hb l hl
    obtain ⟨i, _, rfl⟩ := List.mem_map.1 hb
    simp only [adderBucket, List.mem_reverse, List.mem_map, List.mem_filter] at hl
    obtain ⟨t, ht, rfl⟩ := hl
    exact hd t ht.1)
  refine g1.trans (.add fun c hc l hl => ?_)
  obtain ⟨m, hm, he⟩ := leClauses_vars xs rhs c hc l hl
  exact (g2 m hm).of_v he

theorem encodeAdder_mono {ts : List (Lit × Nat)} {rhs : Nat} {s s' : ER} (e : encodeAdder ts rhs s = some s') : ∀ c ∈ s.clauses, c ∈ s'.clauses := by
  unfold encodeAdder at e
  obtain ⟨⟨xs, s1⟩, h1, h2⟩ := Option.map_eq_some_iff.1 e
  simp only at h2
  subst h2
  exact fun c hc => mem_addClauses.2 (.inl (adderTree_mono _ _ _ _ _ h1 c hc))

open Classical in
/-- Where nothing contradicts and everything is decided, the decided values are a model. -/
theorem decided_model {S : Lit → Prop} {cs : List Clause} (hS : ClN S cs) (hc : ¬ Confl S) (he : [] ∉ cs) (hd : ∀ c ∈ cs, ∀ l ∈ c, Dec S l) :
    ∃ σ : Asg, (∀ c ∈ cs, Clause.Sat σ c) ∧ ∀ l, Dec S l → (l.eval σ = true ↔ S l) := by
  have hv : ∀ l, Dec S l → (l.eval (fun v => decide (S v.p)) = true ↔ S l) := by
    intro l hl
    obtain ⟨v, p⟩ := l
    cases p
    · have e : Lit.neg ⟨v, false⟩ = v.p := rfl
      show (!decide (S v.p)) = true ↔ _
      rcases hl with h | h
      · have : ¬ S v.p := fun h2 => hc ⟨_, h, e ▸ h2⟩
        simp [this, h]
      · rw [e] at h
        have h3 : ¬ S ⟨v, false⟩ := fun h2 => hc ⟨_, h2, e ▸ h⟩
        simp [h3, h]
    · show decide (S v.p) = true ↔ S v.p
      simp
  refine ⟨fun v => decide (S v.p), fun c hcc => ?_, hv⟩
  refine Classical.byContradiction fun hn => ?_
  have hall : ∀ l ∈ c, S l.neg := fun l hl => by
    rcases hd c hcc l hl with h | h
    · exact absurd ⟨l, hl, (hv l (.inl h)).2 h⟩ hn
    · exact h
  match c, hcc, hall with
  | [], hcc, _ => exact he hcc
  | l :: c', hcc, hall => exact hc ⟨l, hS _ hcc l (by simp) (fun l' hl' _ => hall l' hl'), hall l (by simp)⟩

end Prop1
end Verif
