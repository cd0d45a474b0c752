import Verif.Enc.Clean2
import Verif.F.PbEncode
/-
Which variables the clauses of encoded pseudo-Boolean constraints are about.
-/
namespace Verif
open ER

/-- `P` holds for all new auxiliary variables of cardinality and pseudo-Boolean encodings. -/
structure NewPbVars (P : Var → Prop) (n : AuxTy → Nat) : Prop extends NewVars P n where
  pb : ∀ k, n .pb ≤ k → P (.aux .pb k)

variable {P : Var → Prop} {n : AuxTy → Nat} {s : ER}

/-- All terms are about variables with `P`. -/
abbrev TermsP (P : Var → Prop) (ts : List (Lit × Nat)) : Prop := ∀ t ∈ ts, P t.1.v

theorem NewVars.nthT (hP : NewVars P n) {ts : List (Lit × Nat)} (h : TermsP P ts) (i : Nat) : P (ts.nth i).1.v := by
  by_cases hi : i < ts.length
  · exact h _ (getBang_mem hi)
  · rw [nth_default hi]
    exact hP.tmp

theorem Clean.newAuxsPb (hP : NewPbVars P n) (h : Clean P n s) (k : Nat) : Clean P n (s.newAuxs .pb k).2 ∧ ∀ v ∈ (s.newAuxs .pb k).1, P v := by
  refine ⟨⟨fun t => Nat.le_trans (h.cnt t) ((newAuxs_le .pb k s).1 t), h.cl⟩, fun v hv => ?_⟩
  simp only [ER.newAuxs, List.mem_map, List.mem_range] at hv
  obtain ⟨i, _, rfl⟩ := hv
  exact hP.pb _ (Nat.le_trans (h.cnt .pb) (Nat.le_add_right _ _))

theorem Clean.newPb (hP : NewPbVars P n) (h : Clean P n s) : P (newPb s).1.v ∧ Clean P n (newPb s).2 := by
  obtain ⟨h1, h2⟩ := h.newAuxsPb hP 1
  exact ⟨hP.nthV h2 0, h1⟩

/-! ### Sequential weight counter -/

theorem encodeSwc_clean (hP : NewPbVars P n) {ts : List (Lit × Nat)} {rhs : Nat} {s' : ER} (h : Clean P n s) (ht : TermsP P ts)
    (e : encodeSwc ts rhs s = some s') : Clean P n s' := by
  unfold encodeSwc at e
  split at e
  · cases e
  · obtain ⟨h1, h2⟩ := h.newAuxsPb hP (ts.length * rhs)
    cases e
    refine Clean.add h1 fun c hc => ?_
    obtain ⟨i, _, hc⟩ := List.mem_flatMap.1 hc
    have a := hP.nthT ht i
    have b := hP.nthV h2
    unfold swcRow at hc
    rcases List.mem_append.1 hc with hc | hc
    · obtain ⟨j, _, hc⟩ := List.mem_flatMap.1 hc
      rcases List.mem_append.1 hc with hc | hc
      · rcases List.mem_append.1 hc with hc | hc
        · split at hc
          · rw [List.mem_singleton.1 hc]; exact litsP_two (b _) (b _)
          · cases hc
        · split at hc
          · rw [List.mem_singleton.1 hc]; exact litsP_two a (b _)
          · cases hc
      · split at hc
        · rw [List.mem_singleton.1 hc]; exact litsP_three (b _) a (b _)
        · cases hc
    · split at hc
      · rw [List.mem_singleton.1 hc]; exact litsP_two (b _) a
      · cases hc

/-! ### Adder networks -/

theorem reduceBucket_clean (hP : NewPbVars P n) (fuel : Nat) : ∀ {b nxt nxt' : List Lit} {x : Lit} {s s' : ER}, Clean P n s → LitsP P b → LitsP P nxt →
    reduceBucket fuel b nxt s = some (x, nxt', s') → P x.v ∧ LitsP P nxt' ∧ Clean P n s' := by
  induction fuel with
  | zero =>
    intro b nxt nxt' x s s' _ _ _ e
    unfold reduceBucket at e
    cases e
  | succ fuel ih =>
    intro b nxt nxt' x s s' h hb hn e
    match b, hb, e with
    | [], _, e => cases e
    | [a], hb, e =>
      cases e
      exact ⟨hb _ (by simp), hn, h⟩
    | [a, c], hb, e =>
      unfold reduceBucket at e
      have ha := hb a (by simp)
      have hc := hb c (by simp)
      obtain ⟨x1, h1⟩ := h.newPb hP
      have h2 : Clean P n ((newPb s).2.addClauses (haSum a c (newPb s).1)) := h1.add (by
        intro d hd l hl
        simp only [haSum, List.mem_cons, List.not_mem_nil, or_false] at hd
        rcases hd with rfl | rfl | rfl | rfl <;> simp only [List.mem_cons, List.not_mem_nil, or_false] at hl <;> rcases hl with rfl | rfl | rfl <;> assumption)
      obtain ⟨x2, h3⟩ := h2.newPb hP
      cases e
      refine ⟨x1, litsP_append hn (litsP_one x2), h3.add ?_⟩
      intro d hd l hl
      simp only [haCarry, List.mem_cons, List.not_mem_nil, or_false] at hd
      rcases hd with rfl | rfl | rfl <;> simp only [List.mem_cons, List.not_mem_nil, or_false] at hl
      · rcases hl with rfl | rfl <;> assumption
      · rcases hl with rfl | rfl <;> assumption
      · rcases hl with rfl | rfl | rfl <;> assumption
    | a :: c :: f :: r, hb, e =>
      unfold reduceBucket at e
      have ha := hb a (by simp)
      have hc := hb c (by simp)
      have hf := hb f (by simp)
      obtain ⟨x1, h1⟩ := h.newPb hP
      have h2 : Clean P n ((newPb s).2.addClauses (faSum a c f (newPb s).1)) := h1.add (by
        intro d hd l hl
        simp only [faSum, List.mem_cons, List.not_mem_nil, or_false] at hd
        rcases hd with rfl | rfl | rfl | rfl | rfl | rfl | rfl | rfl <;> simp only [List.mem_cons, List.not_mem_nil, or_false] at hl <;>
          rcases hl with rfl | rfl | rfl | rfl <;> assumption)
      obtain ⟨x2, h3⟩ := h2.newPb hP
      refine ih ((h3.add ?_).add ?_) (litsP_append (fun l hl => hb l (by simp [hl])) (litsP_one x1)) (litsP_append hn (litsP_one x2)) e
      · intro d hd l hl
        simp only [faCarry, List.mem_cons, List.not_mem_nil, or_false] at hd
        rcases hd with rfl | rfl | rfl | rfl | rfl | rfl <;> simp only [List.mem_cons, List.not_mem_nil, or_false] at hl <;>
          rcases hl with rfl | rfl | rfl <;> assumption
      · intro d hd l hl
        simp only [faExtra, List.mem_cons, List.not_mem_nil, or_false] at hd
        rcases hd with rfl | rfl | rfl | rfl | rfl | rfl <;> simp only [List.mem_cons, List.not_mem_nil, or_false] at hl <;>
          rcases hl with rfl | rfl | rfl <;> assumption

theorem adderTree_clean (hP : NewPbVars P n) (fuel : Nat) : ∀ {bs : List (List Lit)} {res : List (Option Lit)} {s s' : ER}, Clean P n s → (∀ b ∈ bs, LitsP P b) →
    adderTree fuel bs s = some (res, s') → (∀ l, some l ∈ res → P l.v) ∧ Clean P n s' := by
  induction fuel with
  | zero =>
    intro bs res s s' h hb e
    cases bs with
    | nil => cases e; exact ⟨fun l hl => (by cases hl), h⟩
    | cons b bs => cases e
  | succ fuel ih =>
    intro bs res s s' h hb e
    cases bs with
    | nil => cases e; exact ⟨fun l hl => (by cases hl), h⟩
    | cons b bs =>
      unfold adderTree at e
      split at e
      · obtain ⟨⟨xs, s1⟩, e1, e⟩ := Option.map_eq_some_iff.1 e
        cases e
        obtain ⟨g1, g2⟩ := ih h (fun b hm => hb b (List.mem_cons_of_mem _ hm)) e1
        refine ⟨fun l hl => ?_, g2⟩
        rcases List.mem_cons.1 hl with hl | hl
        · cases hl
        · exact g1 l hl
      · have hbs : ∀ b' ∈ (if bs.isEmpty ∧ 2 ≤ b.length then [[]] else bs), LitsP P b' := by
          split
          · intro b' hb'
            rw [List.mem_singleton.1 hb']
            intro l hl; cases hl
          · exact fun b hm => hb b (List.mem_cons_of_mem _ hm)
        simp only at e
        generalize (if bs.isEmpty ∧ 2 ≤ b.length then [[]] else bs) = cs at e hbs
        have hb0 := hb b List.mem_cons_self
        cases cs with
        | nil =>
          obtain ⟨⟨x, nxt, s1⟩, e1, e⟩ := Option.bind_eq_some_iff.1 e
          obtain ⟨⟨xs, s2⟩, e2, e⟩ := Option.map_eq_some_iff.1 e
          cases e
          obtain ⟨k1, _, k3⟩ := reduceBucket_clean hP _ h hb0 (fun l hl => by cases hl) e1
          obtain ⟨g1, g2⟩ := ih k3 (fun b hm => by cases hm) e2
          refine ⟨fun l hl => ?_, g2⟩
          rcases List.mem_cons.1 hl with hl | hl
          · cases hl; exact k1
          · exact g1 l hl
        | cons nx rest =>
          obtain ⟨⟨x, nxt, s1⟩, e1, e⟩ := Option.bind_eq_some_iff.1 e
          obtain ⟨⟨xs, s2⟩, e2, e⟩ := Option.map_eq_some_iff.1 e
          cases e
          obtain ⟨k1, k2, k3⟩ := reduceBucket_clean hP _ h hb0 (hbs nx List.mem_cons_self) e1
          obtain ⟨g1, g2⟩ := ih k3 (fun b hm => by
            rcases List.mem_cons.1 hm with rfl | hm
            · exact k2
            · exact hbs b (List.mem_cons_of_mem _ hm)) e2
          refine ⟨fun l hl => ?_, g2⟩
          rcases List.mem_cons.1 hl with hl | hl
          · cases hl; exact k1
          · exact g1 l hl

theorem leTail_clean : ∀ {res : List (Option Lit)} {r : Nat} {c : Clause}, (∀ l, some l ∈ res → P l.v) → leTail res r = some c → LitsP P c
  | [], r, c, _, e => by cases e; intro l hl; cases hl
  | x :: xs, r, c, h, e => by
    have hx : ∀ l, some l ∈ xs → P l.v := fun l hl => h l (List.mem_cons_of_mem _ hl)
    unfold leTail at e
    split at e
    · split at e
      · obtain ⟨d, e1, e⟩ := Option.map_eq_some_iff.1 e
        cases e
        exact litsP_append (a := [_]) (litsP_one (h ‹Lit› List.mem_cons_self)) (leTail_clean hx e1)
      · cases e
    · split at e
      · obtain ⟨d, e1, e⟩ := Option.map_eq_some_iff.1 e
        cases e
        exact litsP_append (a := [_]) (litsP_one (h _ List.mem_cons_self)) (leTail_clean hx e1)
      · exact leTail_clean hx e

theorem leClauses_clean : ∀ {res : List (Option Lit)} {r : Nat}, (∀ l, some l ∈ res → P l.v) → ∀ c ∈ leClauses res r, LitsP P c
  | [], r, _, c, hc => by cases hc
  | x :: xs, r, h, c, hc => by
    have hx : ∀ l, some l ∈ xs → P l.v := fun l hl => h l (List.mem_cons_of_mem _ hl)
    unfold leClauses at hc
    rcases List.mem_append.1 hc with hc | hc
    · split at hc
      · split at hc
        · cases hc
        · split at hc
          · rename_i d e
            rw [List.mem_singleton.1 hc]
            exact litsP_append (leTail_clean hx e) (litsP_one (h ‹Lit› List.mem_cons_self))
          · cases hc
      · cases hc
    · exact leClauses_clean hx c hc

theorem encodeAdder_clean (hP : NewPbVars P n) {ts : List (Lit × Nat)} {rhs : Nat} {s' : ER} (h : Clean P n s) (ht : TermsP P ts)
    (e : encodeAdder ts rhs s = some s') : Clean P n s' := by
  unfold encodeAdder at e
  obtain ⟨⟨res, s1⟩, e1, e⟩ := Option.map_eq_some_iff.1 e
  cases e
  obtain ⟨g1, g2⟩ := adderTree_clean hP _ h (fun b hb => by
    obtain ⟨i, _, rfl⟩ := List.mem_map.1 hb
    intro l hl
    unfold adderBucket at hl
    obtain ⟨t, htm, rfl⟩ := List.mem_map.1 (List.mem_reverse.1 hl)
    exact ht t (List.mem_filter.1 htm).1) e1
  exact g2.add (leClauses_clean g1)

/-! ### Binary merge -/

theorem unaryAdder_clean (hP : NewPbVars P n) {u v : List Lit} (h : Clean P n s) (hu : LitsP P u) (hv : LitsP P v) :
    LitsP P (unaryAdder u v s).1 ∧ Clean P n (unaryAdder u v s).2 := by
  unfold unaryAdder
  split
  · exact ⟨hv, h⟩
  · split
    · exact ⟨hu, h⟩
    · obtain ⟨h1, h2⟩ := h.newAuxsPb hP (u.length + v.length)
      have hw := litsP_pos h2
      refine ⟨hw, Clean.add h1 fun c hc => ?_⟩
      have a := hP.nth hu
      have b := hP.nth hv
      have d := hP.nth hw
      rcases List.mem_append.1 hc with hc | hc
      · rcases List.mem_append.1 hc with hc | hc
        · obtain ⟨i, _, hc⟩ := List.mem_flatMap.1 hc
          obtain ⟨j, _, rfl⟩ := List.mem_map.1 hc
          exact litsP_three (a _) (b _) (d _)
        · obtain ⟨j, _, rfl⟩ := List.mem_map.1 hc
          exact litsP_two (b _) (d _)
      · obtain ⟨j, _, rfl⟩ := List.mem_map.1 hc
        exact litsP_two (a _) (d _)

theorem pbTotalizer_clean (hP : NewPbVars P n) (fuel : Nat) : ∀ {x out : List Lit} {s s' : ER}, Clean P n s → LitsP P x →
    pbTotalizer fuel x s = some (out, s') → LitsP P out ∧ Clean P n s' := by
  induction fuel with
  | zero => intro _ _ _ _ _ _ e; cases e
  | succ fuel ih =>
    intro x out s s' h hx e
    unfold pbTotalizer at e
    split at e
    · cases e; exact ⟨hx, h⟩
    · obtain ⟨⟨u, s1⟩, e1, e⟩ := Option.bind_eq_some_iff.1 e
      obtain ⟨⟨v, s2⟩, e2, e⟩ := Option.bind_eq_some_iff.1 e
      obtain ⟨g1, g2⟩ := ih h (fun l hl => hx l (List.mem_of_mem_take hl)) e1
      obtain ⟨g3, g4⟩ := ih g2 (fun l hl => hx l (List.mem_of_mem_drop hl)) e2
      have g := unaryAdder_clean hP g4 g1 g3
      simp only [Option.some.injEq] at e
      rw [e] at g
      exact g

theorem guardCl_clean {gac : Option Lit} {l : Lit} (hg : ∀ g ∈ gac, P g.v) (hl : P l.v) : LitsP P (guardCl gac l) := by
  unfold guardCl
  split
  · exact litsP_two (hg _ rfl) hl
  · exact litsP_one hl

theorem bmLoop_clean (hP : NewPbVars P n) {wd : Bool} {nlt : Nat} {gac : Option Lit} (hg : ∀ g ∈ gac, P g.v) : ∀ {bs : List (List Lit)} {i : Nat} {carries : List Lit} {s s' : ER},
    Clean P n s → (∀ b ∈ bs, LitsP P b) → LitsP P carries → bmLoop wd nlt gac i bs carries s = some s' → Clean P n s' := by
  intro bs
  induction bs with
  | nil => intro i carries s s' h _ _ e; unfold bmLoop at e; cases e; exact h
  | cons b bs ih =>
    intro i carries s s' h hb hc e
    unfold bmLoop at e
    simp only at e
    have hb0 := hb b List.mem_cons_self
    obtain ⟨⟨card, s1⟩, e1, e⟩ := Option.bind_eq_some_iff.1 e
    have k : LitsP P card ∧ Clean P n s1 := by
      split at e1
      · exact pbTotalizer_clean hP _ h hb0 e1
      · exact ccSort_clean hP.toNewVars _ h hb0 e1
    simp only at e
    split at e
    · cases e
    · have h2 : Clean P n (if divCeil nlt (2 ^ i) ≤ b.length then s1.addClauses [guardCl gac (card.nth (divCeil nlt (2 ^ i) - 1)).neg] else s1) := by
        split
        · refine k.2.add fun c hc => ?_
          rw [List.mem_singleton.1 hc]
          exact guardCl_clean hg (hP.nth k.1 _)
        · exact k.2
      generalize (if divCeil nlt (2 ^ i) ≤ b.length then s1.addClauses [guardCl gac (card.nth (divCeil nlt (2 ^ i) - 1)).neg] else s1) = s2 at e h2
      obtain ⟨⟨mg, s3⟩, e3, e⟩ := Option.bind_eq_some_iff.1 e
      have k3 : LitsP P mg ∧ Clean P n s3 := by
        split at e3
        · split at e3
          · cases e3; exact ⟨hc, h2⟩
          · obtain ⟨⟨mg', s4⟩, e4, e3⟩ := Option.bind_eq_some_iff.1 e3
            have k4 : LitsP P mg' ∧ Clean P n s4 := by
              split at e4
              · have g := unaryAdder_clean hP h2 k.1 hc
                simp only [Option.some.injEq] at e4
                rw [e4] at g
                exact g
              · exact ccMerge_clean hP.toNewVars _ h2 k.1 hc e4
            cases e3
            refine ⟨k4.1, ?_⟩
            split
            · refine k4.2.add fun c hc => ?_
              rw [List.mem_singleton.1 hc]
              exact guardCl_clean hg (hP.nth k4.1 _)
            · exact k4.2
        · cases e3; exact ⟨k.1, h2⟩
      exact ih k3.2 (fun b hm => hb b (List.mem_cons_of_mem _ hm)) (evensOf_clean hP.toNewVars k3.1) e

theorem binaryMerge_clean (hP : NewPbVars P n) {wd : Bool} {ts : List (Lit × Nat)} {leq maxW : Nat} {gac : Option Lit} {s' : ER} (h : Clean P n s) (ht : TermsP P ts)
    (hg : ∀ g ∈ gac, P g.v) (e : binaryMerge wd ts leq maxW gac s = some s') : Clean P n s' := by
  unfold binaryMerge at e
  obtain ⟨x, h1⟩ := h.newPb hP
  have h2 : Clean P n ((newPb s).2.addClauses [[(newPb s).1]]) := h1.add fun c hc => by rw [List.mem_singleton.1 hc]; exact litsP_one x
  refine bmLoop_clean hP hg (h2.add fun c hc => ?_) (fun b hb => ?_) (fun l hl => by cases hl) e
  · obtain ⟨i, _, hc⟩ := List.mem_flatMap.1 hc
    obtain ⟨t, htm, rfl⟩ := List.mem_map.1 hc
    exact guardCl_clean hg (ht t (List.mem_filter.1 htm).1)
  · obtain ⟨i, _, rfl⟩ := List.mem_map.1 hb
    refine litsP_append ?_ fun l hl => ?_
    · split
      · exact litsP_one x
      · intro l hl; cases hl
    · obtain ⟨t, htm, rfl⟩ := List.mem_map.1 hl
      exact ht t (List.mem_filter.1 (List.mem_filter.1 htm).1).1

theorem swapRemove_clean (hP : NewVars P n) {ts : List (Lit × Nat)} {i : Nat} (ht : TermsP P ts) : TermsP P (swapRemove ts i) := by
  intro t htm
  rcases List.mem_or_eq_of_mem_set (List.dropLast_subset _ htm) with h | rfl
  · exact ht t h
  · exact hP.nthT ht _

theorem swapRestore_clean (hP : NewVars P n) {ts : List (Lit × Nat)} {i : Nat} {x : Lit × Nat} (ht : TermsP P ts) (hx : P x.1.v) : TermsP P (swapRestore ts i x) := by
  intro t htm
  unfold swapRestore at htm
  split at htm
  · rcases List.mem_or_eq_of_mem_set htm with h | rfl
    · rcases List.mem_append.1 h with h | h
      · exact ht t h
      · rw [List.mem_singleton.1 h]
        exact hP.nthT ht _
    · exact hx
  · exact ht t htm

theorem bmGacLoop_clean (hP : NewPbVars P n) {cfg : BmCfg} {rhs maxW : Nat} : ∀ {is : List Nat} {ts ts' : List (Lit × Nat)} {fl fl' : Bool} {s s' : ER}, Clean P n s → TermsP P ts →
    bmGacLoop cfg rhs maxW is ts fl s = some (ts', fl', s') → TermsP P ts' ∧ Clean P n s' := by
  intro is
  induction is with
  | nil => intro ts ts' fl fl' s s' h ht e; unfold bmGacLoop at e; cases e; exact ⟨ht, h⟩
  | cons i is ih =>
    intro ts ts' fl fl' s s' h ht e
    unfold bmGacLoop at e
    simp only at e
    have hi := hP.nthT ht i
    have hr := swapRemove_clean hP.toNewVars (i := i) ht
    have hg : ∀ g ∈ (some (ts.nth i).1.neg : Option Lit), P g.v := by rintro g ⟨⟩; exact hi
    have hcl : ∀ c ∈ (swapRemove ts i).map fun x => [(ts.nth i).1.neg, x.1.neg], LitsP P c := by
      intro c hc
      obtain ⟨x, hx, rfl⟩ := List.mem_map.1 hc
      exact litsP_two hi (hr x hx)
    split at e
    · exact ih h ht e
    · obtain ⟨s1, e1, e⟩ := Option.bind_eq_some_iff.1 e
      refine ih ?_ (swapRestore_clean hP.toNewVars hr hi) e
      split at e1
      · obtain ⟨mw, _, e1⟩ := Option.bind_eq_some_iff.1 e1
        split at e1
        · cases e1; exact h.add hcl
        · exact binaryMerge_clean hP h hr hg e1
      · refine binaryMerge_clean hP ?_ hr hg e1
        split
        · exact h.add hcl
        · exact h

theorem encodeBinaryMerge_clean (hP : NewPbVars P n) {cfg : BmCfg} {ts : List (Lit × Nat)} {rhs : Nat} {s' : ER} (h : Clean P n s) (ht : TermsP P ts)
    (e : encodeBinaryMerge cfg ts rhs s = some s') : Clean P n s' := by
  unfold encodeBinaryMerge at e
  obtain ⟨mw, _, e⟩ := Option.bind_eq_some_iff.1 e
  split at e
  · exact binaryMerge_clean hP h ht (fun g hg => by cases hg) e
  · obtain ⟨⟨ts1, fl, s1⟩, e1, e⟩ := Option.bind_eq_some_iff.1 e
    obtain ⟨g1, g2⟩ := bmGacLoop_clean hP h ht e1
    simp only at e
    split at e
    · exact binaryMerge_clean hP g2 g1 (fun g hg => by cases hg) e
    · cases e; exact g2

theorem encodeInternal_clean (hP : NewPbVars P n) {cfg : PbCfg} {ts : List (Lit × Int)} {rhs : Int} {s' : ER} (h : Clean P n s) (ht : ∀ t ∈ ts, P t.1.v)
    (e : encodeInternal cfg ts rhs s = some s') : Clean P n s' := by
  unfold encodeInternal at e
  split at e
  · cases e
    exact h.add fun c hc => by rw [List.mem_singleton.1 hc]; intro l hl; cases hl
  · split at e
    · cases e
      refine h.add fun c hc => ?_
      obtain ⟨t, htm, rfl⟩ := List.mem_map.1 hc
      exact litsP_one (ht t htm)
    · simp only at e
      have h1 : Clean P n (s.addClauses ((ts.filter fun t => !decide (t.2 ≤ rhs)).map fun t => [t.1.neg])) := h.add fun c hc => by
        obtain ⟨t, htm, rfl⟩ := List.mem_map.1 hc
        exact litsP_one (ht t (List.mem_filter.1 htm).1)
      have h2 : TermsP P ((ts.filter fun t => decide (t.2 ≤ rhs)).map fun t => (t.1, t.2.toNat)) := by
        intro t htm
        obtain ⟨x, hx, rfl⟩ := List.mem_map.1 htm
        exact ht x (List.mem_filter.1 hx).1
      split at e
      · split at e
        · exact encodeSwc_clean hP h1 h2 e
        · exact encodeSwc_clean hP h1 h2 e
        · exact encodeBinaryMerge_clean hP h1 h2 e
        · exact encodeAdder_clean hP h1 h2 e
      · cases e; exact h1

end Verif
