import Verif.Drup.Watch
/-
Unit propagation of the DRUP trimmer keeps the invariants, and the conflict analysis marks an unsatisfiable set of clauses.
-/
namespace Verif.Drup

/-- The value of a literal of the DIMACS format. -/
def litT (σ : Nat → Bool) (x : Int) : Bool := if 0 < x then σ x.natAbs else !σ x.natAbs

theorem litT_neg (σ : Nat → Bool) {x : Int} (h : x ≠ 0) : litT σ (-x) = !litT σ x := by
  unfold litT
  rw [Int.natAbs_neg]
  by_cases h1 : 0 < x
  · rw [if_pos h1, if_neg (by omega)]
  · rw [if_neg h1, if_pos (by omega), Bool.not_not]

/-- The clause is satisfied. -/
def satC (σ : Nat → Bool) (c : List Int) : Prop := ∃ x ∈ c, litT σ x = true

theorem satC_perm {σ : Nat → Bool} {c d : List Int} (h : c.Perm d) : satC σ c ↔ satC σ d := by
  simp only [satC, h.mem_iff]

/-- The literals on the stack are the false ones, and each has a reason before it or is assumed (`A`). -/
structure TInv (b : Nat) (A : Int → Prop) (S : T) : Prop where
  fs : ∀ x, S.fals x ≠ 0 ↔ x ∈ S.stack
  asm : ∀ x ∈ S.stack, S.reason x.natAbs = none → A x
  why : ∀ p x i, S.stack[p]? = some x → S.reason x.natAbs = some i → i < b ∧ ∃ tl, S.cl i = -x :: tl ∧ ∀ y ∈ tl, y ∈ S.stack.take p

structure Inv (c0 : Nat → List Int) (b : Nat) (rm : List Nat) (A : Int → Prop) (S : T) : Prop where
  wf : Wf c0 b rm S
  inv : TInv b A S
  ri : ∀ v c, S.reason v = some c → c ∉ rm

/-- What holds in the first pass only. -/
structure Fw (S : T) : Prop where
  nd : S.stack.Nodup
  rs : ∀ v c, S.reason v = some c → ∃ x ∈ S.stack, x.natAbs = v

/-- What propagation changes. -/
structure Grow (S S' : T) : Prop where
  pre : S.stack <+: S'.stack
  mark : S'.mark = S.mark
  forced : S'.forced = S.forced
  rs : ∀ x ∈ S.stack, S'.reason x.natAbs = S.reason x.natAbs
  tr : ∀ l, -l ∈ S.stack → l ∉ S.stack → l ∉ S'.stack
  fw : Fw S → Fw S'

theorem Grow.refl (S : T) : Grow S S := ⟨List.prefix_refl _, rfl, rfl, fun _ _ => rfl, fun _ _ h => h, id⟩

theorem Grow.trans {S S' S'' : T} (h : Grow S S') (h' : Grow S' S'') : Grow S S'' :=
  ⟨h.pre.trans h'.pre, h'.mark.trans h.mark, h'.forced.trans h.forced, fun x hx => (h'.rs x (h.pre.subset hx)).trans (h.rs x hx),
    fun l h1 h2 => h'.tr l (h.pre.subset h1) (h.tr l h1 h2), fun hf => h'.fw (h.fw hf)⟩

variable {c0 : Nat → List Int} {b : Nat} {rm : List Nat} {A : Int → Prop} {S S' : T}

theorem mem_take_of_mem {l l' : List Int} {p : Nat} {y : Int} (h : y ∈ l.take p) : y ∈ (l ++ l').take p := by
  rw [List.take_append]
  exact List.mem_append_left _ h

theorem set_perm {rest : List Int} {j : Nat} (h : j < rest.length) (x : Int) : (rest[j] :: rest.set j x).Perm (x :: rest) := by
  induction rest generalizing j with
  | nil => simp at h
  | cons a l ih =>
    cases j with
    | zero => simpa using List.Perm.swap _ _ _
    | succ j =>
      simp only [List.getElem_cons_succ, List.set_cons_succ]
      have := ih (j := j) (by simpa using h)
      exact (List.Perm.swap _ _ _).trans ((this.cons a).trans (List.Perm.swap _ _ _))

/-- The order of the literals of a clause that is not a reason may change. -/
theorem TInv.setCl (h : TInv b A S) {i : Nat} {c : List Int} {w : Int → List (Nat × Bool)} (hi : ∀ x ∈ S.stack, ∀ tl, S.cl i ≠ -x :: tl) :
    TInv b A { S with cl := put S.cl i c, wl := w } := by
  refine ⟨h.fs, h.asm, fun p x j hp hr => ?_⟩
  obtain ⟨hj, tl, e, ht⟩ := h.why p x j hp hr
  have : j ≠ i := by rintro rfl; exact hi x (List.mem_of_getElem? hp) tl e
  exact ⟨hj, tl, by simpa [put_ne _ _ this] using e, ht⟩

theorem natAbs_cases {a x : Int} (h : a.natAbs = x.natAbs) : a = x ∨ a = -x := Int.natAbs_eq_natAbs_iff.1 h

/-- A literal that is forced. -/
theorem TInv.force (h : TInv b A S) {i : Nat} {a : Int} {tl : List Int} (hi : i < b) (hc : S.cl i = a :: tl) (ht : ∀ y ∈ tl, y ∈ S.stack) (h1 : S.fals a = 0) (h2 : S.fals (-a) = 0) :
    TInv b A { assign a S with reason := put S.reason a.natAbs (some i) } ∧
      ∀ x ∈ S.stack, put S.reason a.natAbs (some i) x.natAbs = S.reason x.natAbs := by
  have hv : ∀ x ∈ S.stack, x.natAbs ≠ a.natAbs := by
    intro x hx e
    have hx' := (h.fs x).2 hx
    rcases natAbs_cases e with rfl | rfl
    · exact hx' h1
    · exact hx' h2
  have hr : ∀ x ∈ S.stack, put S.reason a.natAbs (some i) x.natAbs = S.reason x.natAbs := fun x hx => put_ne _ _ (hv x hx)
  refine ⟨⟨fun x => ?_, fun x hx hn => ?_, fun p x j hp hj => ?_⟩, hr⟩
  · show put S.fals (-a) 1 x ≠ 0 ↔ x ∈ S.stack ++ [-a]
    by_cases e : x = -a
    · simp [e]
    · rw [put_ne _ _ e, h.fs]; simp [e]
  · have hx : x ∈ S.stack ++ [-a] := hx
    have hn : put S.reason a.natAbs (some i) x.natAbs = none := hn
    rcases List.mem_append.1 hx with hx | hx
    · rw [hr x hx] at hn; exact h.asm x hx hn
    · rw [List.mem_singleton.1 hx, Int.natAbs_neg, put_same] at hn; cases hn
  · have hp : (S.stack ++ [-a])[p]? = some x := hp
    have hj : put S.reason a.natAbs (some i) x.natAbs = some j := hj
    show j < b ∧ ∃ tl, S.cl j = -x :: tl ∧ ∀ y ∈ tl, y ∈ (S.stack ++ [-a]).take p
    by_cases hl : p < S.stack.length
    · rw [List.getElem?_append_left hl] at hp
      rw [hr x (List.mem_of_getElem? hp)] at hj
      obtain ⟨q, tl, e, ht⟩ := h.why p x j hp hj
      exact ⟨q, tl, e, fun y hy => mem_take_of_mem (ht y hy)⟩
    · have : p = S.stack.length := by
        have := (List.getElem?_eq_some_iff.1 hp).1
        simp at this; omega
      subst this
      simp at hp
      subst hp
      rw [Int.natAbs_neg, put_same] at hj
      injection hj with hj
      subst hj
      exact ⟨hi, tl, by simpa using hc, fun y hy => by simpa using ht y hy⟩

/-- What the loop over the watches returns. -/
def ScanOk (c0 : Nat → List Int) (b : Nat) (rm : List Nat) (A : Int → Prop) (S : T) : Scan → Prop
  | .done S' => Inv c0 b rm A S' ∧ Grow S S'
  | .flip S' _ => Inv c0 b rm A S' ∧ Grow S S'
  | .confl i S' => Inv c0 b rm A S' ∧ Grow S S' ∧ i < b ∧ 2 ≤ (S'.cl i).length ∧ ∀ y ∈ S'.cl i, y ∈ S'.stack

theorem ScanOk.mono {S S' : T} (g : Grow S S') {r : Scan} (h : ScanOk c0 b rm A S' r) : ScanOk c0 b rm A S r := by
  cases r with
  | done S'' => exact ⟨h.1, g.trans h.2⟩
  | flip S'' p => exact ⟨h.1, g.trans h.2⟩
  | confl i S'' => exact ⟨h.1, g.trans h.2.1, h.2.2⟩

/-- Another watch is chosen. -/
theorem Inv.move (h : Inv c0 b rm A S) {lit a y : Int} {i wp j : Nat} {bit : Bool} {rest : List Int} (e : (S.wl lit)[wp]? = some (i, bit))
    (hp : (a :: lit :: rest).Perm (S.cl i)) (ht2 : ((S.cl i).take 2).Perm [a, lit]) (hj : j < rest.length) (hy : rest[j] = y) (hyl : y ≠ lit) (hi : ∀ x ∈ S.stack, ∀ tl, S.cl i ≠ -x :: tl) :
    Inv c0 b rm A { S with
                cl := put S.cl i (a :: y :: rest.set j lit)
                wl := put (push S.wl y (i, bit)) lit (swapRemove (push S.wl y (i, bit) lit) wp) } := by
  have hpm : (a :: y :: rest.set j lit).Perm (S.cl i) := by
    refine List.Perm.trans ?_ hp
    refine List.Perm.cons a ?_
    have := set_perm hj lit
    rwa [hy] at this
  have hw : wp < (push S.wl y (i, bit) lit).length := by
    have := (List.getElem?_eq_some_iff.1 e).1
    unfold push
    rwa [put_ne _ _ hyl.symm]
  have hwe : (push S.wl y (i, bit) lit)[wp].1 = i := by
    have h1 := (List.getElem?_eq_some_iff.1 e).2
    have : push S.wl y (i, bit) lit = S.wl lit := put_ne _ _ hyl.symm
    simp only [this, h1]
  refine ⟨⟨fun k => ?_, fun k x => ?_⟩, h.inv.setCl hi, h.ri⟩
  · show (put S.cl i _ k).Perm (c0 k)
    by_cases hk : k = i
    · subst hk; rw [put_same]; exact hpm.trans (h.wf.perm k)
    · rw [put_ne _ _ hk]; exact h.wf.perm k
  · have h1 := wcount_swap hw x k
    rw [hwe, wcount_push] at h1
    have h2 := h.wf.cnt k x
    show wcount (put (push S.wl y (i, bit)) lit (swapRemove (push S.wl y (i, bit) lit) wp)) x k ≤ if k < b ∧ k ∉ rm ∧ 2 ≤ (put S.cl i (a :: y :: rest.set j lit) k).length then
      ((put S.cl i (a :: y :: rest.set j lit) k).take 2).count x else 0
    by_cases hk : k = i
    · subst hk
      rw [put_same]
      rw [hpm.length_eq]
      split at h2
      · rename_i hh
        rw [if_pos hh]
        rw [ht2.count_eq] at h2
        simp only [List.take_succ_cons, List.take_zero, List.count_cons, List.count_nil, and_true, beq_iff_eq, eq_comm (b := x)] at h1 h2 ⊢
        omega
      · rename_i hh
        rw [if_neg hh]
        exfalso
        obtain ⟨e1, e2, y', z', r', e3, _⟩ := h.wf.entry e
        exact hh ⟨e1, e2, by rw [e3]; simp⟩
    · rw [put_ne _ _ hk]
      simp only [hk, and_false, if_false, Nat.add_zero] at h1
      omega

theorem scan_ok {check : Bool} {lit : Int} : ∀ {fuel wp : Nat} {S : T} {r : Scan}, Inv c0 b rm A S → lit ∈ S.stack → scan check lit fuel wp S = some r → ScanOk c0 b rm A S r := by
  intro fuel
  induction fuel with
  | zero => intro wp S r h hl e; cases e
  | succ fuel ih =>
    intro wp S r h hl e
    unfold scan at e
    split at e
    · injection e with e; subst e; exact ⟨h, Grow.refl S⟩
    · rename_i i bit e1
      split at e
      · exact ih h hl e
      · obtain ⟨hib, hirm, a, c, rest, ec, hlit⟩ := h.wf.entry e1
        rw [ec] at e
        simp only at e
        split at e
        · exact ih h hl e
        · rename_i hnt
          obtain ⟨hna, hnc⟩ := not_or.1 hnt
          simp only [ne_eq, Decidable.not_not] at hna hnc
          have hnr : ∀ x ∈ S.stack, ∀ tl, S.cl i ≠ -x :: tl := by
            intro x hx tl e'
            rw [ec] at e'
            injection e' with e' _
            subst e'
            rw [Int.neg_neg] at hna
            exact (h.inv.fs x).2 hx hna
          -- the other watched literal
          generalize hf : (if a = lit then c else a) = f at e
          have hfl : [f, lit].Perm [a, c] := by
            by_cases hal : a = lit
            · rw [if_pos hal] at hf; subst hf hal; exact List.Perm.swap _ _ _
            · rw [if_neg hal] at hf
              rcases hlit with hlit | hlit
              · exact absurd hlit.symm hal
              · subst hf hlit; exact List.Perm.refl _
          have hnf : S.fals (-f) = 0 := by
            rcases (by split at hf <;> simp [hf] : f = c ∨ f = a) with rfl | rfl
            · exact hnc
            · exact hna
          have hperm : (f :: lit :: rest).Perm (S.cl i) := by rw [ec]; exact hfl.append_right rest
          have htake : ((S.cl i).take 2).Perm [f, lit] := by rw [ec]; exact hfl.symm
          split at e
          · rename_i j ej
            obtain ⟨hj, hjf, _⟩ := List.findIdx?_eq_some_iff_getElem.1 ej
            have hg : rest.getD j 0 = rest[j] := by simp [List.getD, hj]
            rw [hg] at e
            have hy : rest[j] ≠ lit := by
              intro e'
              have : S.fals rest[j] = 0 := by simpa using hjf
              rw [e'] at this
              exact (h.inv.fs lit).2 hl this
            refine ScanOk.mono ?_ (ih (h.move e1 hperm htake hj rfl hy hnr) hl e)
            exact ⟨List.prefix_refl _, rfl, rfl, fun _ _ => rfl, fun _ _ h => h, fun hf => ⟨hf.nd, hf.rs⟩⟩
          · rename_i ej
            have hrest : ∀ y ∈ rest, y ∈ S.stack := by
              intro y hy
              have := List.findIdx?_eq_none_iff.1 ej y hy
              exact (h.inv.fs y).1 (by simpa using this)
            -- the state with the new order of the literals
            have h' : Inv c0 b rm A { S with cl := put S.cl i (f :: lit :: rest) } := by
              refine ⟨⟨fun k => ?_, fun k x => ?_⟩, h.inv.setCl hnr, h.ri⟩
              · show (put S.cl i _ k).Perm (c0 k)
                by_cases hk : k = i
                · subst hk; rw [put_same]; exact hperm.trans (h.wf.perm k)
                · rw [put_ne _ _ hk]; exact h.wf.perm k
              · have h2 := h.wf.cnt k x
                show wcount S.wl x k ≤ if k < b ∧ k ∉ rm ∧ 2 ≤ (put S.cl i (f :: lit :: rest) k).length then ((put S.cl i (f :: lit :: rest) k).take 2).count x else 0
                by_cases hk : k = i
                · subst hk
                  rw [put_same, hperm.length_eq]
                  have e3 : List.take 2 (f :: lit :: rest) = [f, lit] := rfl
                  rw [e3, ← htake.count_eq]
                  exact h2
                · rw [put_ne _ _ hk]; exact h2
            have htl : ∀ y ∈ lit :: rest, y ∈ S.stack := by
              intro y hy
              rcases List.mem_cons.1 hy with rfl | hy
              · exact hl
              · exact hrest y hy
            split at e
            · rename_i hff
              obtain ⟨h1, h2⟩ := h'.inv.force (i := i) (a := f) (tl := lit :: rest) hib (by simp) htl hff hnf
              have hI : Inv c0 b rm A { assign f S with cl := put S.cl i (f :: lit :: rest), reason := put S.reason f.natAbs (some i) } := by
                refine ⟨⟨h'.wf.perm, h'.wf.cnt⟩, h1, fun v c hv => ?_⟩
                by_cases hv' : v = f.natAbs
                · subst hv'
                  have : c = i := by simpa [eq_comm] using hv
                  subst this
                  exact hirm
                · have hv : put S.reason f.natAbs (some i) v = some c := hv
                  rw [put_ne _ _ hv'] at hv
                  exact h.ri v c hv
              have hnm : f ∉ S.stack ∧ -f ∉ S.stack := ⟨fun hm => (h.inv.fs f).2 hm hff, fun hm => (h.inv.fs (-f)).2 hm hnf⟩
              have hG : Grow S { assign f S with cl := put S.cl i (f :: lit :: rest), reason := put S.reason f.natAbs (some i) } := by
                refine ⟨List.prefix_append _ _, rfl, rfl, h2, fun l h3 h4 h5 => ?_, fun hf => ⟨?_, fun v c hv => ?_⟩⟩
                · have h5 : l ∈ S.stack ++ [-f] := h5
                  rcases List.mem_append.1 h5 with h5 | h5
                  · exact h4 h5
                  · rw [List.mem_singleton.1 h5, Int.neg_neg] at h3
                    exact hnm.1 h3
                · show (S.stack ++ [-f]).Nodup
                  rw [List.nodup_append]
                  refine ⟨hf.nd, by simp, fun x hx y hy e' => ?_⟩
                  rw [List.mem_singleton.1 hy] at e'
                  exact hnm.2 (e' ▸ hx)
                · show ∃ x ∈ S.stack ++ [-f], x.natAbs = v
                  have hv : put S.reason f.natAbs (some i) v = some c := hv
                  by_cases hv' : v = f.natAbs
                  · exact ⟨-f, by simp, by rw [hv', Int.natAbs_neg]⟩
                  · rw [put_ne _ _ hv'] at hv
                    obtain ⟨x, hx, e'⟩ := hf.rs v c hv
                    exact ⟨x, List.mem_append_left _ hx, e'⟩
              split at e
              · exact ScanOk.mono hG (ih hI (hG.pre.subset hl) e)
              · injection e with e; subst e; exact ⟨hI, hG⟩
            · rename_i hff
              injection e with e
              subst e
              refine ⟨h', ⟨List.prefix_refl _, rfl, rfl, fun _ _ => rfl, fun _ _ h => h, fun hf => ⟨hf.nd, hf.rs⟩⟩, hib, by simp, fun y hy => ?_⟩
              have hy : y ∈ f :: lit :: rest := by simpa using hy
              rcases List.mem_cons.1 hy with rfl | hy
              · exact (h.inv.fs y).1 hff
              · exact htl y hy

/-- What propagation returns: the invariants hold, or a conflict was analyzed. -/
theorem prop_ok : ∀ {fuel : Nat} {S : T} {check : Bool} {s0 s1 : Nat} {last : Option (Int × Nat)} {S' : T} {r : Bool}, Inv c0 b rm A S → prop fuel S check s0 s1 last = some (S', r) →
    (r = true → Inv c0 b rm A S' ∧ Grow S S' ∧ S'.processed = S'.stack.length) ∧
    (r = false → ∃ S1 i, Inv c0 b rm A S1 ∧ Grow S S1 ∧ i < b ∧ 2 ≤ (S1.cl i).length ∧ (∀ y ∈ S1.cl i, y ∈ S1.stack) ∧ analyze i S1 = some S') := by
  intro fuel
  induction fuel with
  | zero => intro S check s0 s1 last S' r h e; cases e
  | succ fuel ih =>
    intro S check s0 s1 last S' r h e
    unfold prop at e
    split at e
    · rename_i lit el
      split at e
      · cases e
      · rename_i S1 e1
        obtain ⟨h1, g1⟩ := scan_ok h (List.mem_of_getElem? el) e1
        obtain ⟨i1, i2⟩ := ih h1 e
        refine ⟨fun hr => ⟨(i1 hr).1, g1.trans (i1 hr).2.1, (i1 hr).2.2⟩, fun hr => ?_⟩
        obtain ⟨S2, i, k1, k2, k3⟩ := i2 hr
        exact ⟨S2, i, k1, g1.trans k2, k3⟩
      · rename_i S1 p e1
        obtain ⟨h1, g1⟩ := scan_ok h (List.mem_of_getElem? el) e1
        obtain ⟨i1, i2⟩ := ih h1 e
        refine ⟨fun hr => ⟨(i1 hr).1, g1.trans (i1 hr).2.1, (i1 hr).2.2⟩, fun hr => ?_⟩
        obtain ⟨S2, i, k1, k2, k3⟩ := i2 hr
        exact ⟨S2, i, k1, g1.trans k2, k3⟩
      · rename_i i S1 e1
        obtain ⟨h1, g1, h2⟩ := scan_ok h (List.mem_of_getElem? el) e1
        obtain ⟨S2, e2, e3⟩ := Option.map_eq_some_iff.1 e
        injection e3 with e3 e4
        subst e3 e4
        exact ⟨nofun, fun _ => ⟨S1, i, h1, g1, h2.1, h2.2.1, h2.2.2, e2⟩⟩
    · split at e
      · exact ih h e
      · injection e with e
        injection e with e e'
        subst e e'
        refine ⟨fun _ => ⟨⟨⟨h.wf.perm, h.wf.cnt⟩, ⟨h.inv.fs, h.inv.asm, h.inv.why⟩, h.ri⟩, ⟨List.prefix_refl _, rfl, rfl, fun _ _ => rfl, fun _ _ h => h, fun hf => ⟨hf.nd, hf.rs⟩⟩, rfl⟩, nofun⟩

end Verif.Drup
