import Verif.F.Factor
import Verif.DS.UbTree
/-
Model of src/operations/transformations/subsumption.rs.  `o` is the outer operator: conjunction for CNF, disjunction
for DNF (the two functions of the file are dual).
-/
namespace Verif
open ER

section
variable {α : Type} [LinearOrder α]

/-- `BTreeSet::insert` on the ascending list of its elements. -/
def bIns (a : α) : List α → List α
  | [] => [a]
  | b :: l => if a < b then a :: b :: l else if a = b then b :: l else b :: bIns a l

/-- Collecting into a `BTreeSet`. -/
def bSet (l : List α) : List α := l.foldr bIns []

theorem mem_bIns {a x : α} {l : List α} : x ∈ bIns a l ↔ x = a ∨ x ∈ l := by
  induction l with
  | nil => simp [bIns]
  | cons b l ih =>
    unfold bIns
    split
    · simp
    · split
      · rename_i _ e; subst e; simp
      · simp [ih]; constructor
        · rintro (h | h | h)
          · exact .inr (.inl h)
          · exact .inl h
          · exact .inr (.inr h)
        · rintro (h | h | h)
          · exact .inr (.inl h)
          · exact .inl h
          · exact .inr (.inr h)

theorem sorted_bIns {a : α} {l : List α} (h : l.Pairwise (· < ·)) : (bIns a l).Pairwise (· < ·) := by
  induction l with
  | nil => simp [bIns]
  | cons b l ih =>
    have hc := List.pairwise_cons.1 h
    unfold bIns
    split
    · rename_i hab
      refine List.pairwise_cons.2 ⟨fun x hx => ?_, h⟩
      rcases List.mem_cons.1 hx with rfl | hx
      · exact hab
      · exact lt_trans hab (hc.1 x hx)
    · split
      · exact h
      · rename_i h1 h2
        refine List.pairwise_cons.2 ⟨fun x hx => ?_, ih hc.2⟩
        rcases mem_bIns.1 hx with rfl | hx
        · exact lt_of_le_of_ne (le_of_not_gt h1) (Ne.symm h2)
        · exact hc.1 x hx

theorem mem_bSet {x : α} {l : List α} : x ∈ bSet l ↔ x ∈ l := by
  induction l with
  | nil => simp [bSet]
  | cons a l ih =>
    have e : bSet (a :: l) = bIns a (bSet l) := rfl
    rw [e, mem_bIns, ih]; simp

theorem sorted_bSet (l : List α) : (bSet l).Pairwise (· < ·) := by
  induction l with
  | nil => exact List.Pairwise.nil
  | cons a l ih => exact sorted_bIns ih

theorem bsorted_nodup {l : List α} (h : l.Pairwise (· < ·)) : l.Nodup := h.imp fun h => ne_of_lt h

/-- Grouping by size in a `BTreeMap`, subsumption.rs:51-55, and reading the groups in ascending order, 57-58. -/
def bySize (ss : List (List α)) : List (List α) :=
  (List.range ((ss.map List.length).foldr max 0 + 1)).flatMap fun k => ss.filter fun s => s.length = k

theorem le_foldr_max (ns : List Nat) : ∀ n ∈ ns, n ≤ ns.foldr max 0 := by
  induction ns with
  | nil => simp
  | cons m ns ih =>
    intro n hn
    simp only [List.foldr_cons]
    rcases List.mem_cons.1 hn with rfl | hn
    · exact Nat.le_max_left ..
    · exact Nat.le_trans (ih n hn) (Nat.le_max_right ..)

theorem mem_bySize {ss : List (List α)} {s : List α} : s ∈ bySize ss ↔ s ∈ ss := by
  simp only [bySize, List.mem_flatMap, List.mem_range, List.mem_filter, decide_eq_true_iff]
  constructor
  · rintro ⟨_, _, h, _⟩; exact h
  · intro h; exact ⟨s.length, Nat.lt_succ_of_le (le_foldr_max _ _ (List.mem_map.2 ⟨s, h, rfl⟩)), h, rfl⟩

theorem bySize_sorted (ss : List (List α)) : (bySize ss).Pairwise fun s t => s.length ≤ t.length := by
  unfold bySize
  generalize (ss.map List.length).foldr max 0 + 1 = n
  induction n with
  | zero => simp
  | succ n ih =>
    rw [List.range_succ, List.flatMap_append, List.pairwise_append]
    refine ⟨ih, ?_, ?_⟩
    · simp only [List.flatMap_cons, List.flatMap_nil, List.append_nil]
      rw [List.pairwise_iff_forall_sublist]
      intro a b hs
      have ha := hs.subset (a := a) (by simp)
      have hb := hs.subset (a := b) (by simp)
      simp only [List.mem_filter, decide_eq_true_iff] at ha hb
      omega
    · intro a ha b hb
      simp only [List.mem_flatMap, List.mem_range, List.mem_filter, decide_eq_true_iff, List.mem_singleton, exists_eq_left] at ha hb
      obtain ⟨k, hk, _, h⟩ := ha
      omega

/-- The insertion loop, subsumption.rs:57-63. -/
def subLoop (ord : List Nat → List Nat) : List (List α) → UbTree α → Option (UbTree α)
  | [], t => some t
  | s :: ss, t =>
    match t.firstSubset ord s with
    | none => none
    | some (some _) => subLoop ord ss t
    | some none =>
      match t.addSet s with
      | none => none
      | some t => subLoop ord ss t

theorem subLoop_ok (ord : List Nat → List Nat) (hord : ∀ l n, n ∈ ord l ↔ n ∈ l) : ∀ (ss : List (List α)) {t : UbTree α} {W K}, UbTree.Inv t W K →
    (∀ s ∈ ss, s.Pairwise (· < ·) ∧ s ≠ []) → ss.Pairwise (fun s t => s.length ≤ t.length) → (∀ x, K x → x.Pairwise (· < ·) ∧ ∀ s ∈ ss, x.length ≤ s.length) →
    (∀ x y, K x → K y → (∀ a ∈ x, a ∈ y) → x = y) →
    ∃ t' W' K', subLoop ord ss t = some t' ∧ UbTree.Inv t' W' K' ∧ (∀ x, K x → K' x) ∧ (∀ x, K' x → K x ∨ x ∈ ss) ∧
      (∀ x y, K' x → K' y → (∀ a ∈ x, a ∈ y) → x = y) ∧ (∀ s ∈ ss, ∃ x, K' x ∧ ∀ a ∈ x, a ∈ s) := by
  intro ss
  induction ss with
  | nil => intro t W K h _ _ _ ha; exact ⟨t, W, K, rfl, h, fun _ h => h, fun _ h => .inl h, ha, by simp⟩
  | cons s ss ih =>
    intro t W K h hs hsz hK ha
    have hsz' := List.pairwise_cons.1 hsz
    obtain ⟨hss, hsne⟩ := hs s (by simp)
    obtain ⟨r, er, hr⟩ := UbTree.firstSubset_ok ord hord h hss
    cases r with
    | some x =>
      obtain ⟨t', W', K', e, h', k1, k2, k3, k4⟩ := ih h (fun s hs' => hs s (by simp [hs'])) hsz'.2 (fun x hx => ⟨(hK x hx).1, fun s hs' => (hK x hx).2 s (by simp [hs'])⟩) ha
      refine ⟨t', W', K', by simp only [subLoop, er, e], h', k1, fun y hy => (k2 y hy).imp id (fun h => by simp [h]), k3, fun s' hs' => ?_⟩
      rcases List.mem_cons.1 hs' with rfl | hs'
      · exact ⟨x, k1 x hr.1, hr.2⟩
      · exact k4 s' hs'
    | none =>
      obtain ⟨t1, W1, e1, h1⟩ := UbTree.addSet_ok h hss
      obtain ⟨t', W', K', e, h', k1, k2, k3, k4⟩ := ih h1 (fun s hs' => hs s (by simp [hs'])) hsz'.2 (by
        rintro x (hx | ⟨rfl, _⟩)
        · exact ⟨(hK x hx).1, fun s hs' => (hK x hx).2 s (by simp [hs'])⟩
        · exact ⟨hss, hsz'.1⟩) (by
        rintro x y (hx | ⟨rfl, _⟩) (hy | ⟨rfl, _⟩) hsub
        · exact ha x y hx hy hsub
        · exact absurd hsub (hr x hx)
        · exfalso
          refine hr y hy ?_
          have hp := ((bsorted_nodup hss).subperm hsub).perm_of_length_le ((hK y hy).2 x (by simp))
          exact fun a ha => hp.symm.subset ha
        · rfl)
      refine ⟨t', W', K', by simp only [subLoop, er, e1, e], h', fun x hx => k1 x (.inl hx), fun y hy => ?_, k3, fun s' hs' => ?_⟩
      · rcases k2 y hy with (h | ⟨rfl, _⟩) | h
        · exact .inl h
        · exact .inr (by simp)
        · exact .inr (by simp [h])
      · rcases List.mem_cons.1 hs' with rfl | hs'
        · exact ⟨s', k1 s' (.inr ⟨rfl, hsne⟩), fun _ h => h⟩
        · exact k4 s' hs'

end

/-- `cnf_subsumption` (`o = conj`), subsumption.rs:14-27, and `dnf_subsumption` (`o = disj`), 35-48.  `isNf` is the
answer of `is_cnf`/`is_dnf`; `none` is a panic.  `ord` is the hash-set order inside the tree. -/
def subsume [LinearOrder Lit] (C : Canon) (ord : List Nat → List Nat) (o : Op) (isNf : Bool) (f : Formula) : Option Formula :=
  if isNf = false then none
  else
    match f with
    | .tru => some f
    | .fls => some f
    | .lit _ => some f
    | .nary o' fs =>
      if o' = o then
        match subLoop ord (bySize (fs.map fun t => bSet (fnLits.val t))) UbTree.new with
        | none => none
        | some t =>
          match t.allSets with
          | none => none
          | some ss => some (Formula.mkNary C o (ss.map fun s => Formula.mkNary C o.dual (s.map .lit)))
      else some f
    | _ => none

/-! ### Correctness -/

/-- A list of operands that `filter_flatten` leaves alone. -/
structure Ready (o : Op) (fs : List Formula) : Prop where
  nodup : fs.Nodup
  notConst : ∀ f ∈ fs, f.isConst = false
  flat : ∀ f ∈ fs, ∀ gs, f ≠ .nary o gs
  noCompl : ∀ f ∈ fs, Formula.mkNot f ∉ fs

theorem addOp_new {o : Op} {f : Formula} {acc : List Formula} (hc : f.isConst = false) (hm : f ∉ acc) (hn : Formula.mkNot f ∉ acc) :
    Formula.addOp o f acc = some (acc ++ [f]) := by
  unfold Formula.addOp
  have h1 : Formula.containsComplement acc f = false := by rw [Formula.containsComplement_eq]; simpa using hn
  have h2 : f ≠ .tru := by rintro rfl; simp [Formula.isConst] at hc
  have h3 : f ≠ .fls := by rintro rfl; simp [Formula.isConst] at hc
  rw [if_neg h2, if_neg h3, h1, if_neg (by simp), if_neg hm]

theorem flat1_flat {o : Op} {f : Formula} (h : ∀ gs, f ≠ .nary o gs) (acc) : Formula.flat1 o f acc = Formula.addOp o f acc := by
  cases f with
  | nary o' fs =>
    unfold Formula.flat1
    rw [if_neg]
    rintro rfl; exact h fs rfl
  | _ => rfl

theorem flats_ready {o : Op} (fs : List Formula) : ∀ acc, Ready o (acc ++ fs) → Formula.flats o fs acc = some (acc ++ fs) := by
  induction fs with
  | nil => intro acc _; simp [Formula.flats]
  | cons f fs ih =>
    intro acc h
    have hn := List.nodup_append.1 h.nodup
    have h1 : Formula.flat1 o f acc = some (acc ++ [f]) := by
      rw [flat1_flat (h.flat f (by simp))]
      exact addOp_new (h.notConst f (by simp)) (fun hm => hn.2.2 f hm f (by simp) rfl) (fun hm => h.noCompl f (by simp) (by simp [hm]))
    simp only [Formula.flats, h1]
    rw [ih (acc ++ [f]) (by simpa using h)]; simp

theorem mkNary_ready (C : Canon) {o : Op} {fs : List Formula} (h : Ready o fs) :
    (fs = [] ∧ Formula.mkNary C o fs = Formula.neutral o) ∨ (∃ f, fs = [f] ∧ Formula.mkNary C o fs = f) ∨
    (2 ≤ fs.length ∧ Formula.mkNary C o fs = .nary o (C.ord o fs)) := by
  have e : Formula.flats o fs [] = some fs := flats_ready fs [] h
  unfold Formula.mkNary
  rw [e]
  rcases fs with _ | ⟨f, _ | ⟨g, l⟩⟩
  · exact .inl ⟨rfl, rfl⟩
  · exact .inr (.inl ⟨f, rfl, rfl⟩)
  · exact .inr (.inr ⟨by simp, rfl⟩)

/-- A set of literals without complementary pair. -/
def LitsOk (s : List Lit) : Prop := s ≠ [] ∧ s.Nodup ∧ ∀ l ∈ s, l.neg ∉ s

theorem LitsOk.ready {s : List Lit} (h : LitsOk s) (o : Op) : Ready o (s.map .lit) where
  nodup := h.2.1.map (fun a b e => by injection e)
  notConst f hf := by obtain ⟨l, _, rfl⟩ := List.mem_map.1 hf; rfl
  flat f hf gs := by obtain ⟨l, _, rfl⟩ := List.mem_map.1 hf; exact fun h => (nomatch h)
  noCompl f hf hc := by
    obtain ⟨l, hl, rfl⟩ := List.mem_map.1 hf
    obtain ⟨l', hl', e⟩ := List.mem_map.1 hc
    simp only [Formula.mkNot] at e; injection e with e
    exact h.2.2 l hl (e ▸ hl')

theorem occL_nary {l : Lit} {o : Op} {fs : List Formula} : OccL l (.nary o fs) ↔ ∃ f ∈ fs, OccL l f := by
  constructor
  · intro h
    cases h with
    | op h1 h2 => exact ⟨_, h1, h2⟩
  · rintro ⟨f, hf, h⟩; exact .op (by simpa [Formula.operands] using hf) h

theorem occL_lit {l m : Lit} : OccL l (.lit m) ↔ l = m := by
  constructor
  · intro h
    cases h with
    | lit => rfl
    | op h1 h2 => simp [Formula.operands] at h1
  · rintro rfl; exact .lit

/-- What the constructor makes of a set of literals. -/
theorem mkLits (C : Canon) {s : List Lit} (h : LitsOk s) (o : Op) :
    (∀ l, OccL l (Formula.mkNary C o (s.map .lit)) ↔ l ∈ s) ∧ (Formula.mkNary C o (s.map .lit)).isConst = false ∧
    ((∃ l, s = [l] ∧ Formula.mkNary C o (s.map .lit) = .lit l) ∨ ∃ gs, 2 ≤ s.length ∧ Formula.mkNary C o (s.map .lit) = .nary o gs) := by
  rcases mkNary_ready C (h.ready o) with ⟨e, _⟩ | ⟨f, e, e'⟩ | ⟨hl, e⟩
  · exact absurd (List.map_eq_nil_iff.1 e) h.1
  · obtain ⟨l, ls, rfl, e1, e2⟩ := List.map_eq_cons_iff.1 e
    have := List.map_eq_nil_iff.1 e2
    subst this; subst e1
    rw [e']
    refine ⟨fun l' => by rw [occL_lit]; simp, rfl, .inl ⟨l, rfl, rfl⟩⟩
  · rw [e]
    refine ⟨fun l => ?_, rfl, .inr ⟨_, by simpa using hl, rfl⟩⟩
    rw [occL_nary]
    constructor
    · rintro ⟨f, hf, hc⟩
      rw [(C.ord_perm o _).mem_iff] at hf
      obtain ⟨l', hl', rfl⟩ := List.mem_map.1 hf
      rw [occL_lit] at hc; exact hc ▸ hl'
    · intro hl
      exact ⟨.lit l, (C.ord_perm o _).mem_iff.2 (List.mem_map.2 ⟨l, hl, rfl⟩), .lit⟩

/-- The literal set of a clause of a normalised formula. -/
theorem clause_lits {o : Op} {f : Formula} (hn : f.Norm) (hc : IsCl o f) (h : f.isConst = false) [LinearOrder Lit] :
    LitsOk (bSet (fnLits.val f)) ∧ (∀ l, l ∈ bSet (fnLits.val f) ↔ OccL l f) ∧ ∀ l, bSet (fnLits.val f) = [l] → f = .lit l := by
  have hm : ∀ l, l ∈ bSet (fnLits.val f) ↔ OccL l f := fun l => by rw [mem_bSet]; exact (lits_val f).1 l
  have hnd := bsorted_nodup (sorted_bSet (fnLits.val f))
  cases hc with
  | tru => simp [Formula.isConst] at h
  | fls => simp [Formula.isConst] at h
  | lit l =>
    refine ⟨⟨List.ne_nil_of_mem ((hm l).2 .lit), hnd, fun a ha hb => ?_⟩, hm, fun a ha => ?_⟩
    · rw [hm, occL_lit] at ha hb
      subst ha; cases a; simp [Lit.neg] at hb
    · have := (hm a).1 (by rw [ha]; simp)
      rw [occL_lit] at this; rw [this]
  | @nary fs hl =>
    cases hn with
    | nary h2 hall hg =>
      refine ⟨⟨?_, hnd, fun a ha hb => ?_⟩, hm, fun a ha => ?_⟩
      · match fs, h2, hl, hm with
        | f :: _, _, hl, hm =>
          obtain ⟨l, rfl⟩ := hl f (by simp)
          exact List.ne_nil_of_mem ((hm l).2 (occL_nary.2 ⟨_, by simp, .lit⟩))
      · rw [hm, occL_nary] at ha hb
        obtain ⟨f, hf, hfa⟩ := ha
        obtain ⟨g, hg', hgb⟩ := hb
        obtain ⟨l, rfl⟩ := hl f hf
        obtain ⟨l', rfl⟩ := hl g hg'
        rw [occL_lit] at hfa hgb
        subst hfa; subst hgb
        exact hg.noLitCompl _ hf hg'
      · exfalso
        match fs, h2, hl, hm, hg with
        | f :: g :: _, _, hl, hm, hg =>
          obtain ⟨l, rfl⟩ := hl f (by simp)
          obtain ⟨l', rfl⟩ := hl g (by simp)
          have h1 := (hm l).2 (occL_nary.2 ⟨_, by simp, .lit⟩)
          have h2 := (hm l').2 (occL_nary.2 ⟨.lit l', by simp, .lit⟩)
          rw [ha] at h1 h2
          simp at h1 h2
          subst h1; subst h2
          have := hg.nodup
          simp at this

/-- The clauses of a CNF, the terms of a DNF (specification). -/
def Formula.parts (o : Op) (f : Formula) : List Formula :=
  match f with
  | .nary o' fs => if o' = o then fs else [f]
  | _ => [f]

/-- Clause (term) `c` subsumes `d` (specification). -/
def Subsumes (c d : Formula) : Prop := ∀ l, OccL l c → OccL l d

theorem parts_eval (o : Op) (σ : Asg) (f : Formula) : f.eval σ = o.eval σ (f.parts o) := by
  unfold Formula.parts
  cases f with
  | nary o' fs =>
    simp only
    split
    · rename_i e; subst e; rw [Formula.eval_nary]
    · rw [Op.eval_singleton]
  | _ => simp only [Op.eval_singleton]

theorem Op.eval_abs_iff (o : Op) (σ : Asg) (fs : List Formula) : o.eval σ fs = o.abs ↔ ∃ f ∈ fs, f.eval σ = o.abs := by
  induction fs with
  | nil => rw [Op.eval_nil]; cases o <;> simp [Op.abs]
  | cons f fs ih =>
    rw [Op.eval_cons]
    have : o.comb (f.eval σ) (o.eval σ fs) = o.abs ↔ f.eval σ = o.abs ∨ o.eval σ fs = o.abs := by
      cases o <;> cases f.eval σ <;> cases Op.eval _ σ fs <;> simp [Op.comb, Op.abs]
    rw [this, ih]; simp

theorem Op.dual_eval_abs (o : Op) (σ : Asg) (fs : List Formula) : o.dual.eval σ fs = o.abs ↔ ∀ f ∈ fs, f.eval σ = o.abs := by
  induction fs with
  | nil => rw [Op.eval_nil]; cases o <;> simp [Op.abs, Op.dual]
  | cons f fs ih =>
    rw [Op.eval_cons]
    have : o.dual.comb (f.eval σ) (o.dual.eval σ fs) = o.abs ↔ f.eval σ = o.abs ∧ o.dual.eval σ fs = o.abs := by
      cases o <;> cases f.eval σ <;> cases Op.eval _ σ fs <;> simp [Op.comb, Op.abs, Op.dual]
    rw [this, ih]; simp

/-- A non-constant clause is falsified (a term satisfied) iff all its literals are. -/
theorem clause_abs {o : Op} {f : Formula} (hc : IsCl o.dual f) (h : f.isConst = false) (σ : Asg) : f.eval σ = o.abs ↔ ∀ l, OccL l f → l.eval σ = o.abs := by
  cases hc with
  | tru => simp [Formula.isConst] at h
  | fls => simp [Formula.isConst] at h
  | lit l => simp only [occL_lit, forall_eq]; rfl
  | nary hl =>
    rw [Formula.eval_nary, Op.dual_eval_abs]
    constructor
    · intro h l hl'
      obtain ⟨f, hf, hfl⟩ := occL_nary.1 hl'
      obtain ⟨m, rfl⟩ := hl f hf
      rw [occL_lit] at hfl; subst hfl
      exact h _ hf
    · intro h f hf
      obtain ⟨m, rfl⟩ := hl f hf
      exact h m (occL_nary.2 ⟨_, hf, .lit⟩)

/-- What subsumption has to achieve (specification). -/
structure SubsumeOk (o : Op) (f g : Formula) : Prop where
  eval : ∀ σ, g.eval σ = f.eval σ
  norm : g.Norm
  shape : IsNf o g
  kept : ∀ c ∈ g.parts o, ∃ d ∈ f.parts o, ∀ l, OccL l c ↔ OccL l d
  dropped : ∀ d ∈ f.parts o, ∃ c ∈ g.parts o, Subsumes c d
  minimal : ∀ c ∈ g.parts o, ∀ d ∈ g.parts o, Subsumes c d → c = d

theorem dual_ne (o : Op) : o.dual ≠ o := by cases o <;> simp [Op.dual]

theorem subsume_ok [LinearOrder Lit] (C : Canon) (ord : List Nat → List Nat) (hord : ∀ l n, n ∈ ord l ↔ n ∈ l) (o : Op) {f : Formula} (hn : f.Norm) (hf : IsNf o f) :
    ∃ g, subsume C ord o true f = some g ∧ SubsumeOk o f g := by
  have triv : f.parts o = [f] → SubsumeOk o f f := fun e =>
    ⟨fun _ => rfl, hn, hf, fun c hc => ⟨c, hc, fun _ => Iff.rfl⟩, fun d hd => ⟨d, hd, fun _ h => h⟩, fun c hc d hd _ => by
      rw [e] at hc hd; simp at hc hd; rw [hc, hd]⟩
  unfold subsume
  rw [if_neg (by simp)]
  have self : ∀ o' fs, o' ≠ o → f = .nary o' fs → SubsumeOk o f f := by
    rintro o' fs ho rfl
    exact triv (by simp [Formula.parts, ho])
  cases f with
  | tru => exact ⟨_, rfl, triv rfl⟩
  | fls => exact ⟨_, rfl, triv rfl⟩
  | lit l => exact ⟨_, rfl, triv rfl⟩
  | not g => cases hf with | cl h => cases h
  | impl a b => cases hf with | cl h => cases h
  | equiv a b => cases hf with | cl h => cases h
  | cc c => cases hf with | cl h => cases h
  | pbc c => cases hf with | cl h => cases h
  | nary o' fs =>
    simp only
    by_cases ho : o' = o
    · subst ho
      rw [if_pos rfl]
      have hcl : ∀ f ∈ fs, IsCl o'.dual f := by
        cases hf with
        | cl h => cases o' <;> cases h
        | nary h => exact h
      cases hn with
      | nary h2 hall hg =>
        have hL : ∀ t ∈ fs, _ := fun t ht => clause_lits (o := o'.dual) (hall t ht) (hcl t ht) (hg.notConst t ht)
        obtain ⟨t, W, K, e, hinv, _, k2, k3, k4⟩ := subLoop_ok ord hord (bySize (fs.map fun t => bSet (fnLits.val t))) UbTree.Inv.new (by
          intro s hs
          rw [mem_bySize] at hs
          obtain ⟨t, ht, rfl⟩ := List.mem_map.1 hs
          exact ⟨sorted_bSet _, (hL t ht).1.1⟩) (bySize_sorted _) (by simp) (by simp)
        obtain ⟨ss, e2, hnd, hmem⟩ := UbTree.allSets_ok hinv
        simp only [e, e2]
        have hsrc : ∀ s ∈ ss, ∃ t ∈ fs, s = bSet (fnLits.val t) := by
          intro s hs
          rcases k2 s ((hmem s).1 hs) with h | h
          · exact h.elim
          · rw [mem_bySize] at h
            obtain ⟨t, ht, rfl⟩ := List.mem_map.1 h
            exact ⟨t, ht, rfl⟩
        have hok : ∀ s ∈ ss, LitsOk s := by
          intro s hs
          obtain ⟨t, ht, rfl⟩ := hsrc s hs
          exact (hL t ht).1
        have hmk : ∀ s ∈ ss, _ := fun s hs => mkLits C (hok s hs) o'.dual
        have hunit : ∀ s ∈ ss, ∀ l, s = [l] → Formula.lit l ∈ fs := by
          intro s hs l hl
          obtain ⟨t, ht, rfl⟩ := hsrc s hs
          exact (hL t ht).2.2 l hl ▸ ht
        have hinj : ∀ s ∈ ss, ∀ s' ∈ ss, (∀ l, l ∈ s → l ∈ s') → s = s' := fun s hs s' hs' h => k3 s s' ((hmem s).1 hs) ((hmem s').1 hs') h
        have hready : Ready o' (ss.map fun s => Formula.mkNary C o'.dual (s.map .lit)) := by
          refine ⟨?_, ?_, ?_, ?_⟩
          · rw [List.nodup_map_iff_inj_on hnd]
            intro s hs s' hs' he
            refine hinj s hs s' hs' fun l hl => ?_
            have := ((hmk s hs).1 l).2 hl
            rw [he] at this
            exact ((hmk s' hs').1 l).1 this
          · intro f hf
            obtain ⟨s, hs, rfl⟩ := List.mem_map.1 hf
            exact (hmk s hs).2.1
          · intro f hf gs
            obtain ⟨s, hs, rfl⟩ := List.mem_map.1 hf
            rcases (hmk s hs).2.2 with ⟨l, _, e⟩ | ⟨gs', _, e⟩
            · rw [e]; exact fun h => (nomatch h)
            · rw [e]; intro h; injection h with h; exact dual_ne _ h
          · intro f hf hc
            obtain ⟨s, hs, rfl⟩ := List.mem_map.1 hf
            obtain ⟨s', hs', e'⟩ := List.mem_map.1 hc
            rcases (hmk s hs).2.2 with ⟨l, el, e⟩ | ⟨gs, _, e⟩
            · rw [e] at e'
              simp only [Formula.mkNot] at e'
              rcases (hmk s' hs').2.2 with ⟨l', el', e''⟩ | ⟨gs', _, e''⟩
              · rw [e''] at e'; injection e' with e'
                have h1 := hunit s hs l el
                have h2 := hunit s' hs' l' el'
                rw [e'] at h2
                exact hg.noLitCompl l h1 h2
              · rw [e''] at e'; cases e'
            · rw [e] at e'
              simp only [Formula.mkNot] at e'
              rcases (hmk s' hs').2.2 with ⟨l', el', e''⟩ | ⟨gs', _, e''⟩
              · rw [e''] at e'; cases e'
              · rw [e''] at e'; cases e'
        have hssne : ss ≠ [] := by
          rintro rfl
          match fs, h2, k4 with
          | f :: _, _, k4 =>
            obtain ⟨x, hx, _⟩ := k4 (bSet (fnLits.val f)) (mem_bySize.2 (by simp))
            exact absurd ((hmem x).2 hx) (by simp)
        have hparts : ∀ c, c ∈ (Formula.mkNary C o' (ss.map fun s => Formula.mkNary C o'.dual (s.map .lit))).parts o' ↔ ∃ s ∈ ss, c = Formula.mkNary C o'.dual (s.map .lit) := by
          intro c
          have hmm : (c ∈ ss.map fun s => Formula.mkNary C o'.dual (s.map .lit)) ↔ ∃ s ∈ ss, c = Formula.mkNary C o'.dual (s.map .lit) := by
            rw [List.mem_map]
            constructor
            · rintro ⟨s, hs, rfl⟩; exact ⟨s, hs, rfl⟩
            · rintro ⟨s, hs, rfl⟩; exact ⟨s, hs, rfl⟩
          rw [← hmm]
          rcases mkNary_ready C hready with ⟨e, _⟩ | ⟨f, e, e'⟩ | ⟨_, e⟩
          · exact absurd (List.map_eq_nil_iff.1 e) hssne
          · rw [e', e]
            have : f.parts o' = [f] := by
              have hfl := hready.flat f (by rw [e]; simp)
              unfold Formula.parts
              cases f with
              | nary o2 gs =>
                simp only
                rw [if_neg]; rintro rfl; exact hfl gs rfl
              | _ => rfl
            rw [this]
          · rw [e]
            simp only [Formula.parts, if_true]
            exact (C.ord_perm o' _).mem_iff
        have hclause : ∀ s ∈ ss, IsCl o'.dual (Formula.mkNary C o'.dual (s.map .lit)) := fun s _ => isCl_mkNary C (by
          intro f hf; obtain ⟨l, _, rfl⟩ := List.mem_map.1 hf; exact .lit l)
        have hkept : ∀ s ∈ ss, ∃ d ∈ fs, ∀ l, OccL l (Formula.mkNary C o'.dual (s.map .lit)) ↔ OccL l d := by
          intro s hs
          obtain ⟨t, ht, hst⟩ := hsrc s hs
          exact ⟨t, ht, fun l => by rw [(hmk s hs).1 l, hst]; exact (hL t ht).2.1 l⟩
        have hdrop : ∀ d ∈ fs, ∃ s ∈ ss, Subsumes (Formula.mkNary C o'.dual (s.map .lit)) d := by
          intro d hd
          obtain ⟨x, hx, hsub⟩ := k4 _ (mem_bySize.2 (List.mem_map.2 ⟨d, hd, rfl⟩))
          have hxs := (hmem x).2 hx
          exact ⟨x, hxs, fun l hl => ((hL d hd).2.1 l).1 (hsub l (((hmk x hxs).1 l).1 hl))⟩
        have hfp : (Formula.nary o' fs).parts o' = fs := by simp [Formula.parts]
        refine ⟨_, rfl, ⟨?_, ?_, ?_, ?_, ?_, ?_⟩⟩
        · intro σ
          rw [parts_eval o' σ (Formula.nary o' fs), parts_eval o' σ (Formula.mkNary C o' _), hfp]
          have key : o'.eval σ ((Formula.mkNary C o' (ss.map fun s => Formula.mkNary C o'.dual (s.map .lit))).parts o') = o'.abs ↔ o'.eval σ fs = o'.abs := by
            rw [Op.eval_abs_iff, Op.eval_abs_iff]
            constructor
            · rintro ⟨c, hc, he⟩
              obtain ⟨s, hs, rfl⟩ := (hparts c).1 hc
              obtain ⟨d, hd, hcd⟩ := hkept s hs
              refine ⟨d, hd, (clause_abs (hcl d hd) (hg.notConst d hd) σ).2 fun l hl => ?_⟩
              exact (clause_abs (hclause s hs) (hmk s hs).2.1 σ).1 he l ((hcd l).2 hl)
            · rintro ⟨d, hd, he⟩
              obtain ⟨s, hs, hsub⟩ := hdrop d hd
              refine ⟨_, (hparts _).2 ⟨s, hs, rfl⟩, (clause_abs (hclause s hs) (hmk s hs).2.1 σ).2 fun l hl => ?_⟩
              exact (clause_abs (hcl d hd) (hg.notConst d hd) σ).1 he l (hsub l hl)
          generalize o'.eval σ ((Formula.mkNary C o' (ss.map fun s => Formula.mkNary C o'.dual (s.map .lit))).parts o') = a at key
          generalize o'.eval σ fs = b at key
          revert key
          cases o' <;> cases a <;> cases b <;> simp [Op.abs]
        · refine Formula.norm_mkNary C o' fun f hf => ?_
          obtain ⟨s, _, rfl⟩ := List.mem_map.1 hf
          exact Formula.norm_mkNary C _ fun f hf => by obtain ⟨l, _, rfl⟩ := List.mem_map.1 hf; exact .lit l
        · refine isNf_mkNary C _ fun f hf => ?_
          obtain ⟨s, hs, rfl⟩ := List.mem_map.1 hf
          exact .cl (hclause s hs)
        · intro c hc
          obtain ⟨s, hs, rfl⟩ := (hparts c).1 hc
          rw [hfp]; exact hkept s hs
        · intro d hd
          rw [hfp] at hd
          obtain ⟨s, hs, h⟩ := hdrop d hd
          exact ⟨_, (hparts _).2 ⟨s, hs, rfl⟩, h⟩
        · intro c hc d hd hsub
          obtain ⟨s, hs, rfl⟩ := (hparts c).1 hc
          obtain ⟨s', hs', rfl⟩ := (hparts d).1 hd
          have := hinj s hs s' hs' fun l hl => ((hmk s' hs').1 l).1 (hsub l (((hmk s hs).1 l).2 hl))
          rw [this]
    · rw [if_neg ho]
      exact ⟨_, rfl, self o' fs ho rfl⟩

end Verif
