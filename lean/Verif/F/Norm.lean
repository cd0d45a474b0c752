import Verif.F.Cons

/-
The shape of the formulas a factory builds: no trivial nodes, flattened n-ary operators,
proper constraints.
-/
namespace Verif

/-- Range of `i64`. -/
def I64 (x : Int) : Prop := -2 ^ 63 ≤ x ∧ x < 2 ^ 63

/-- A cardinality constraint as the factory stores it. -/
structure CC.Ok (c : CC) : Prop where
  ne : c.vars ≠ []
  rhs : c.rhs < 2 ^ 32
  isCc : Formula.isCc c.cmp c.rhs = true

/-- A pseudo-Boolean constraint as the factory stores it: not empty and not a cardinality
constraint. -/
structure PBC.Ok (p : PBC) : Prop where
  ne : p.terms ≠ []
  notCc : Formula.isLitCc p.cmp p.rhs p.terms = false
  rhs : I64 p.rhs
  coef : ∀ t ∈ p.terms, I64 t.2

namespace Formula

/-- What the operands of an n-ary node have to satisfy (specification of C05). -/
structure GoodOps (o : Op) (fs : List Formula) : Prop where
  nodup : fs.Nodup
  notConst : ∀ f ∈ fs, f.isConst = false
  flat : ∀ f ∈ fs, ∀ gs, f ≠ .nary o gs
  noLitCompl : ∀ l, Formula.lit l ∈ fs → Formula.lit l.neg ∉ fs
  noNotCompl : ∀ f, Formula.not f ∈ fs → f ∉ fs

/-- Formulas in the normal shape of the factory (specification). -/
inductive Norm : Formula → Prop
  | tru : Norm .tru
  | fls : Norm .fls
  | lit (l) : Norm (.lit l)
  | not {f} : Norm f → f.isConst = false → f.isLit = false → f.isNot = false → Norm (.not f)
  | impl {a b} : Norm a → Norm b → a.isConst = false → b.isConst = false → a ≠ b → Norm (.impl a b)
  | equiv {a b} : Norm a → Norm b → a.isConst = false → b.isConst = false → a ≠ b → Norm (.equiv a b)
  | nary {o fs} : 2 ≤ fs.length → (∀ f ∈ fs, Norm f) → GoodOps o fs → Norm (.nary o fs)
  | cc {c} : CC.Ok c → Norm (.cc c)
  | pbc {p} : PBC.Ok p → Norm (.pbc p)

theorem Norm.fits1 {f} (h : Norm f) : Fits1 f := by
  cases h with
  | cc h => exact h.rhs
  | @pbc p h =>
    intro h1 h2
    have := h.notCc
    simp only [isLitCc, Bool.and_eq_false_iff] at this
    rcases this with (h3 | h3) | h3
    · rw [List.all_eq_false] at h3; obtain ⟨t, ht, h4⟩ := h3; exact absurd (h1 t ht) h4
    · rw [List.all_eq_false] at h3; obtain ⟨t, ht, h4⟩ := h3; exact absurd (h2 t ht) (by simpa using h4)
    · revert h3; unfold isCc; split <;> intro h3 <;> rw [decide_eq_false_iff_not] at h3 <;> omega
  | _ => trivial

theorem norm_const (b) : Norm (const b) := by cases b <;> simp [const] <;> constructor

theorem norm_mkNot {f} (h : Norm f) : Norm (mkNot f) := by
  cases h with
  | tru => exact .fls
  | fls => exact .tru
  | lit l => exact .lit _
  | not h _ _ _ => exact h
  | impl h1 h2 h3 h4 h5 => exact .not (.impl h1 h2 h3 h4 h5) rfl rfl rfl
  | equiv h1 h2 h3 h4 h5 => exact .not (.equiv h1 h2 h3 h4 h5) rfl rfl rfl
  | nary h1 h2 h3 => exact .not (.nary h1 h2 h3) rfl rfl rfl
  | cc h => exact .not (.cc h) rfl rfl rfl
  | pbc h => exact .not (.pbc h) rfl rfl rfl

theorem mkNot_mkNot {f} (h : Norm f) : mkNot (mkNot f) = f := by
  cases h with
  | @not f h h1 h2 h3 => cases f <;> simp_all [mkNot, isConst, isLit, isNot]
  | _ => simp [mkNot]

/-! ### n-ary operators -/

theorem flat1_cases (o f acc) :
    (∃ fs, f = .nary o fs ∧ flat1 o f acc = flats o fs acc) ∨
    ((∀ fs, f ≠ .nary o fs) ∧ flat1 o f acc = addOp o f acc) := by
  cases f with
  | nary o' fs =>
    by_cases h : o' = o
    · subst h; exact .inl ⟨fs, rfl, by simp [flat1]⟩
    · refine .inr ⟨fun gs e => h ?_, by simp [flat1, h]⟩
      cases e; rfl
  | _ => exact .inr ⟨by simp, by simp [flat1]⟩

/-- Invariant of the operand list while `filter_flatten` runs. -/
structure AccOk (o : Op) (acc : List Formula) : Prop where
  norm : ∀ f ∈ acc, Norm f
  nodup : acc.Nodup
  notConst : ∀ f ∈ acc, f.isConst = false
  flat : ∀ f ∈ acc, ∀ gs, f ≠ .nary o gs
  compl : ∀ f ∈ acc, mkNot f ∉ acc

theorem AccOk.nil (o) : AccOk o [] := by constructor <;> simp

theorem addOp_ok {o f acc r} (h : AccOk o acc) (hf : Norm f) (hn : ∀ fs, f ≠ .nary o fs)
    (e : addOp o f acc = some r) : AccOk o r := by
  unfold addOp at e
  split at e
  · split at e
    · simp at e
    · cases e; exact h
  split at e
  · split at e
    · simp at e
    · cases e; exact h
  split at e
  · simp at e
  rename_i h1 h2 h3
  rw [containsComplement_eq] at h3
  split at e
  · cases e; exact h
  rename_i h4
  cases e
  have h3 : mkNot f ∉ acc := by simpa using h3
  have hself : mkNot f ≠ f := by
    intro e
    have := congrArg (Formula.eval fun _ => true) e
    simp at this
  constructor
  · intro g hg
    rcases List.mem_append.1 hg with hg | hg
    · exact h.norm g hg
    · rw [List.mem_singleton.1 hg]; exact hf
  · rw [List.nodup_append]
    refine ⟨h.nodup, by simp, ?_⟩
    intro a ha b hb e
    rw [List.mem_singleton.1 hb] at e; subst e; exact h4 ha
  · intro g hg
    rcases List.mem_append.1 hg with hg | hg
    · exact h.notConst g hg
    · rw [List.mem_singleton.1 hg]; cases f <;> simp_all [isConst]
  · intro g hg
    rcases List.mem_append.1 hg with hg | hg
    · exact h.flat g hg
    · rw [List.mem_singleton.1 hg]; exact hn
  · intro g hg hc
    rcases List.mem_append.1 hg with hg | hg <;> rcases List.mem_append.1 hc with hc | hc
    · exact h.compl g hg hc
    · have := List.mem_singleton.1 hc
      rw [← this, mkNot_mkNot (h.norm g hg)] at h3; exact h3 hg
    · rw [List.mem_singleton.1 hg] at hc; exact h3 hc
    · rw [List.mem_singleton.1 hg] at hc; exact hself (List.mem_singleton.1 hc)

theorem flats_ok_of {o} (fs : List Formula)
    (hf : ∀ f ∈ fs, ∀ acc r, AccOk o acc → flat1 o f acc = some r → AccOk o r) :
    ∀ acc r, AccOk o acc → flats o fs acc = some r → AccOk o r := by
  induction fs with
  | nil => intro acc r h e; simp [flats] at e; subst e; exact h
  | cons f fs ih =>
    intro acc r h e
    simp only [flats] at e
    cases e1 : flat1 o f acc with
    | none => simp [e1] at e
    | some acc' =>
      rw [e1] at e
      exact ih (fun g hg => hf g (by simp [hg])) acc' r (hf f (by simp) acc acc' h e1) e

theorem flat1_ok {o f} (hf : Norm f) : ∀ acc r, AccOk o acc → flat1 o f acc = some r → AccOk o r := by
  intro acc r h e
  rcases flat1_cases o f acc with ⟨fs, rfl, e'⟩ | ⟨hn, e'⟩
  · rw [e'] at e
    cases hf with
    | nary h2 hall hg =>
      refine flats_ok_of fs (fun g hgm acc r h e => ?_) acc r h e
      rcases flat1_cases o g acc with ⟨gs, rfl, _⟩ | ⟨hn, e'⟩
      · exact absurd rfl (hg.flat _ hgm gs)
      · rw [e'] at e; exact addOp_ok h (hall g hgm) hn e
  · rw [e'] at e; exact addOp_ok h hf hn e

theorem flats_ok {o fs acc r} (hf : ∀ f ∈ fs, Norm f) (h : AccOk o acc) (e : flats o fs acc = some r) : AccOk o r :=
  flats_ok_of fs (fun f hm => flat1_ok (hf f hm)) acc r h e

theorem AccOk.goodOps {o acc l} (h : AccOk o acc) (p : l.Perm acc) : GoodOps o l := by
  constructor
  · exact p.nodup_iff.2 h.nodup
  · exact fun f hf => h.notConst f (p.mem_iff.1 hf)
  · exact fun f hf => h.flat f (p.mem_iff.1 hf)
  · intro l hl hc; exact h.compl _ (p.mem_iff.1 hl) (by simpa [mkNot] using p.mem_iff.1 hc)
  · intro f hf hc; exact h.compl _ (p.mem_iff.1 hf) (by simpa [mkNot] using p.mem_iff.1 hc)

theorem norm_finish (C : Canon) {o r} (h : ∀ l, r = some l → AccOk o l) : Norm (finish C o r) := by
  match r with
  | none => cases o <;> constructor
  | some [] => cases o <;> constructor
  | some [f] => exact (h _ rfl).norm f (by simp)
  | some (f :: g :: l) =>
    have h := h _ rfl
    have p := C.ord_perm o (f :: g :: l)
    refine .nary ?_ (fun x hx => h.norm x (p.mem_iff.1 hx)) (h.goodOps p)
    rw [p.length_eq]; simp

theorem norm_mkNary (C : Canon) (o) {fs} (h : ∀ f ∈ fs, Norm f) : Norm (mkNary C o fs) :=
  norm_finish C fun _ e => flats_ok h (AccOk.nil o) e

theorem norm_mkClause (C : Canon) (c) : Norm (mkClause C c) :=
  norm_mkNary C _ (by simp only [List.mem_map]; rintro f ⟨l, _, rfl⟩; exact .lit l)

/-! ### Constraints -/

theorem norm_constructCc {c rhs vs} (h : isCc c rhs = true) (hr : rhs < 2 ^ 32) : Norm (constructCc c rhs vs) := by
  unfold constructCc
  split
  · exact norm_const _
  rename_i hne
  split
  · rename_i h0
    have e : rhs.toNat % 2 ^ 32 = rhs.toNat := Nat.mod_eq_of_lt (by omega)
    refine .cc ⟨hne, by simp only; omega, ?_⟩
    simp only [e, Int.toNat_of_nonneg h0, h]
  · exact .cc ⟨hne, by simp, by simp [isCc]⟩

theorem norm_mkCc {c rhs vs f} (hr : rhs < 2 ^ 32) (e : mkCc c rhs vs = some f) : Norm f := by
  unfold mkCc at e
  split at e
  · cases e; exact norm_constructCc ‹_› (by omega)
  · simp at e

theorem norm_mkPbc {c rhs ts} (h : RhsFits rhs ts) (hr : I64 rhs) (hc : ∀ t ∈ ts, I64 t.2) : Norm (mkPbc c rhs ts) := by
  unfold mkPbc
  split
  · exact norm_const _
  split
  · rename_i h0 h1
    have h2 := h1
    simp only [isLitCc, Bool.and_eq_true, List.all_eq_true, beq_iff_eq] at h2
    exact norm_constructCc h2.2 (h h2.1.1 h2.1.2)
  · rename_i h0 h1
    exact .pbc ⟨h0, by simpa using h1, hr, hc⟩

theorem norm_negCc (C : Canon) {c} (h : CC.Ok c) : Norm (negCc C c) := by
  have hp : ∀ cmp, Norm (mkPbc cmp (c.rhs : Int) (c.vars.map fun v => (v.p, (1 : Int)))) := fun cmp =>
    norm_mkPbc (rhsFits_cc _ _ h.rhs) (by have := h.rhs; unfold I64; omega) (by simp [I64])
  unfold negCc
  cases c.cmp
  · refine norm_mkNary C _ ?_
    intro f hf
    simp at hf; rcases hf with rfl | rfl <;> exact hp _
  all_goals exact hp _

theorem norm_negPbc (C : Canon) {p} (h : PBC.Ok p) : Norm (negPbc C p) := by
  have hp : ∀ cmp, Norm (mkPbc cmp p.rhs p.terms) := fun cmp =>
    norm_mkPbc (Norm.pbc h).fits1 h.rhs h.coef
  unfold negPbc
  cases p.cmp
  · refine norm_mkNary C _ ?_
    intro f hf
    simp at hf; rcases hf with rfl | rfl <;> exact hp _
  all_goals exact hp _

theorem norm_mkNeg (C : Canon) {f} (h : Norm f) : Norm (mkNeg C f) := by
  cases h with
  | cc h => exact norm_negCc C h
  | pbc h => exact norm_negPbc C h
  | tru => exact .fls
  | fls => exact .tru
  | lit l => exact .lit _
  | not h _ _ _ => exact h
  | impl h1 h2 h3 h4 h5 => exact norm_mkNot (.impl h1 h2 h3 h4 h5)
  | equiv h1 h2 h3 h4 h5 => exact norm_mkNot (.equiv h1 h2 h3 h4 h5)
  | nary h1 h2 h3 => exact norm_mkNot (.nary h1 h2 h3)

theorem isConst_of_ne {f : Formula} (h1 : f ≠ .tru) (h2 : f ≠ .fls) : f.isConst = false := by
  cases f <;> simp_all [isConst]

theorem norm_mkImpl (C : Canon) {l r} (hl : Norm l) (hr : Norm r) : Norm (mkImpl C l r) := by
  unfold mkImpl
  split
  · exact hr
  split
  · exact .tru
  split
  · exact norm_mkNot hl
  split
  · exact .tru
  split
  · exact hr
  · rename_i h1 h2 h3 h4 _
    exact .impl hl hr (isConst_of_ne h1 fun e => h2 (.inl e)) (isConst_of_ne (fun e => h2 (.inr e)) h3) h4

theorem norm_mkEquiv (C : Canon) {l r} (hl : Norm l) (hr : Norm r) : Norm (mkEquiv C l r) := by
  unfold mkEquiv
  split
  · exact hr
  split
  · exact norm_mkNot hr
  split
  · exact hl
  split
  · exact norm_mkNot hl
  split
  · exact .tru
  split
  · exact .fls
  rename_i h1 h2 h3 h4 h5 _
  split
  · exact .equiv hr hl (isConst_of_ne h3 h4) (isConst_of_ne h1 h2) (fun e => h5 e.symm)
  · exact .equiv hl hr (isConst_of_ne h1 h2) (isConst_of_ne h3 h4) h5

end Formula
end Verif
