import Verif.F.Norm

/-
Occurrence of variables, and what the constructors do to them.
-/
namespace Verif

/-- Variable `v` occurs in the formula (specification). -/
inductive Occ (v : Var) : Formula → Prop
  | lit (p) : Occ v (.lit ⟨v, p⟩)
  | not {f} : Occ v f → Occ v (.not f)
  | implL {a b} : Occ v a → Occ v (.impl a b)
  | implR {a b} : Occ v b → Occ v (.impl a b)
  | equivL {a b} : Occ v a → Occ v (.equiv a b)
  | equivR {a b} : Occ v b → Occ v (.equiv a b)
  | nary {o fs f} : f ∈ fs → Occ v f → Occ v (.nary o fs)
  | cc {c : CC} : v ∈ c.vars → Occ v (.cc c)
  | pbc {p : PBC} {t} : t ∈ p.terms → t.1.v = v → Occ v (.pbc p)

namespace Formula

@[simp] theorem occ_tru (v) : ¬ Occ v .tru := fun h => nomatch h
@[simp] theorem occ_fls (v) : ¬ Occ v .fls := fun h => nomatch h
@[simp] theorem occ_lit (v l) : Occ v (.lit l) ↔ l.v = v :=
  ⟨fun h => by cases h; rfl, fun h => by rcases l with ⟨u, p⟩; cases h; exact .lit p⟩
@[simp] theorem occ_not (v f) : Occ v (.not f) ↔ Occ v f := ⟨fun h => by cases h; assumption, .not⟩
@[simp] theorem occ_impl (v a b) : Occ v (.impl a b) ↔ Occ v a ∨ Occ v b :=
  ⟨fun h => by cases h; exacts [.inl ‹_›, .inr ‹_›], fun h => h.elim .implL .implR⟩
@[simp] theorem occ_equiv (v a b) : Occ v (.equiv a b) ↔ Occ v a ∨ Occ v b :=
  ⟨fun h => by cases h; exacts [.inl ‹_›, .inr ‹_›], fun h => h.elim .equivL .equivR⟩
@[simp] theorem occ_nary (v o fs) : Occ v (.nary o fs) ↔ ∃ f ∈ fs, Occ v f :=
  ⟨fun h => by cases h; exact ⟨_, ‹_›, ‹_›⟩, fun ⟨_, h1, h2⟩ => .nary h1 h2⟩
@[simp] theorem occ_cc (v c) : Occ v (.cc c) ↔ v ∈ c.vars := ⟨fun h => by cases h; assumption, .cc⟩
@[simp] theorem occ_pbc (v p) : Occ v (.pbc p) ↔ ∃ t ∈ p.terms, t.1.v = v :=
  ⟨fun h => by cases h; exact ⟨_, ‹_›, ‹_›⟩, fun ⟨_, h1, h2⟩ => .pbc h1 h2⟩

@[simp] theorem occ_const (v b) : ¬ Occ v (const b) := by cases b <;> simp [const]

theorem occ_mkNot {v f} : Occ v (mkNot f) ↔ Occ v f := by cases f <;> simp [mkNot, Lit.neg]

theorem occ_addOp {v o f acc r} (h : addOp o f acc = some r) (hr : ∃ g ∈ r, Occ v g) : Occ v f ∨ ∃ g ∈ acc, Occ v g := by
  unfold addOp at h
  split at h
  · split at h
    · simp at h
    · cases h; exact .inr hr
  split at h
  · split at h
    · simp at h
    · cases h; exact .inr hr
  split at h
  · simp at h
  split at h
  · cases h; exact .inr hr
  · cases h
    obtain ⟨g, hg, ho⟩ := hr
    rcases List.mem_append.1 hg with hg | hg
    · exact .inr ⟨g, hg, ho⟩
    · obtain rfl := List.mem_singleton.1 hg; exact .inl ho

theorem occ_flats_of {v o} (fs : List Formula)
    (h : ∀ f ∈ fs, ∀ acc r, flat1 o f acc = some r → (∃ g ∈ r, Occ v g) → Occ v f ∨ ∃ g ∈ acc, Occ v g) :
    ∀ acc r, flats o fs acc = some r → (∃ g ∈ r, Occ v g) → (∃ f ∈ fs, Occ v f) ∨ ∃ g ∈ acc, Occ v g := by
  induction fs with
  | nil => intro acc r e hr; simp only [flats, Option.some.injEq] at e; exact .inr (e ▸ hr)
  | cons f fs ih =>
    intro acc r e hr
    simp only [flats] at e
    split at e
    · simp at e
    · rename_i acc' he
      rcases ih (fun g hg => h g (by simp [hg])) acc' r e hr with ⟨g, hg, ho⟩ | h2
      · exact .inl ⟨g, by simp [hg], ho⟩
      · rcases h f (by simp) acc acc' he h2 with h3 | h3
        · exact .inl ⟨f, by simp, h3⟩
        · exact .inr h3

theorem occ_flat1 {v o} (f : Formula) : ∀ acc r, flat1 o f acc = some r → (∃ g ∈ r, Occ v g) → Occ v f ∨ ∃ g ∈ acc, Occ v g := by
  induction f using Formula.ind with
  | nary o' fs ih =>
    intro acc r e hr
    simp only [flat1] at e
    split at e
    · rcases occ_flats_of fs ih acc r e hr with h | h
      · exact .inl ((occ_nary ..).2 h)
      · exact .inr h
    · exact occ_addOp e hr
  | _ => intro acc r e hr; simp only [flat1] at e; exact occ_addOp e hr

theorem occ_mkNary {C : Canon} {v o fs} (h : Occ v (mkNary C o fs)) : ∃ f ∈ fs, Occ v f := by
  unfold mkNary finish at h
  split at h
  · cases o <;> simp [absorbing] at h
  · cases o <;> simp [neutral] at h
  · rename_i f e
    exact (occ_flats_of fs (fun f _ => occ_flat1 f) [] _ e ⟨f, by simp, h⟩).elim id (by simp)
  · rename_i l _ _ e
    obtain ⟨g, hg, ho⟩ := (occ_nary ..).1 h
    exact (occ_flats_of fs (fun f _ => occ_flat1 f) [] _ e ⟨g, (C.ord_perm o l).mem_iff.1 hg, ho⟩).elim id (by simp)

theorem occ_constructCc {v c rhs vs} (h : Occ v (constructCc c rhs vs)) : v ∈ vs := by
  unfold constructCc at h
  split at h
  · simp at h
  split at h <;> simpa using h

theorem occ_mkCc {v c rhs vs f} (e : mkCc c rhs vs = some f) (h : Occ v f) : v ∈ vs := by
  unfold mkCc at e
  split at e
  · cases e; exact occ_constructCc h
  · simp at e

theorem occ_mkPbc {v c rhs ts} (h : Occ v (mkPbc c rhs ts)) : ∃ t ∈ ts, t.1.v = v := by
  unfold mkPbc at h
  split at h
  · simp at h
  split at h
  · simpa using occ_constructCc h
  · simpa using h

theorem occ_mkNeg {C : Canon} {v f} (h : Occ v (mkNeg C f)) : Occ v f := by
  cases f with
  | pbc p =>
    rw [occ_pbc]
    rcases p with ⟨ts, c, k⟩
    cases c <;> simp only [mkNeg, negPbc] at h
    · obtain ⟨g, hg, ho⟩ := occ_mkNary h
      simp only [List.mem_cons, List.not_mem_nil, or_false] at hg
      rcases hg with rfl | rfl <;> exact occ_mkPbc ho
    all_goals exact occ_mkPbc h
  | cc c =>
    rw [occ_cc]
    have key : ∀ d k, Occ v (mkPbc d k (c.vars.map fun u => (u.p, (1 : Int)))) → v ∈ c.vars := by
      intro d k h
      obtain ⟨t, ht, rfl⟩ := occ_mkPbc h
      simp only [List.mem_map] at ht
      obtain ⟨u, hu, rfl⟩ := ht
      exact hu
    rcases c with ⟨vs, c, k⟩
    cases c <;> simp only [mkNeg, negCc] at h
    · obtain ⟨g, hg, ho⟩ := occ_mkNary h
      simp only [List.mem_cons, List.not_mem_nil, or_false] at hg
      rcases hg with rfl | rfl <;> exact key _ _ ho
    all_goals exact key _ _ h
  | lit l => simpa [mkNeg, Lit.neg] using h
  | _ => simpa [mkNeg, mkNot] using h

theorem occ_mkImpl {C : Canon} {v a b} (h : Occ v (mkImpl C a b)) : Occ v a ∨ Occ v b := by
  unfold mkImpl at h
  split at h
  · exact .inr h
  split at h
  · simp at h
  split at h
  · exact .inl (occ_mkNot.1 h)
  split at h
  · simp at h
  split at h
  · exact .inr h
  · simpa using h

theorem occ_mkEquiv {C : Canon} {v a b} (h : Occ v (mkEquiv C a b)) : Occ v a ∨ Occ v b := by
  unfold mkEquiv at h
  split at h
  · exact .inr h
  split at h
  · exact .inr (occ_mkNot.1 h)
  split at h
  · exact .inl h
  split at h
  · exact .inl (occ_mkNot.1 h)
  split at h
  · simp at h
  split at h
  · simp at h
  split at h
  · simpa [or_comm] using h
  · simpa using h

theorem lhs_congr {σ τ : Asg} {ts : List (Lit × Int)} (h : ∀ t ∈ ts, σ t.1.v = τ t.1.v) : PBC.lhs σ ts = PBC.lhs τ ts := by
  induction ts with
  | nil => rfl
  | cons t ts ih =>
    have e : t.1.eval σ = t.1.eval τ := by simp only [Lit.eval]; rw [h t (by simp)]
    simp only [PBC.lhs]
    rw [e, ih fun u hu => h u (by simp [hu])]

theorem cntV_congr {σ τ : Asg} {vs : List Var} (h : ∀ v ∈ vs, σ v = τ v) : cntV σ vs = cntV τ vs := by
  unfold cntV
  exact List.countP_congr fun v hv => by rw [h v hv]

/-- The value depends on the occurring variables only. -/
theorem eval_congr {σ τ : Asg} {f : Formula} (h : ∀ v, Occ v f → σ v = τ v) : f.eval σ = f.eval τ := by
  induction f using Formula.ind with
  | tru => simp
  | fls => simp
  | lit l => simp only [eval_lit, Lit.eval]; rw [h l.v (by simp)]
  | not f ih => simp only [eval_not]; rw [ih fun v hv => h v (by simpa using hv)]
  | impl a b iha ihb =>
    simp only [eval_impl]; rw [iha fun v hv => h v (by simp [hv]), ihb fun v hv => h v (by simp [hv])]
  | equiv a b iha ihb =>
    simp only [eval_equiv]; rw [iha fun v hv => h v (by simp [hv]), ihb fun v hv => h v (by simp [hv])]
  | nary o fs ih =>
    have : ∀ f ∈ fs, f.eval σ = f.eval τ := fun f hf => ih f hf fun v hv => h v (by rw [occ_nary]; exact ⟨f, hf, hv⟩)
    cases o
    · simp only [eval_and]; rw [Bool.eq_iff_iff, List.all_eq_true, List.all_eq_true]
      exact ⟨fun h f hf => this f hf ▸ h f hf, fun h f hf => (this f hf).symm ▸ h f hf⟩
    · simp only [eval_or]; rw [Bool.eq_iff_iff, List.any_eq_true, List.any_eq_true]
      exact ⟨fun ⟨f, hf, h⟩ => ⟨f, hf, this f hf ▸ h⟩, fun ⟨f, hf, h⟩ => ⟨f, hf, (this f hf).symm ▸ h⟩⟩
  | cc c => simp only [eval_cc, CC.eval]; rw [cntV_congr fun v hv => h v (by simpa using hv)]
  | pbc p =>
    simp only [eval_pbc, PBC.eval]
    rw [lhs_congr fun t ht => h t.1.v (by rw [occ_pbc]; exact ⟨t, ht, rfl⟩)]

end Formula
end Verif
