import Verif.F.PgSolverOk
import Verif.F.Propagate
/-
Unit propagation on the clauses of the Plaisted-Greenbaum transformation on the solver.
-/
namespace Verif
open ER

namespace PgUp

/-- `S` is consistent and closed under propagation by the clauses. -/
structure Closed (S : Lit → Prop) (L : List Clause) : Prop where
  cons : LitCons S
  cl : ∀ c ∈ L, ∀ k, (∀ l ∈ c, l ≠ k → S l.neg) → S k

theorem Closed.mono {S L L'} (h : Closed S L') (hs : ∀ c ∈ L, c ∈ L') : Closed S L := ⟨h.cons, fun c hc => h.cl c (hs c hc)⟩

theorem Closed.not_all {S L} (h : Closed S L) {c : Clause} (hc : c ∈ L) (hn : ∀ l ∈ c, S l.neg) : False := by
  have all : ∀ k, S k := fun k => h.cl c hc k fun l hl _ => hn l hl
  exact h.cons ⟨.named 0, true⟩ (all _) (all _)

/-- If the variables are set such that `f` does not have the value `pol`, propagation makes the clause false. -/
def Rep (base : List Clause) (s : PgS) (f : Formula) (pol : Bool) (c : Clause) : Prop :=
  ∀ S σ, Closed S (base ++ s.out) → Sets S f σ → f.eval σ ≠ pol → ∀ l ∈ c, S l.neg

/-- The result of a call. -/
def Res (base : List Clause) (s : PgS) (f : Formula) (pol : Bool) : Option Clause → Prop
  | some c => Rep base s f pol c
  | none => ∀ S σ, Closed S (base ++ s.out) → Sets S f σ → f.eval σ = pol

/-- If `f` does not have the value `pol`, the guard is derived; without a guard there is a contradiction. -/
def Done (base : List Clause) (s : PgS) (x : Option Lit) (f : Formula) (pol : Bool) : Prop :=
  ∀ S σ, Closed S (base ++ s.out) → Sets S f σ → f.eval σ ≠ pol → ∃ l, x = some l ∧ S l

/-- The invariant. -/
def Good (base : List Clause) (B : Formula → Bool → Prop) (s : PgS) : Prop :=
  ∀ f e pol, s.cache f = some e → ¬ B f pol → (e.set pol).1 = true → Rep base s f pol [if pol then e.v.p else e.v.p.neg]

structure Move (s s' : PgS) : Prop where
  out : ∀ c ∈ s.out, c ∈ s'.out
  keep : ∀ f e, s.cache f = some e → ∃ e', s'.cache f = some e' ∧ e'.v = e.v

theorem Move.refl (s) : Move s s := ⟨fun _ h => h, fun _ e h => ⟨e, h, rfl⟩⟩
theorem Move.trans {s s' s''} (h : Move s s') (k : Move s' s'') : Move s s'' := by
  refine ⟨fun c hc => k.out c (h.out c hc), fun f e he => ?_⟩
  obtain ⟨e', h1, h2⟩ := h.keep f e he
  obtain ⟨e'', h3, h4⟩ := k.keep f e' h1
  exact ⟨e'', h3, h4.trans h2⟩

theorem Move.closed {s s' S base} (h : Move s s') (hc : Closed S (base ++ s'.out)) : Closed S (base ++ s.out) :=
  hc.mono fun c hc => by
    rcases List.mem_append.1 hc with h1 | h1
    · exact List.mem_append_left _ h1
    · exact List.mem_append_right _ (h.out c h1)

theorem Rep.mono {base s s' f pol c} (h : Rep base s f pol c) (k : Move s s') : Rep base s' f pol c := fun S σ hc => h S σ (k.closed hc)
theorem Done.mono {base s s' x f pol} (h : Done base s x f pol) (k : Move s s') : Done base s' x f pol := fun S σ hc => h S σ (k.closed hc)
theorem Res.mono {base s s' f pol} {r : Option Clause} (h : Res base s f pol r) (k : Move s s') : Res base s' f pol r := by
  cases r with
  | some c => exact Rep.mono h k
  | none => exact fun S σ hc => h S σ (k.closed hc)

theorem Sets.sub {S : Lit → Prop} {f g : Formula} {σ : Asg} (h : Sets S f σ) (hs : Sub g f) : Sets S g σ := fun v hv => h v (hv.sub hs)

/-- Clauses are added, the cache stays. -/
theorem Good.add {base B s} (h : Good base B s) (c : Clause) : Good base B (s.add c) ∧ Move s (s.add c) := by
  have hm : Move s (s.add c) := ⟨fun c hc => by simp [PgS.add, hc], fun _ e h => ⟨e, h, rfl⟩⟩
  exact ⟨fun f e pol he hB hf => (h f e pol he hB hf).mono hm, hm⟩

theorem addOp_up {base B s s' x f pol r} (h : Good base B s) (hr : Res base s f pol r) (e : s.addOp x r = some s') :
    Good base B s' ∧ Move s s' ∧ Done base s' x f pol := by
  cases x with
  | none =>
    cases r with
    | none =>
      simp only [PgS.addOp, Option.some.injEq] at e; subst e
      exact ⟨h, .refl _, fun S σ hc hs hne => absurd (hr S σ hc hs) hne⟩
    | some c =>
      simp only [PgS.addOp, Option.some.injEq] at e; subst e
      obtain ⟨h1, h2⟩ := h.add c
      refine ⟨h1, h2, fun S σ hc hs hne => (hc.not_all (c := c) (by simp [PgS.add]) ?_).elim⟩
      exact hr S σ (h2.closed hc) hs hne
  | some l =>
    cases r with
    | none => simp [PgS.addOp] at e
    | some c =>
      simp only [PgS.addOp, Option.some.injEq] at e; subst e
      obtain ⟨h1, h2⟩ := h.add (l :: c)
      refine ⟨h1, h2, fun S σ hc hs hne => ⟨l, rfl, hc.cl (l :: c) (by simp [PgS.add]) l fun k hk hkl => ?_⟩⟩
      rcases List.mem_cons.1 hk with rfl | hk
      · exact absurd rfl hkl
      · exact hr S σ (h2.closed hc) hs hne k hk

theorem getVar_up {base B s f} {pol : Bool} (h : Good base B s) (hB : ¬ B f pol) {b x s'} (e : s.getVar f pol = (b, x, s')) :
    Move s s' ∧ ∃ v : Var, x = v.p ∧
      (b = true → Good base B s' ∧ Rep base s' f pol [if pol then v.p else v.p.neg]) ∧
      (b = false → Good base (PgBusy B f pol) s' ∧ ∃ en, s'.cache f = some en ∧ en.v = v) := by
  unfold PgS.getVar at e
  cases hc : s.cache f with
  | some en =>
    rw [hc] at e
    simp only [Prod.mk.injEq] at e
    obtain ⟨rfl, rfl, rfl⟩ := e
    have hm : Move s { s with cache := mapPut s.cache f (en.set pol).2 } := by
      refine ⟨fun _ h => h, fun g e' he' => ?_⟩
      simp only [mapPut]
      split
      · rename_i hg; subst hg
        rw [hc] at he'; injection he' with he'; subst he'
        exact ⟨_, rfl, en.set_v pol⟩
      · exact ⟨e', he', rfl⟩
    refine ⟨hm, en.v, rfl, fun hf => ⟨?_, (h f en pol hc hB hf).mono hm⟩, fun hf => ⟨?_, (en.set pol).2, by simp [mapPut], en.set_v pol⟩⟩
    · intro g e' p he' hB' hf'
      simp only [mapPut] at he'
      split at he'
      · rename_i hg; subst hg
        injection he' with he'; subst he'
        rw [en.set_v]
        refine (h g en p hc hB' ?_).mono hm
        rw [en.set_flag] at hf'
        by_cases hp : p = pol
        · rw [hp]; exact hf
        · simpa [hp] using hf'
      · exact (h g e' p he' hB' hf').mono hm
    · intro g e' p he' hB' hf'
      simp only [mapPut] at he'
      split at he'
      · rename_i hg; subst hg
        injection he' with he'; subst he'
        rw [en.set_v]
        have hp : p ≠ pol := fun hp => hB' (.inr ⟨rfl, hp⟩)
        refine (h g en p hc (fun hb => hB' (.inl hb)) ?_).mono hm
        rw [en.set_flag] at hf'
        simpa [hp] using hf'
      · exact (h g e' p he' (fun hb => hB' (.inl hb)) hf').mono hm
  | none =>
    rw [hc] at e
    simp only [Prod.mk.injEq] at e
    obtain ⟨rfl, rfl, rfl⟩ := e
    have hm : Move s { s with cache := mapPut s.cache f ((PgEntry.mk s.w.newCnf.1 false false).set pol).2, w := s.w.newCnf.2 } := by
      refine ⟨fun _ h => h, fun g e' he' => ?_⟩
      simp only [mapPut]
      split
      · rename_i hg; subst hg
        rw [hc] at he'; cases he'
      · exact ⟨e', he', rfl⟩
    refine ⟨hm, s.w.newCnf.1, rfl, fun hf => absurd hf (by simp), fun _ => ⟨?_, ((PgEntry.mk s.w.newCnf.1 false false).set pol).2, by simp [mapPut], PgEntry.set_v _ pol⟩⟩
    intro g e' p he' hB' hf'
    simp only [mapPut] at he'
    split at he'
    · rename_i hg; subst hg
      injection he' with he'; subst he'
      have hp : p ≠ pol := fun hp => hB' (.inr ⟨rfl, hp⟩)
      rw [PgEntry.set_flag] at hf'
      simp only [hp, decide_false, Bool.false_or] at hf'
      cases p <;> simp [PgEntry.set] at hf'
    · exact (h g e' p he' (fun hb => hB' (.inl hb)) hf').mono hm

/-- The end of a definition. -/
theorem define_up {base B s f pol} {e : PgEntry} {v : Var} (h : Good base (PgBusy B f pol) s) (he : s.cache f = some e) (hev : e.v = v)
    (hd : Done base s (some (if pol then v.p.neg else v.p)) f pol) : Good base B s ∧ Rep base s f pol [if pol then v.p else v.p.neg] := by
  have hr : Rep base s f pol [if pol then v.p else v.p.neg] := fun S σ hc hs hne l hl => by
    obtain ⟨k, e1, hk⟩ := hd S σ hc hs hne
    injection e1 with e1
    rw [List.mem_singleton.1 hl]
    subst e1
    cases pol <;> simpa using hk
  refine ⟨fun g e' p he' hB hf => ?_, hr⟩
  by_cases hgf : g = f ∧ p = pol
  · obtain ⟨rfl, rfl⟩ := hgf
    rw [he] at he'; injection he' with he'; subst he'
    rw [hev]; exact hr
  · exact h g e' p he' (by rintro (h | h); exacts [hB h, hgf h]) hf

/-- The statement about `pgC`. -/
def Call (base : List Clause) (f : Formula) : Prop :=
  ∀ (pol top : Bool) (s : PgS) (B : Formula → Bool → Prop) (r : Option Clause) (s' : PgS), Good base B s → (∀ g, Sub g f → ∀ p, ¬ B g p) →
    pgC f pol top s = some (r, s') → Good base B s' ∧ Move s s' ∧ Res base s' f pol r

theorem pgEach_up {base pol top} {x : Option Lit} (fs : List Formula) : ∀ {s B s'}, (∀ f ∈ fs, Call base f) → Good base B s →
    (∀ f ∈ fs, ∀ g, Sub g f → ∀ p, ¬ B g p) → pgEach fs pol top x s = some s' →
    Good base B s' ∧ Move s s' ∧ ∀ f ∈ fs, Done base s' x f pol := by
  induction fs with
  | nil =>
    intro s B s' _ h _ e
    simp only [pgEach, Option.some.injEq] at e; subst e
    exact ⟨h, .refl _, by simp⟩
  | cons f fs ih =>
    intro s B s' hc h hB e
    rw [pgEach] at e
    cases e1 : pgC f pol top s with
    | none => simp [e1] at e
    | some q =>
      obtain ⟨r, s1⟩ := q
      simp only [e1] at e
      obtain ⟨g1, m1, r1⟩ := hc f (by simp) pol top s B r s1 h (hB f (by simp)) e1
      cases e2 : s1.addOp x r with
      | none => simp [e2] at e
      | some s2 =>
        simp only [e2] at e
        obtain ⟨g2, m2, r2⟩ := addOp_up g1 r1 e2
        obtain ⟨g3, m3, r3⟩ := ih (fun f hf => hc f (by simp [hf])) g2 (fun f hf => hB f (by simp [hf])) e
        refine ⟨g3, (m1.trans m2).trans m3, fun f' hf' => ?_⟩
        rcases List.mem_cons.1 hf' with rfl | hf'
        · exact r2.mono m3
        · exact r3 f' hf'

theorem pgJoin_up {base pol} (fs : List Formula) : ∀ {s B c s'}, (∀ f ∈ fs, Call base f) → Good base B s →
    (∀ f ∈ fs, ∀ g, Sub g f → ∀ p, ¬ B g p) → pgJoin fs pol s = some (c, s') →
    Good base B s' ∧ Move s s' ∧ ∀ l ∈ c, ∃ f ∈ fs, Rep base s' f pol [l] := by
  induction fs with
  | nil =>
    intro s B c s' _ h _ e
    simp only [pgJoin, Option.some.injEq, Prod.mk.injEq] at e
    obtain ⟨rfl, rfl⟩ := e
    exact ⟨h, .refl _, by simp⟩
  | cons f fs ih =>
    intro s B c s' hc h hB e
    rw [pgJoin] at e
    cases e1 : pgC f pol false s with
    | none => simp [e1] at e
    | some q =>
      obtain ⟨_ | r, s1⟩ := q
      · simp [e1] at e
      simp only [e1] at e
      obtain ⟨g1, m1, r1⟩ := hc f (by simp) pol false s B _ s1 h (hB f (by simp)) e1
      cases e2 : pgJoin fs pol s1 with
      | none => simp [e2] at e
      | some q =>
        obtain ⟨d, s2⟩ := q
        simp only [e2, Option.some.injEq, Prod.mk.injEq] at e
        obtain ⟨rfl, rfl⟩ := e
        obtain ⟨g3, m3, r3⟩ := ih (fun f hf => hc f (by simp [hf])) g1 (fun f hf => hB f (by simp [hf])) e2
        refine ⟨g3, m1.trans m3, fun l hl => ?_⟩
        rcases List.mem_append.1 hl with hl | hl
        · exact ⟨f, by simp, fun S σ hcl hs hne k hk => by rw [List.mem_singleton.1 hk]; exact r1 S σ (m3.closed hcl) hs hne l hl⟩
        · obtain ⟨f', hf', h'⟩ := r3 l hl
          exact ⟨f', by simp [hf'], h'⟩

theorem pgC_up {base} (f : Formula) : Call base f := by
  induction f using Formula.ind with
  | tru => intro pol top s B r s' _ _ e; simp [pgC] at e
  | fls => intro pol top s B r s' _ _ e; simp [pgC] at e
  | cc c => intro pol top s B r s' _ _ e; simp [pgC] at e
  | pbc p => intro pol top s B r s' _ _ e; simp [pgC] at e
  | lit l =>
    intro pol top s B r s' h _ e
    simp only [pgC, Option.some.injEq, Prod.mk.injEq] at e
    obtain ⟨rfl, rfl⟩ := e
    refine ⟨h, .refl _, fun S σ hc hs hne k hk => ?_⟩
    rw [List.mem_singleton.1 hk]
    have hv := hs l.v (by simp)
    rcases l with ⟨v, p⟩
    cases p <;> cases pol <;> cases hσ : σ v <;> simp_all [Lit.eval, Lit.neg]
  | not g ih =>
    intro pol top s B r s' h hB e
    have hm : Sub g (Formula.not g) := op_sub (by simp [Formula.operands])
    rw [pgC] at e
    obtain ⟨h1, h2, h3⟩ := ih (!pol) top s B r s' h (fun k hk => hB k (hk.trans hm)) e
    refine ⟨h1, h2, ?_⟩
    cases r with
    | none =>
      intro S σ hc hs
      have := h3 S σ hc (Sets.sub hs hm)
      rw [Formula.eval_not, this]; simp
    | some c =>
      intro S σ hc hs hne
      refine h3 S σ hc (Sets.sub hs hm) ?_
      rw [Formula.eval_not] at hne
      cases hg : g.eval σ <;> cases pol <;> simp_all
  | nary o fs ih =>
    intro pol top s B r s' h hB e
    have hop : ∀ f ∈ fs, f ∈ (Formula.nary o fs).operands := fun f hf => by simpa [Formula.operands] using hf
    have hB' : ∀ f ∈ fs, ∀ g, Sub g f → ∀ p, ¬ B g p := fun f hf g hg => hB g (hg.trans (op_sub (hop f hf)))
    by_cases hk : o = .conj ∧ pol = true ∨ o = .disj ∧ pol = false
    · have hq : ∀ σ, (∀ f ∈ fs, f.eval σ = pol) ↔ (Formula.nary o fs).eval σ = pol := by
        intro σ
        rw [Formula.eval_nary]
        rcases hk with ⟨rfl, rfl⟩ | ⟨rfl, rfl⟩
        · simp [Op.eval]
        · simp [Op.eval]
      have hd : ∀ {s x}, (∀ f ∈ fs, Done base s x f pol) → Done base s x (.nary o fs) pol := by
        intro s x h S σ hc hs hne
        rw [Ne, ← hq σ] at hne
        push Not at hne
        obtain ⟨f, hf, hne⟩ := hne
        exact h f hf S σ hc (Sets.sub hs (op_sub (hop f hf))) hne
      cases top with
      | true =>
        simp only [pgC, if_pos hk, if_true] at e
        cases e1 : pgEach fs pol true none s with
        | none => simp [e1] at e
        | some s1 =>
          simp only [e1, Option.some.injEq, Prod.mk.injEq] at e
          obtain ⟨rfl, rfl⟩ := e
          obtain ⟨g1, m1, r1⟩ := pgEach_up fs ih h hB' e1
          refine ⟨g1, m1, fun S σ hc hs => Classical.byContradiction fun hne => ?_⟩
          obtain ⟨_, h1, _⟩ := hd r1 S σ hc hs hne
          cases h1
      | false =>
        simp only [pgC, if_pos hk, Bool.false_eq_true, if_false] at e
        generalize e1 : s.getVar (.nary o fs) pol = q at e
        obtain ⟨b, x, s1⟩ := q
        obtain ⟨m1, v, rfl, ht, hf⟩ := getVar_up h (hB _ (.refl _) pol) e1
        cases b with
        | true =>
          simp only [Option.some.injEq, Prod.mk.injEq] at e
          obtain ⟨rfl, rfl⟩ := e
          exact ⟨(ht rfl).1, m1, (ht rfl).2⟩
        | false =>
          obtain ⟨g1, en, c1, ev1⟩ := hf rfl
          simp only at e
          cases e2 : pgEach fs pol false (some (if pol then v.p.neg else v.p)) s1 with
          | none => simp [e2] at e
          | some s2 =>
            simp only [e2, Option.some.injEq, Prod.mk.injEq] at e
            obtain ⟨rfl, rfl⟩ := e
            obtain ⟨g2, m2, r2⟩ := pgEach_up fs ih g1 (fun f hf => busy_free (hop f hf) hB) e2
            obtain ⟨en2, c2, ev2⟩ := m2.keep _ _ c1
            obtain ⟨g3, r3⟩ := define_up g2 c2 (ev2.trans ev1) (hd r2)
            exact ⟨g3, m1.trans m2, r3⟩
    · have hq : ∀ σ, (∃ f ∈ fs, f.eval σ = pol) ↔ (Formula.nary o fs).eval σ = pol := by
        intro σ
        rw [Formula.eval_nary]
        cases o <;> cases pol <;> simp at hk <;> simp [Op.eval]
      simp only [pgC, if_neg hk] at e
      cases e1 : pgJoin fs pol s with
      | none => simp [e1] at e
      | some q =>
        obtain ⟨c, s1⟩ := q
        simp only [e1, Option.some.injEq, Prod.mk.injEq] at e
        obtain ⟨rfl, rfl⟩ := e
        obtain ⟨g1, m1, r1⟩ := pgJoin_up fs ih h hB' e1
        refine ⟨g1, m1, fun S σ hc hs hne l hl => ?_⟩
        obtain ⟨f, hf, hr⟩ := r1 l hl
        exact hr S σ hc (Sets.sub hs (op_sub (hop f hf))) (fun h => hne ((hq σ).1 ⟨f, hf, h⟩)) l (by simp)
  | impl a b iha ihb =>
    intro pol top s B r s' h hB e
    have ha : a ∈ (Formula.impl a b).operands := by simp [Formula.operands]
    have hb : b ∈ (Formula.impl a b).operands := by simp [Formula.operands]
    cases pol with
    | true =>
      simp only [pgC, if_true] at e
      cases e1 : pgC a false false s with
      | none => simp [e1] at e
      | some q =>
        obtain ⟨_ | l, s1⟩ := q
        · simp [e1] at e
        simp only [e1] at e
        cases e2 : pgC b true false s1 with
        | none => simp [e2] at e
        | some q =>
          obtain ⟨_ | k, s2⟩ := q
          · simp [e2] at e
          simp only [e2, Option.some.injEq, Prod.mk.injEq] at e
          obtain ⟨rfl, rfl⟩ := e
          obtain ⟨g1, m1, r1⟩ := iha false false s B _ s1 h (fun g hg => hB g (hg.trans (op_sub ha))) e1
          obtain ⟨g2, m2, r2⟩ := ihb true false s1 B _ s2 g1 (fun g hg => hB g (hg.trans (op_sub hb))) e2
          refine ⟨g2, m1.trans m2, fun S σ hc hs hne j hj => ?_⟩
          rw [Formula.eval_impl] at hne
          rcases List.mem_append.1 hj with hj | hj
          · exact r1 S σ (m2.closed hc) (Sets.sub hs (op_sub ha)) (fun he => hne (by simp [he])) j hj
          · exact r2 S σ hc (Sets.sub hs (op_sub hb)) (fun he => hne (by simp [he])) j hj
    | false =>
      have main : ∀ (x : Option Lit) (s : PgS) (B : Formula → Bool → Prop), Good base B s → (∀ g, Sub g a → ∀ p, ¬ B g p) → (∀ g, Sub g b → ∀ p, ¬ B g p) →
          ∀ l s1 r s2 s3 s4, pgC a true top s = some (l, s1) → pgC b false top s1 = some (r, s2) → s2.addOp x l = some s3 → s3.addOp x r = some s4 →
            Good base B s4 ∧ Move s s4 ∧ Done base s4 x (.impl a b) false := by
        intro x s B h hBa hBb l s1 r s2 s3 s4 e1 e2 e3 e4
        obtain ⟨g1, m1, r1⟩ := iha true top s B _ s1 h hBa e1
        obtain ⟨g2, m2, r2⟩ := ihb false top s1 B _ s2 g1 hBb e2
        obtain ⟨g3, m3, r3⟩ := addOp_up g2 (r1.mono m2) e3
        obtain ⟨g4, m4, r4⟩ := addOp_up g3 (r2.mono m3) e4
        refine ⟨g4, ((m1.trans m2).trans m3).trans m4, fun S σ hc hs hne => ?_⟩
        by_cases hva : a.eval σ = true
        · refine r4 S σ hc (Sets.sub hs (op_sub hb)) fun hvb => hne ?_
          rw [Formula.eval_impl, hva, hvb]; rfl
        · exact r3 S σ (m4.closed hc) (Sets.sub hs (op_sub ha)) hva
      cases top with
      | true =>
        simp only [pgC, Bool.false_eq_true, if_false, if_true] at e
        cases e1 : pgC a true true s with
        | none => simp [e1] at e
        | some q =>
          obtain ⟨l, s1⟩ := q
          simp only [e1] at e
          cases e2 : pgC b false true s1 with
          | none => simp [e2] at e
          | some q =>
            obtain ⟨k, s2⟩ := q
            simp only [e2] at e
            cases e3 : s2.addOp none l with
            | none => simp [e3] at e
            | some s3 =>
              simp only [e3] at e
              cases e4 : s3.addOp none k with
              | none => simp [e4] at e
              | some s4 =>
                simp only [e4, Option.map_none, Option.some.injEq, Prod.mk.injEq] at e
                obtain ⟨rfl, rfl⟩ := e
                obtain ⟨g1, m1, r1⟩ := main none s B h (fun g hg => hB g (hg.trans (op_sub ha))) (fun g hg => hB g (hg.trans (op_sub hb))) _ _ _ _ _ _ e1 e2 e3 e4
                refine ⟨g1, m1, fun S σ hc hs => Classical.byContradiction fun hne => ?_⟩
                obtain ⟨_, h1, _⟩ := r1 S σ hc hs hne
                cases h1
      | false =>
        simp only [pgC, Bool.false_eq_true, if_false] at e
        generalize eg : s.getVar (.impl a b) false = q at e
        obtain ⟨bb, x, s0⟩ := q
        obtain ⟨m0, v, rfl, ht, hf⟩ := getVar_up h (hB _ (.refl _) false) eg
        cases bb with
        | true =>
          simp only [Option.map_some, Option.some.injEq, Prod.mk.injEq] at e
          obtain ⟨rfl, rfl⟩ := e
          exact ⟨(ht rfl).1, m0, by simpa [Res] using (ht rfl).2⟩
        | false =>
          obtain ⟨g0, en, c1, ev1⟩ := hf rfl
          simp only at e
          cases e1 : pgC a true false s0 with
          | none => simp [e1] at e
          | some q =>
            obtain ⟨l, s1⟩ := q
            simp only [e1] at e
            cases e2 : pgC b false false s1 with
            | none => simp [e2] at e
            | some q =>
              obtain ⟨k, s2⟩ := q
              simp only [e2] at e
              cases e3 : s2.addOp (some v.p) l with
              | none => simp [e3] at e
              | some s3 =>
                simp only [e3] at e
                cases e4 : s3.addOp (some v.p) k with
                | none => simp [e4] at e
                | some s4 =>
                  simp only [e4, Option.map_some, Option.some.injEq, Prod.mk.injEq] at e
                  obtain ⟨rfl, rfl⟩ := e
                  obtain ⟨g1, m1, r1⟩ := main (some v.p) s0 _ g0 (busy_free ha hB) (busy_free hb hB) _ _ _ _ _ _ e1 e2 e3 e4
                  obtain ⟨en2, c2, ev2⟩ := m1.keep _ _ c1
                  obtain ⟨g3, r3⟩ := define_up (pol := false) g1 c2 (ev2.trans ev1) (by simpa using r1)
                  exact ⟨g3, m0.trans m1, by simpa [Res] using r3⟩
  | equiv a b iha ihb =>
    intro pol top s B r s' h hB e
    have ha : a ∈ (Formula.equiv a b).operands := by simp [Formula.operands]
    have hb : b ∈ (Formula.equiv a b).operands := by simp [Formula.operands]
    have main : ∀ (x : Option Lit) (s : PgS) (B : Formula → Bool → Prop), Good base B s → (∀ g, Sub g a → ∀ p, ¬ B g p) → (∀ g, Sub g b → ∀ p, ¬ B g p) →
        ∀ lp ln rp rn s1 s2 s3 s4 s5 s6, pgC a true false s = some (some lp, s1) → pgC a false false s1 = some (some ln, s2) → pgC b true false s2 = some (some rp, s3) →
          pgC b false false s3 = some (some rn, s4) → s4.addOp x (some (if pol then ln ++ rp else lp ++ rp)) = some s5 → s5.addOp x (some (if pol then lp ++ rn else ln ++ rn)) = some s6 →
          Good base B s6 ∧ Move s s6 ∧ Done base s6 x (.equiv a b) pol := by
      intro x s B h hBa hBb lp ln rp rn s1 s2 s3 s4 s5 s6 e1 e2 e3 e4 e5 e6
      obtain ⟨g1, m1, r1⟩ := iha true false s B _ s1 h hBa e1
      obtain ⟨g2, m2, r2⟩ := iha false false s1 B _ s2 g1 hBa e2
      obtain ⟨g3, m3, r3⟩ := ihb true false s2 B _ s3 g2 hBb e3
      obtain ⟨g4, m4, r4⟩ := ihb false false s3 B _ s4 g3 hBb e4
      have k1 : Rep base s4 a true lp := ((r1.mono m2).mono m3).mono m4
      have k2 : Rep base s4 a false ln := (r2.mono m3).mono m4
      have k3 : Rep base s4 b true rp := r3.mono m4
      have k4 : Rep base s4 b false rn := r4
      -- the guard follows if one of the clauses is false
      have step : ∀ {s s' : PgS} {c : Clause} {S : Lit → Prop}, s.addOp x (some c) = some s' → Closed S (base ++ s'.out) → (∀ l ∈ c, S l.neg) → ∃ l, x = some l ∧ S l := by
        intro s s' c S e hc hn
        cases x with
        | none =>
          simp only [PgS.addOp, Option.some.injEq] at e; subst e
          exact (hc.not_all (c := c) (by simp [PgS.add]) hn).elim
        | some l =>
          simp only [PgS.addOp, Option.some.injEq] at e; subst e
          refine ⟨l, rfl, hc.cl (l :: c) (by simp [PgS.add]) l fun k hk hkl => ?_⟩
          rcases List.mem_cons.1 hk with rfl | hk
          · exact absurd rfl hkl
          · exact hn k hk
      have addm : ∀ {s s' : PgS} {c : Clause}, Good base B s → s.addOp x (some c) = some s' → Good base B s' ∧ Move s s' := by
        intro s s' c hg e
        cases x with
        | none => simp only [PgS.addOp, Option.some.injEq] at e; subst e; exact hg.add _
        | some l => simp only [PgS.addOp, Option.some.injEq] at e; subst e; exact hg.add _
      obtain ⟨g5, m5⟩ := addm g4 e5
      obtain ⟨g6, m6⟩ := addm g5 e6
      refine ⟨g6, ((((m1.trans m2).trans m3).trans m4).trans m5).trans m6, fun S σ hc hs hne => ?_⟩
      have hc5 := m6.closed hc
      have hc4 := m5.closed hc5
      have hsa := Sets.sub hs (op_sub ha)
      have hsb := Sets.sub hs (op_sub hb)
      rw [Formula.eval_equiv] at hne
      by_cases hvb : b.eval σ = true
      · -- the second clause
        refine step e6 hc fun l hl => ?_
        cases pol with
        | true =>
          simp only [if_true, List.mem_append] at hl
          have hva : a.eval σ ≠ true := fun hva => hne (by rw [hva, hvb]; rfl)
          exact hl.elim (k1 S σ hc4 hsa hva l) (k4 S σ hc4 hsb (by simp [hvb]) l)
        | false =>
          simp only [Bool.false_eq_true, if_false, List.mem_append] at hl
          have hva : a.eval σ ≠ false := fun hva => hne (by rw [hva, hvb]; rfl)
          exact hl.elim (k2 S σ hc4 hsa hva l) (k4 S σ hc4 hsb (by simp [hvb]) l)
      · refine step e5 hc5 fun l hl => ?_
        cases pol with
        | true =>
          simp only [if_true, List.mem_append] at hl
          have hva : a.eval σ ≠ false := fun hva => hne (by rw [hva, Bool.eq_false_iff.2 hvb]; rfl)
          exact hl.elim (k2 S σ hc4 hsa hva l) (k3 S σ hc4 hsb hvb l)
        | false =>
          simp only [Bool.false_eq_true, if_false, List.mem_append] at hl
          have hva : a.eval σ ≠ true := fun hva => hne (by rw [hva, Bool.eq_false_iff.2 hvb]; rfl)
          exact hl.elim (k1 S σ hc4 hsa hva l) (k3 S σ hc4 hsb hvb l)
    -- the calls of a definition
    have calls : ∀ {s : PgS} {α : Type} {F : Clause → Clause → Clause → Clause → PgS → Option α} {y : α},
        (match pgC a true false s with
          | some (some lp, s) => match pgC a false false s with
            | some (some ln, s) => match pgC b true false s with
              | some (some rp, s) => match pgC b false false s with
                | some (some rn, s) => F lp ln rp rn s
                | _ => none
              | _ => none
            | _ => none
          | _ => none) = some y →
        ∃ lp ln rp rn s1 s2 s3 s4, pgC a true false s = some (some lp, s1) ∧ pgC a false false s1 = some (some ln, s2) ∧ pgC b true false s2 = some (some rp, s3) ∧
          pgC b false false s3 = some (some rn, s4) ∧ F lp ln rp rn s4 = some y := by
      intro s α F y e
      split at e
      · rename_i lp s1 e1
        split at e
        · rename_i ln s2 e2
          split at e
          · rename_i rp s3 e3
            split at e
            · rename_i rn s4 e4
              exact ⟨lp, ln, rp, rn, s1, s2, s3, s4, e1, e2, e3, e4, e⟩
            · cases e
          · cases e
        · cases e
      · cases e
    cases top with
    | true =>
      simp only [pgC, if_true] at e
      obtain ⟨lp, ln, rp, rn, s1, s2, s3, s4, e1, e2, e3, e4, e⟩ := calls e
      simp only [Option.some.injEq, Prod.mk.injEq] at e
      obtain ⟨rfl, rfl⟩ := e
      obtain ⟨g1, m1, r1⟩ := main none s B h (fun g hg => hB g (hg.trans (op_sub ha))) (fun g hg => hB g (hg.trans (op_sub hb))) _ _ _ _ _ _ _ _ _ _ e1 e2 e3 e4 rfl rfl
      refine ⟨g1, m1, fun S σ hc hs => Classical.byContradiction fun hne => ?_⟩
      obtain ⟨_, h1, _⟩ := r1 S σ hc hs hne
      cases h1
    | false =>
      simp only [pgC, Bool.false_eq_true, if_false] at e
      generalize eg : s.getVar (.equiv a b) pol = q at e
      obtain ⟨bb, x, s0⟩ := q
      obtain ⟨m0, v, rfl, ht, hf⟩ := getVar_up h (hB _ (.refl _) pol) eg
      cases bb with
      | true =>
        simp only [Option.map_some, Option.some.injEq, Prod.mk.injEq] at e
        obtain ⟨rfl, rfl⟩ := e
        exact ⟨(ht rfl).1, m0, (ht rfl).2⟩
      | false =>
        obtain ⟨g0, en, c1, ev1⟩ := hf rfl
        simp only at e
        obtain ⟨lp, ln, rp, rn, s1, s2, s3, s4, e1, e2, e3, e4, e⟩ := calls e
        simp only [Option.some.injEq, Prod.mk.injEq] at e
        obtain ⟨rfl, rfl⟩ := e
        obtain ⟨g1, m1, r1⟩ := main (some (if pol then v.p.neg else v.p)) s0 _ g0 (busy_free ha hB) (busy_free hb hB) _ _ _ _ _ _ _ _ _ _ e1 e2 e3 e4 rfl rfl
        obtain ⟨en2, c2, ev2⟩ := m1.keep _ _ c1
        obtain ⟨g3, r3⟩ := define_up g1 c2 (ev2.trans ev1) r1
        refine ⟨g3, m0.trans m1, ?_⟩
        have : (if pol then v.p.neg else v.p).neg = if pol then v.p else v.p.neg := by cases pol <;> simp
        rw [this]
        exact r3

theorem OccL.var {l : Lit} {f : Formula} (h : OccL l f) : Occ l.v f := by
  induction h with
  | lit => simp
  | op ho _ ih => exact ih.sub (op_sub ho)
  | cc h1 h2 => rw [h2]; exact (Formula.occ_cc ..).2 h1
  | pbc h1 h2 => rw [← h2]; exact (Formula.occ_pbc ..).2 ⟨_, h1, rfl⟩

/-- `add_cnf_to_solver`. -/
theorem addCnfToSolver_up {C : Canon} {cfg : FCfg} (hcfg : cfg.cc.Good) {c0 base E s s'} (hw : WInv c0 s.w E) (h : Good base idle s) (full : Bool) {f : Formula}
    (hp : PTop cfg s.w.cnt f) (e : addCnfToSolver C cfg full f s = some s') :
    Good base idle s' ∧ Move s s' ∧ (NoCon f → ∀ S σ, Closed S (base ++ s'.out) → Sets S f σ → f.eval σ = true) := by
  have hwork : ∃ g w1, (if (!full || (f.containsPbc false fun _ => none).1 == some true) = true then nnf C cfg f s.w else some (f, s.w)) = some (g, w1) ∧
      g.Norm ∧ (∀ σ, g.eval σ = true → f.eval σ = true) ∧ (NoCon f → ∀ v, Occ v g → Occ v f) := by
    by_cases hb : (!full || (f.containsPbc false fun _ => none).1 == some true) = true
    · rw [if_pos hb]
      obtain ⟨n, w1, E1, e1, h1, x1, k1⟩ := nnf_ok (C := C) hcfg hw hp
      exact ⟨n, w1, e1, k1.norm, k1.sound, k1.vars⟩
    · rw [if_neg hb]
      exact ⟨f, s.w, rfl, hp.1, fun _ h => h, fun _ _ h => h⟩
  obtain ⟨g, w1, e1, hgn, hs, hv⟩ := hwork
  have hm1 : Move s { s with w := w1 } := ⟨fun _ h => h, fun _ e h => ⟨e, h, rfl⟩⟩
  have g1 : Good base idle { s with w := w1 } := fun f e pol he hB hf => (h f e pol he hB hf).mono hm1
  unfold addCnfToSolver at e
  simp only [e1] at e
  by_cases hc : g.isCnfF = true
  · rw [if_pos hc] at e
    have hcnf := (isCnfF_iff hgn).1 hc
    obtain ⟨L, eL, hL⟩ := cnfClauses_ok clauseLits_fn hcnf hgn
    rw [eL] at e
    simp only [Option.map_some, Option.some.injEq] at e
    subst e
    have hm2 : Move s { s with w := w1, out := s.out ++ L } := ⟨fun _ h => List.mem_append_left _ h, fun _ e h => ⟨e, h, rfl⟩⟩
    refine ⟨fun f e pol he hB hf => (h f e pol he hB hf).mono hm2, hm2, fun hn S σ hcl hset => hs σ ((hL σ).1 fun c hc => Classical.byContradiction fun hns => ?_)⟩
    -- the literals of the clauses are over variables of the formula
    have hocc : ∀ l ∈ c, Occ l.v g := by
      intro l hl
      cases hcnf with
      | clause h =>
        cases h with
        | tru => simp [cnfClauses] at eL; subst eL; simp at hc
        | fls => simp [cnfClauses] at eL; subst eL; rw [List.mem_singleton.1 hc] at hl; exact OccL.var (((lits_val _).1 l).1 hl)
        | lit k => simp [cnfClauses] at eL; subst eL; rw [List.mem_singleton.1 hc] at hl; exact OccL.var (((lits_val _).1 l).1 hl)
        | or h => simp [cnfClauses] at eL; subst eL; rw [List.mem_singleton.1 hc] at hl; exact OccL.var (((lits_val _).1 l).1 hl)
      | @and fs h =>
        simp only [cnfClauses, Option.some.injEq] at eL; subst eL
        obtain ⟨d, hd, rfl⟩ := List.mem_map.1 hc
        exact (Formula.occ_nary ..).2 ⟨d, hd, OccL.var (((lits_val _).1 l).1 hl)⟩
    refine hcl.not_all (c := c) (by simp [hc]) fun l hl => ?_
    have hlf : l.eval σ = false := Bool.eq_false_iff.2 fun ht => hns ⟨l, hl, ht⟩
    have hset' := hset l.v (hv hn _ (hocc l hl))
    rcases l with ⟨v, p⟩
    cases p <;> cases hσ : σ v <;> simp_all [Lit.eval, Lit.neg]
  · rw [if_neg hc] at e
    have fin : ∀ r s2, pgC g true true { s with w := w1 } = some (r, s2) → s2.addOp none r = some s' →
        Good base idle s' ∧ Move s s' ∧ (NoCon f → ∀ S σ, Closed S (base ++ s'.out) → Sets S f σ → f.eval σ = true) := by
      intro r s2 e2 e3
      obtain ⟨g2, m2, r2⟩ := pgC_up g true true { s with w := w1 } idle r s2 g1 (fun _ _ _ h => h) e2
      obtain ⟨g3, m3, r3⟩ := addOp_up g2 r2 e3
      refine ⟨g3, (hm1.trans m2).trans m3, fun hn S σ hcl hset => hs σ (Classical.byContradiction fun hne => ?_)⟩
      obtain ⟨_, h1, _⟩ := r3 S σ hcl (fun v hv' => hset v (hv hn v hv')) hne
      cases h1
    cases e2 : pgC g true true { s with w := w1 } with
    | none => simp [e2] at e
    | some q =>
      obtain ⟨r, s2⟩ := q
      cases r with
      | none => simp only [e2, Option.some.injEq] at e; exact fin _ _ e2 (by simpa [PgS.addOp] using e)
      | some c => simp only [e2, Option.some.injEq] at e; exact fin _ _ e2 (by simpa [PgS.addOp] using e)

end PgUp

end Verif
