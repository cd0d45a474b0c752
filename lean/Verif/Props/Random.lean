import Verif.Util.RandomOk
import Verif.F.Leaves
import Verif.F.Vars
import Verif.F.Norm
import Mathlib.Algebra.Order.Field.Rat
import Mathlib.Tactic.Linarith
import Mathlib.Tactic.Ring
import Mathlib.Tactic.Positivity
import Mathlib.Tactic.NormNum
import Verif.Props.Ops
/-
C68: random formulas.

The specification: `Sub` (sub-formulas), `Chain` (paths through operands) and `Within`, which says for one formula what the configuration promises.
-/
namespace Verif.Rnd
open Formula

section
variable {F : Type}

/-- The topmost node of a formula is of a kind in `A` and within the bounds of the configuration (specification).  A constraint made by `pbc` can be a cardinality constraint. -/
def Within (c : RCfg F) (A : Kind → Prop) : Formula → Prop
  | .tru => A .const
  | .fls => A .const
  | .lit l => A .lit ∧ l.v ∈ c.vars
  | .not _ => A .not
  | .impl _ _ => A .impl
  | .equiv _ _ => A .equiv
  | .nary .conj _ => A .and
  | .nary .disj _ => A .or
  | .cc x => x.vars ≠ [] ∧ (∀ v ∈ x.vars, v ∈ c.vars) ∧ x.rhs < 2 ^ 32 ∧ (((A .cc ∨ A .amo ∨ A .exo) ∧ x.vars.length < c.maxCc) ∨ (A .pbc ∧ x.vars.length < c.maxPbc))
  | .pbc p => A .pbc ∧ p.terms ≠ [] ∧ p.terms.length < c.maxPbc ∧ ∀ t ∈ p.terms, t.1.v ∈ c.vars ∧ 1 ≤ t.2.natAbs ∧ t.2.natAbs ≤ c.maxCoeff

theorem sub_atomic {g f : Formula} (h : f.operands = []) (hs : Sub g f) : g = f := by
  rcases sub_operands.1 hs with h' | ⟨o, ho, _⟩
  · exact h'
  · rw [h] at ho; cases ho

theorem sub_leaf {o : Op} {x g f : Formula} (h : OLeaf o x f) (hs : Sub g x) : Sub g f := by
  induction h with
  | self _ => exact hs
  | nary hm _ ih => exact .op (show _ ∈ operands (.nary _ _) from hm) ih

theorem chain_leaf {o : Op} {x f : Formula} (h : OLeaf o x f) {n : Nat} (hc : Chain n x) : ∃ m, n ≤ m ∧ Chain m f := by
  induction h with
  | self _ => exact ⟨n, Nat.le_refl _, hc⟩
  | nary hm _ ih =>
    obtain ⟨m, h1, h2⟩ := ih
    exact ⟨m + 1, by omega, .cons (show _ ∈ operands (.nary _ _) from hm) h2⟩

/-- The operands of a conjunction or disjunction that was built. -/
theorem nary_leaf {K : Canon} {o : Op} {fs l : List Formula} (e : mkNary K o fs = .nary o l) : ∀ g ∈ l, ∃ f ∈ fs, OLeaf o g f := by
  rcases mkNary_cases K o fs with ⟨h, _⟩ | h | ⟨f, hf, h⟩ | ⟨l', h, _, h2⟩
  · rw [e] at h; cases o <;> cases h
  · rw [e] at h; cases o <;> cases h
  · rw [e] at h
    obtain ⟨h', _⟩ : (∀ gs, Formula.nary o l ≠ .nary o gs) ∧ True := by
      refine ⟨?_, trivial⟩
      clear e hf
      induction h with
      | self h => exact h
      | nary _ _ ih => exact ih
    exact absurd rfl (h' l)
  · rw [e] at h
    cases h
    exact fun g hg => (h2 g hg).1

/-- Where an implication comes from. -/
theorem impl_cases {K : Canon} {a b x y : Formula} (e : mkImpl K a b = .impl x y) : (x = a ∧ y = b) ∨ b = .impl x y ∨ a = .not (.impl x y) := by
  unfold mkImpl at e
  repeat' split at e
  · exact .inr (.inl e)
  · cases e
  · right; right
    cases a <;> simp_all [mkNot]
  · cases e
  · exact .inr (.inl e)
  · cases e; exact .inl ⟨rfl, rfl⟩

/-- Where an equivalence comes from. -/
theorem equiv_cases {K : Canon} {a b x y : Formula} (e : mkEquiv K a b = .equiv x y) :
    (x = a ∧ y = b) ∨ (x = b ∧ y = a) ∨ a = .equiv x y ∨ b = .equiv x y ∨ a = .not (.equiv x y) ∨ b = .not (.equiv x y) := by
  unfold mkEquiv at e
  repeat' split at e
  · exact .inr (.inr (.inr (.inl e)))
  · right; right; right; right; right
    cases b <;> simp_all [mkNot]
  · exact .inr (.inr (.inl e))
  · right; right; right; right; left
    cases a <;> simp_all [mkNot]
  · cases e
  · cases e
  · cases e; exact .inr (.inl ⟨rfl, rfl⟩)
  · cases e; exact .inl ⟨rfl, rfl⟩

end

section
variable {F : Type} [LinearOrder F] [Add F] [Mul F] [Div F] {E : REnv F} {A : Kind → Prop}

/-- All sub-formulas are within the configuration. -/
theorem cls_within : Cls E A fun _ f => ∀ g, Sub g f → Within E.cfg A g where
  const h _ b g hs := by
    cases b
    · rw [sub_atomic (f := .fls) rfl hs]; exact h
    · rw [sub_atomic (f := .tru) rfl hs]; exact h
  lit h _ l hl g hs := by rw [sub_atomic rfl hs]; exact ⟨h, hl⟩
  cc h _ c r vs h1 h2 h3 hr g hs := by rw [sub_atomic rfl hs]; exact ⟨h1, h3, hr, .inl ⟨h, h2⟩⟩
  pbcc h _ c r vs h1 h2 h3 hr g hs := by rw [sub_atomic rfl hs]; exact ⟨h1, h3, hr, .inr ⟨h, h2⟩⟩
  pbc h _ c r ts h1 h2 h3 _ g hs := by rw [sub_atomic rfl hs]; exact ⟨h, h1, h2, h3⟩
  not h d f hf hd g hs := by
    cases f with
    | tru => rw [sub_atomic (f := .fls) rfl hs]; exact hf .tru (.refl _)
    | fls => rw [sub_atomic (f := .tru) rfl hs]; exact hf .fls (.refl _)
    | lit l => rw [sub_atomic (f := .lit l.neg) rfl hs]; exact hf (.lit l) (.refl _)
    | not f => exact hf g (.op (List.mem_singleton.2 rfl) hs)
    | _ =>
      rcases sub_operands.1 hs with rfl | ⟨o, ho, h'⟩
      · exact h
      · rw [List.mem_singleton.1 ho] at h'; exact hf g h'
  impl h d a b x y ha hb e g hs := by
    rcases impl_cases e with ⟨rfl, rfl⟩ | rfl | rfl
    · rcases sub_operands.1 hs with rfl | ⟨o, ho, h'⟩
      · exact h
      · simp only [operands, List.mem_cons, List.not_mem_nil, or_false] at ho
        rcases ho with rfl | rfl
        · exact ha g h'
        · exact hb g h'
    · exact hb g hs
    · exact ha g (.op (List.mem_singleton.2 rfl) hs)
  equiv h d a b x y ha hb e g hs := by
    rcases equiv_cases e with ⟨rfl, rfl⟩ | ⟨rfl, rfl⟩ | rfl | rfl | rfl | rfl
    · rcases sub_operands.1 hs with rfl | ⟨o, ho, h'⟩
      · exact h
      · simp only [operands, List.mem_cons, List.not_mem_nil, or_false] at ho
        rcases ho with rfl | rfl
        · exact ha g h'
        · exact hb g h'
    · rcases sub_operands.1 hs with rfl | ⟨o, ho, h'⟩
      · exact h
      · simp only [operands, List.mem_cons, List.not_mem_nil, or_false] at ho
        rcases ho with rfl | rfl
        · exact hb g h'
        · exact ha g h'
    · exact ha g hs
    · exact hb g hs
    · exact ha g (.op (List.mem_singleton.2 rfl) hs)
    · exact hb g (.op (List.mem_singleton.2 rfl) hs)
  nary o h d fs l hf e g hs := by
    rcases sub_operands.1 hs with rfl | ⟨x, hx, h'⟩
    · cases o <;> exact h
    · obtain ⟨f, hfm, hl⟩ := nary_leaf e x hx
      exact hf f hfm g (sub_leaf hl h')

theorem chain_atomic {f : Formula} (h : f.operands = []) {n : Nat} (hc : Chain n f) : n = 0 := by
  cases hc with
  | nil => rfl
  | cons ho _ => rw [h] at ho; cases ho

theorem chain_op {f : Formula} {d : Nat} (h : ∀ o ∈ f.operands, ∀ n, Chain n o → n ≤ d) {n : Nat} (hc : Chain n f) : n ≤ d + 1 := by
  cases hc with
  | nil => omega
  | cons ho hc => have := h _ ho _ hc; omega

/-- The depth. -/
theorem cls_depth : Cls E A fun d f => ∀ n, Chain n f → n ≤ d where
  const _ d b n hc := by rw [chain_atomic (f := Formula.const b) (by cases b <;> rfl) hc]; omega
  lit _ d l _ n hc := by rw [chain_atomic rfl hc]; omega
  cc _ d c r vs _ _ _ _ n hc := by rw [chain_atomic rfl hc]; omega
  pbcc _ d c r vs _ _ _ _ n hc := by rw [chain_atomic rfl hc]; omega
  pbc _ d c r ts _ _ _ _ n hc := by rw [chain_atomic rfl hc]; omega
  not _ d f hf _ n hc := by
    cases f with
    | tru => rw [chain_atomic (f := .fls) rfl hc]; omega
    | fls => rw [chain_atomic (f := .tru) rfl hc]; omega
    | lit l => rw [chain_atomic (f := .lit l.neg) rfl hc]; omega
    | not f => have := hf (n + 1) (.cons (List.mem_singleton.2 rfl) hc); omega
    | _ => exact chain_op (fun o ho n hc => hf n (by rw [List.mem_singleton.1 ho] at hc; exact hc)) hc
  impl _ d a b x y ha hb e n hc := by
    rcases impl_cases e with ⟨rfl, rfl⟩ | rfl | rfl
    · refine chain_op (fun o ho n hc' => ?_) hc
      simp only [operands, List.mem_cons, List.not_mem_nil, or_false] at ho
      rcases ho with rfl | rfl
      · exact ha _ hc'
      · exact hb _ hc'
    · exact Nat.le_succ_of_le (hb n hc)
    · have := ha (n + 1) (.cons (List.mem_singleton.2 rfl) hc); omega
  equiv _ d a b x y ha hb e n hc := by
    rcases equiv_cases e with ⟨rfl, rfl⟩ | ⟨rfl, rfl⟩ | rfl | rfl | rfl | rfl
    · refine chain_op (fun o ho n hc' => ?_) hc
      simp only [operands, List.mem_cons, List.not_mem_nil, or_false] at ho
      rcases ho with rfl | rfl
      · exact ha _ hc'
      · exact hb _ hc'
    · refine chain_op (fun o ho n hc' => ?_) hc
      simp only [operands, List.mem_cons, List.not_mem_nil, or_false] at ho
      rcases ho with rfl | rfl
      · exact hb _ hc'
      · exact ha _ hc'
    · exact Nat.le_succ_of_le (ha n hc)
    · exact Nat.le_succ_of_le (hb n hc)
    · have := ha (n + 1) (.cons (List.mem_singleton.2 rfl) hc); omega
    · have := hb (n + 1) (.cons (List.mem_singleton.2 rfl) hc); omega
  nary o _ d fs l hf e n hc := by
    refine chain_op (fun x hx n hc => ?_) hc
    obtain ⟨f, hfm, hl⟩ := nary_leaf e x hx
    obtain ⟨m, h1, h2⟩ := chain_leaf hl hc
    exact Nat.le_trans h1 (hf f hfm m h2)

theorem wp_ok {α : Type} {pan : Prop} {x : G α} {Q : α → Prop} (h : Wp pan x Q) {p q : Nat} {a : α} (e : x p = .ok (a, q)) : Q a := by
  have := h p
  rw [e] at this
  exact this

theorem picks_true : Picks E fun _ => True := ⟨fun _ => trivial, fun _ => trivial⟩

theorem occ_within {c : RCfg F} {f : Formula} (h : ∀ g, Sub g f → Within c A g) {v : Var} (hv : Occ v f) : v ∈ c.vars := by
  induction hv with
  | lit p => exact (h _ (.refl _)).2
  | not _ ih => exact ih fun g hg => h g (.op (List.mem_singleton.2 rfl) hg)
  | implL _ ih => exact ih fun g hg => h g (.op (by simp [operands]) hg)
  | implR _ ih => exact ih fun g hg => h g (.op (by simp [operands]) hg)
  | equivL _ ih => exact ih fun g hg => h g (.op (by simp [operands]) hg)
  | equivR _ ih => exact ih fun g hg => h g (.op (by simp [operands]) hg)
  | nary hm _ ih => exact ih fun g hg => h g (.op (show _ ∈ operands (.nary _ _) from hm) hg)
  | cc hm => exact (h _ (.refl _)).2.1 _ hm
  | pbc hm e => exact e ▸ ((h _ (.refl _)).2.2.2 _ hm).1

/-- **C68**: a random formula of maximal depth `d` (also a random conjunction, disjunction, negation, implication, equivalence) has at most this depth, all its variables are
among those of the configuration, and its constraints keep to the bounds, for all random numbers and any arithmetic.  Missing: that a result is reached, which is not always so
(`C68_one_variable_diverges`, `C68_negation_diverges`), and the bound on the operands of conjunctions (`C68_operands_wrong`). -/
theorem C68_formula_partial {fuel d p q : Nat} {k : Option Kind} {f : Formula} (e : gen E fuel k d p = .ok (f, q)) :
    (∀ n, Chain n f → n ≤ d) ∧ (∀ v, Occ v f → v ∈ E.cfg.vars) ∧ ∀ g, Sub g f → Within E.cfg (fun _ => True) g := by
  have h1 := (wp_ok (wp_gen (pan := True) (A := fun _ => True) cls_depth (fun h => (h trivial).elim) picks_true fuel k d fun _ _ => trivial) e).1
  have h2 := (wp_ok (wp_gen (pan := True) (A := fun _ => True) cls_within (fun h => (h trivial).elim) picks_true fuel k d fun _ _ => trivial) e).1
  exact ⟨h1, fun v hv => occ_within h2 hv, h2⟩

/-- **C68**: a random conjunction, disjunction, implication or equivalence of depth at least 1 is one, a random negation of depth at least 2 is one. -/
theorem C68_kind {fuel d p q : Nat} {k : Kind} {f : Formula} (e : gen E fuel (some k) (d + 1) p = .ok (f, q)) :
    (k = .and → ∃ l, f = .nary .conj l) ∧ (k = .or → ∃ l, f = .nary .disj l) ∧ (k = .impl → ∃ a b, f = .impl a b) ∧ (k = .equiv → ∃ a b, f = .equiv a b) ∧
    (k = .not → 1 ≤ d → ∃ a, f = .not a) := by
  have h := (wp_ok (wp_gen (pan := True) (A := fun _ => True) cls_depth (fun h => (h trivial).elim) picks_true fuel (some k) (d + 1) fun _ _ => trivial) e).2
  refine ⟨?_, ?_, ?_, ?_, ?_⟩ <;> rintro rfl
  · exact h
  · exact h
  · exact h
  · exact h
  · intro hd
    cases d with
    | zero => cases hd
    | succ d => exact h

/-- **C68**: no call panics if there is a variable, the bounds for conjunctions and disjunctions are at least 3, for cardinality constraints at least 2 and for pseudo-Boolean
constraints at least 1. -/
theorem C68_no_panic (hv : E.cfg.vars ≠ []) (ha : 3 ≤ E.cfg.maxAnd) (ho : 3 ≤ E.cfg.maxOr) (hc : 2 ≤ E.cfg.maxCc) (hp : 1 ≤ E.cfg.maxPbc) (hco : 1 ≤ E.cfg.maxCoeff)
    (fuel : Nat) (k : Option Kind) (d p : Nat) : gen E fuel k d p ≠ .panic := by
  intro e
  have := wp_gen (E := E) (pan := False) (A := fun _ => True) cls_depth (fun _ => ⟨fun _ => hv, fun _ => ⟨hp, hco⟩, fun _ => hc, fun _ => ha, fun _ => ho⟩) picks_true fuel k d (fun _ _ => trivial) p
  rw [e] at this
  exact this

/-- **C68**: with at most 2 operands allowed, every random conjunction panics, although two operands would do. -/
theorem C68_two_operands_panics (h : E.cfg.maxAnd ≤ 2) (fuel d p : Nat) : gen E (fuel + 1) (some .and) (d + 1) p = .panic := by
  show G.bind (range E 2 E.cfg.maxAnd) _ p = .panic
  unfold G.bind range
  rw [if_neg (by omega)]

/-! ### Calls without end -/

/-- Constants and literals. -/
def Simple : Formula → Prop
  | .tru => True
  | .fls => True
  | .lit _ => True
  | _ => False

theorem Simple.not {f : Formula} (h : Simple f) : Simple (mkNot f) ∧ (mkNot f).isNot = false := by
  cases f <;> first | exact ⟨trivial, rfl⟩ | exact h.elim

/-- Constants and literals of one variable. -/
def Single (v : Var) : Formula → Prop
  | .tru => True
  | .fls => True
  | .lit l => l.v = v
  | _ => False

theorem Single.simple {v : Var} {f : Formula} (h : Single v f) : Simple f := by
  cases f <;> first | trivial | exact h

theorem Single.norm {v : Var} {f : Formula} (h : Single v f) : f.Norm := by
  cases f <;> first | exact .tru | exact .fls | exact .lit _ | exact h.elim

theorem single_leaf {v : Var} {o : Op} {g f : Formula} (h : Single v f) (hl : OLeaf o g f) : Single v g := by
  cases hl with
  | self _ => exact h
  | nary _ _ => exact h.elim

theorem single_nary {v : Var} {K : Canon} {o : Op} {fs l : List Formula} (h : ∀ f ∈ fs, Single v f) : mkNary K o fs ≠ .nary o l := by
  intro e
  have hn := norm_mkNary K o fun f hf => (h f hf).norm
  rw [e] at hn
  have hl : ∀ g ∈ l, Single v g := fun g hg => by
    obtain ⟨f, hf, h'⟩ := nary_leaf e g hg
    exact single_leaf (h f hf) h'
  cases hn with
  | nary h2 _ hg =>
    match l, h2, hl, hg with
    | a :: b :: l, _, hl, hg =>
      have ha := hl a (by simp)
      have hb := hl b (by simp)
      have ca := hg.notConst a (by simp)
      have cb := hg.notConst b (by simp)
      cases a with
      | lit x =>
        cases b with
        | lit y =>
          obtain ⟨vx, px⟩ := x
          obtain ⟨vy, py⟩ := y
          have ha : vx = v := ha
          have hb : vy = v := hb
          subst ha hb
          have hne : px ≠ py := by
            rintro rfl
            exact (List.nodup_cons.1 hg.nodup).1 (by simp)
          refine hg.noLitCompl ⟨vy, px⟩ (by simp) ?_
          have : (Lit.mk vy px).neg = ⟨vy, py⟩ := by
            cases px <;> cases py <;> first | rfl | exact absurd rfl hne
          rw [this]; simp
        | tru => cases cb
        | fls => cases cb
        | _ => exact hb
      | tru => cases ca
      | fls => cases ca
      | _ => exact ha

theorem cls_single {v : Var} (hv : E.cfg.vars = [v]) : Cls E (fun k => k ≠ .pbc ∧ k ≠ .cc ∧ k ≠ .amo ∧ k ≠ .exo) fun _ f => Single v f where
  const _ _ b := by cases b <;> trivial
  lit _ _ l hl := by rw [hv] at hl; exact List.mem_singleton.1 hl
  cc h := by rcases h with h | h | h <;> simp at h
  pbcc h := absurd rfl h.1
  pbc h := absurd rfl h.1
  not _ _ f hf _ := by cases f <;> first | exact hf.elim | exact hf
  impl _ _ a b x y ha hb e := by
    exfalso
    have hx : mkImpl E.K a b ≠ .impl x y := by
      cases a with
      | tru => cases b <;> simp [mkImpl, Single] at hb ⊢
      | fls => simp [mkImpl]
      | lit l =>
        cases b with
        | tru => simp [mkImpl]
        | fls => simp [mkImpl, mkNot]
        | lit m =>
          obtain ⟨vl, pl⟩ := l
          obtain ⟨vm, pm⟩ := m
          have ha : vl = v := ha
          have hb : vm = v := hb
          subst ha hb
          cases pl <;> cases pm <;> simp [mkImpl, mkNeg, Lit.neg]
        | _ => exact hb.elim
      | _ => exact ha.elim
    exact hx e
  equiv _ _ a b x y ha hb e := by
    exfalso
    have hx : mkEquiv E.K a b ≠ .equiv x y := by
      cases a with
      | tru => cases b <;> simp [mkEquiv, Single] at hb ⊢
      | fls => cases b <;> simp [mkEquiv, Single, mkNot] at hb ⊢
      | lit l =>
        cases b with
        | tru => simp [mkEquiv]
        | fls => simp [mkEquiv, mkNot]
        | lit m =>
          obtain ⟨vl, pl⟩ := l
          obtain ⟨vm, pm⟩ := m
          have ha : vl = v := ha
          have hb : vm = v := hb
          subst ha hb
          cases pl <;> cases pm <;> simp [mkEquiv, mkNeg, Lit.neg]
        | _ => exact hb.elim
      | _ => exact ha.elim
    exact hx e
  nary o _ _ fs l hf e := (single_nary hf e).elim

theorem cls_simple : Cls E (fun k => k = .const ∨ k = .lit ∨ k = .not) fun _ f => Simple f where
  const _ _ b := by cases b <;> trivial
  lit _ _ _ _ := trivial
  cc h := by simp at h
  pbcc h := by simp at h
  pbc h := by simp at h
  not _ _ f hf _ := hf.not.1
  impl h := by simp at h
  equiv h := by simp at h
  nary o h := by cases o <;> simp [opKind] at h

end

/-! ### Exact arithmetic -/

/-- The weight of a kind. -/
def RCfg.weight {F : Type} [Add F] (c : RCfg F) : Kind → F
  | .const => c.wConst
  | .lit => c.wVar + c.wNeg
  | .pbc => c.wPbc
  | .cc => c.wCc
  | .amo => c.wAmo
  | .exo => c.wExo
  | .or => c.wOr
  | .and => c.wAnd
  | .not => c.wNot
  | .impl => c.wImpl
  | .equiv => c.wEquiv

/-- Weights are not negative, and some atomic formula has a weight that is positive. -/
structure Weights (c : RCfg ℚ) : Prop where
  var : 0 ≤ c.wVar
  neg : 0 ≤ c.wNeg
  nonneg : ∀ k, 0 ≤ c.weight k
  atom : 0 < c.wConst + (c.wVar + c.wNeg) + c.wPbc + c.wCc + c.wAmo + c.wExo

/-- `Rng::f32` yields numbers from 0 to below 1. -/
def Unit (E : REnv ℚ) : Prop := ∀ r, 0 ≤ E.unit r ∧ E.unit r < 1

/-- Kinds of weight 0 have no share. -/
structure Thr (P : Probs ℚ) (w : Kind → ℚ) : Prop where
  const : w .const = 0 → P.const = 0
  lit : w .lit = 0 → P.lit = P.const
  pbc : w .pbc = 0 → P.pbc = P.lit
  cc : w .cc = 0 → P.cc = P.pbc
  amo : w .amo = 0 → P.amo = P.cc
  exo : w .exo = 0 → P.exo = P.amo
  or : w .or = 0 → P.or = P.exo
  and : w .and = 0 → P.and = P.or
  not : w .not = 0 → P.not = P.and
  impl : w .impl = 0 → P.impl = P.not
  equiv : w .equiv = 0 → P.impl = 1

theorem Thr.pick {P : Probs ℚ} {w : Kind → ℚ} (h : Thr P w) {x : ℚ} (h0 : 0 ≤ x) (h1 : x < 1) : w (P.pick x) ≠ 0 := by
  unfold Probs.pick
  repeat' split
  · intro e; have := h.const e; linarith
  · intro e; have := h.lit e; linarith
  · intro e; have := h.pbc e; linarith
  · intro e; have := h.cc e; linarith
  · intro e; have := h.amo e; linarith
  · intro e; have := h.exo e; linarith
  · intro e; have := h.or e; linarith
  · intro e; have := h.and e; linarith
  · intro e; have := h.not e; linarith
  · intro e; have := h.impl e; linarith
  · intro e; have := h.equiv e; linarith

theorem Thr.pickAtom {P : Probs ℚ} {w : Kind → ℚ} (h : Thr P w) {x : ℚ} (h0 : 0 ≤ x) (h1 : x < P.exo) : w (P.pickAtom x) ≠ 0 := by
  unfold Probs.pickAtom
  repeat' split
  · intro e; have := h.const e; linarith
  · intro e; have := h.lit e; linarith
  · intro e; have := h.pbc e; linarith
  · intro e; have := h.cc e; linarith
  · intro e; have := h.amo e; linarith
  · intro e; have := h.exo e; linarith

theorem picks_weight {E : REnv ℚ} (hw : Weights E.cfg) (hu : Unit E) : Picks E fun k => E.cfg.weight k ≠ 0 := by
  obtain ⟨hv, hn, hk, hat⟩ := hw
  have k7 := hk .or; have k8 := hk .and; have k9 := hk .not; have k10 := hk .impl; have k11 := hk .equiv
  simp only [RCfg.weight] at k7 k8 k9 k10 k11
  have ht : 0 < E.cfg.total := by unfold RCfg.total; linarith
  have hsum : E.cfg.probs.impl + E.cfg.wEquiv / E.cfg.total = 1 := by
    have h2 : E.cfg.total / E.cfg.total = 1 := div_self (ne_of_gt ht)
    simp only [RCfg.probs, ← add_div]
    rw [← h2]
    congr 1
    unfold RCfg.total; ring
  have hexo : 0 < E.cfg.probs.exo := by
    simp only [RCfg.probs, ← add_div]
    exact div_pos hat ht
  have hz : ∀ a b w : ℚ, a = b + w / E.cfg.total → w = 0 → a = b := fun a b w h e => by rw [h, e, zero_div, add_zero]
  have hT : Thr E.cfg.probs E.cfg.weight := by
    refine ⟨fun e => ?_, hz _ _ _ rfl, hz _ _ _ rfl, hz _ _ _ rfl, hz _ _ _ rfl, hz _ _ _ rfl, hz _ _ _ rfl, hz _ _ _ rfl, hz _ _ _ rfl, hz _ _ _ rfl, fun e => ?_⟩
    · have e : E.cfg.wConst = 0 := e
      show E.cfg.wConst / E.cfg.total = 0
      rw [e, zero_div]
    · have e : E.cfg.wEquiv = 0 := e
      rw [e, zero_div, add_zero] at hsum
      exact hsum
  refine ⟨fun r => hT.pick (hu r).1 (hu r).2, fun r => hT.pickAtom (mul_nonneg (hu r).1 (le_of_lt hexo)) ?_⟩
  have := mul_lt_mul_of_pos_right (hu r).2 hexo
  rwa [one_mul] at this

/-- **C68**: with exact arithmetic a random formula has no sub-formula of a kind with weight 0 (constraints made by `pbc` may be cardinality constraints), if the weights of atomic
formulas are not all 0. -/
theorem C68_weights {E : REnv ℚ} (hw : Weights E.cfg) (hu : Unit E) {fuel d p q : Nat} {f : Formula} (e : gen E fuel none d p = .ok (f, q)) :
    ∀ g, Sub g f → Within E.cfg (fun k => E.cfg.weight k ≠ 0) g :=
  (wp_ok (wp_gen (pan := True) cls_within (fun h => (h trivial).elim) (picks_weight hw hu) fuel none d nofun) e).1

/-- **C68**: over one variable and without constraints, random conjunctions, disjunctions, implications, equivalences and (of depth at least 2) negations are searched for ever, whatever
the random numbers; `formula` yields at most constants and literals. -/
theorem C68_one_variable_diverges {E : REnv ℚ} {v : Var} (hv : E.cfg.vars = [v]) (ha : 3 ≤ E.cfg.maxAnd) (ho : 3 ≤ E.cfg.maxOr) (hw : Weights E.cfg) (hu : Unit E)
    (hc : E.cfg.wPbc = 0 ∧ E.cfg.wCc = 0 ∧ E.cfg.wAmo = 0 ∧ E.cfg.wExo = 0) (fuel d p : Nat) :
    (∀ k, k = .and ∨ k = .or ∨ k = .impl ∨ k = .equiv → gen E fuel (some k) (d + 1) p = .diverge) ∧ gen E fuel (some .not) (d + 2) p = .diverge := by
  have hp : Picks E fun k => k ≠ .pbc ∧ k ≠ .cc ∧ k ≠ .amo ∧ k ≠ .exo := by
    have h := picks_weight hw hu
    have h' : ∀ k, E.cfg.weight k ≠ 0 → k ≠ .pbc ∧ k ≠ .cc ∧ k ≠ .amo ∧ k ≠ .exo := fun k hk => by
      refine ⟨?_, ?_, ?_, ?_⟩ <;> rintro rfl
      · exact hk hc.1
      · exact hk hc.2.1
      · exact hk hc.2.2.1
      · exact hk hc.2.2.2
    exact ⟨fun r => h' _ (h.any r), fun r => h' _ (h.atom r)⟩
  have hne : NoEmpty E.cfg fun k => k ≠ .pbc ∧ k ≠ .cc ∧ k ≠ .amo ∧ k ≠ .exo := by
    refine ⟨fun _ => by rw [hv]; exact nofun, fun h => absurd rfl h.1, fun h => ?_, fun _ => ha, fun _ => ho⟩
    rcases h with h | h | h <;> simp at h
  have key : ∀ k d, (k ≠ .pbc ∧ k ≠ .cc ∧ k ≠ .amo ∧ k ≠ .exo) → (∀ f, Single v f → ¬ Asked (some k) d f) → gen E fuel (some k) d p = .diverge := by
    intro k d hk hf
    have h := wp_gen (pan := False) (cls_single hv) (fun _ => hne) hp fuel (some k) d (fun k' e => by cases e; exact hk) p
    revert h
    match gen E fuel (some k) d p with
    | .panic => exact fun h => h.elim
    | .diverge => exact fun _ => rfl
    | .ok (f, _) => exact fun h => absurd h.2 (hf f h.1)
  refine ⟨fun k hk => key k (d + 1) (by rcases hk with rfl | rfl | rfl | rfl <;> exact ⟨nofun, nofun, nofun, nofun⟩) fun f hf h => ?_,
    key .not (d + 2) ⟨nofun, nofun, nofun, nofun⟩ fun f hf h => ?_⟩
  · rcases hk with rfl | rfl | rfl | rfl
    · obtain ⟨l, rfl⟩ := h; exact hf
    · obtain ⟨l, rfl⟩ := h; exact hf
    · obtain ⟨a, b, rfl⟩ := h; exact hf
    · obtain ⟨a, b, rfl⟩ := h; exact hf
  · obtain ⟨a, rfl⟩ := h; exact hf

/-- **C68**: if only constants, literals and negations have weights, a random negation of depth at least 2 is searched for ever. -/
theorem C68_negation_diverges {E : REnv ℚ} (hv : E.cfg.vars ≠ []) (hw : Weights E.cfg) (hu : Unit E) (hc : ∀ k, E.cfg.weight k ≠ 0 → k = .const ∨ k = .lit ∨ k = .not) (fuel d p : Nat) :
    gen E fuel (some .not) (d + 2) p = .diverge := by
  have h0 := picks_weight hw hu
  have hp : Picks E fun k => k = .const ∨ k = .lit ∨ k = .not := ⟨fun r => hc _ (h0.any r), fun r => hc _ (h0.atom r)⟩
  have hne : NoEmpty E.cfg fun k => k = .const ∨ k = .lit ∨ k = .not := ⟨fun _ => hv, fun h => by simp at h, fun h => by simp at h, fun h => by simp at h, fun h => by simp at h⟩
  have h := wp_gen (pan := False) cls_simple (fun _ => hne) hp fuel (some .not) (d + 2) (fun k' e => by cases e; exact .inr (.inr rfl)) p
  revert h
  match gen E fuel (some .not) (d + 2) p with
  | .panic => exact fun h => h.elim
  | .diverge => exact fun _ => rfl
  | .ok (f, _) =>
    rintro ⟨h1, a, rfl⟩
    exact h1.elim

/-! ### Runs -/

deriving instance DecidableEq for Out

/-- `default_with_variables`, formula_randomizer.rs:71-100. -/
def defaultCfg (vars : List Var) : RCfg ℚ :=
  { vars, wConst := 1 / 10, wVar := 1, wNeg := 1, wOr := 30, wAnd := 30, wNot := 1, wImpl := 1, wEquiv := 1, maxAnd := 5, maxOr := 5, wPbc := 0, wCoPos := 1, wCoNeg := 1 / 5,
    wLe := 1 / 5, wLt := 1 / 5, wGe := 1 / 5, wGt := 1 / 5, wEq := 1 / 5, maxPbc := 5, maxCoeff := 10, wCc := 0, wAmo := 0, wExo := 0, maxCc := 5 }

theorem weights_default (vars : List Var) : Weights (defaultCfg vars) :=
  ⟨by simp [defaultCfg], by simp [defaultCfg], fun k => by cases k <;> simp [defaultCfg, RCfg.weight] <;> norm_num, by simp [defaultCfg]; norm_num⟩

/-- A randomizer from a list of raw numbers. -/
def exR (c : RCfg ℚ) (l : List Nat) : REnv ℚ := ⟨canon0, c, fun p => l.getD p 0, fun r => (r % 1024 : Nat) / 1024⟩

theorem unit_exR (c : RCfg ℚ) (l : List Nat) : Unit (exR c l) := by
  intro r
  have h : r % 1024 < 1024 := Nat.mod_lt _ (by decide)
  show 0 ≤ ((r % 1024 : Nat) : ℚ) / 1024 ∧ ((r % 1024 : Nat) : ℚ) / 1024 < 1
  have h' : ((r % 1024 : Nat) : ℚ) < 1024 := by exact_mod_cast h
  exact ⟨by positivity, by rw [div_lt_one (by norm_num)]; exact h'⟩

/-- Draws of a conjunction of four conjunctions of four literals each. -/
def exDraws : List Nat := 2 :: (List.range 4).flatMap fun i => 768 :: 2 :: (List.range 4).flatMap fun j => [512, 0, 4 * i + j]

/-- **C68**: the bound on the operands of a conjunction does not hold: with the default bound 5 there is a conjunction of depth 1 with 16 operands. -/
theorem C68_operands_wrong : ∃ (E : REnv ℚ) (fuel p q : Nat) (l : List Formula), Weights E.cfg ∧ Unit E ∧ E.cfg.maxAnd = 5 ∧
    gen E fuel (some .and) 2 p = .ok (.nary .conj l, q) ∧ l.length = 16 := by
  refine ⟨exR (defaultCfg ((List.range 16).map .named)) exDraws, 10, 0, 57, (List.range 16).map fun i => .lit ⟨.named i, true⟩, weights_default _, unit_exR _ _, rfl, ?_, rfl⟩
  decide +kernel

/-- Example: a run to which the theorems apply, with its result `(v1 ∧ ¬v0) ⇒ v2`. -/
example : Weights (defaultCfg [.named 0, .named 1, .named 2]) ∧ Unit (exR (defaultCfg [.named 0, .named 1, .named 2]) [768, 0, 512, 0, 1, 512, 512, 0, 16, 0, 2]) ∧
    gen (exR (defaultCfg [.named 0, .named 1, .named 2]) [768, 0, 512, 0, 1, 512, 512, 0, 16, 0, 2]) 10 (some .impl) 2 0 =
      .ok (.impl (.nary .conj [.lit ⟨.named 1, true⟩, .lit ⟨.named 0, false⟩]) (.lit ⟨.named 2, true⟩), 11) :=
  ⟨weights_default _, unit_exR _ _, by decide +kernel⟩

/-- Example: pseudo-Boolean and cardinality constraints within the bounds. -/
example : ∃ f q, gen (exR { defaultCfg [.named 0, .named 1] with wPbc := 1, wCc := 1 } [600, 2, 0, 0, 4, 0, 512, 1, 2, 512, 1000, 5]) 10 none 0 0 = .ok (.pbc f, q) := by
  refine ⟨⟨[(⟨.named 0, true⟩, -5), (⟨.named 1, false⟩, 3)], .eq, 0⟩, 12, ?_⟩
  decide +kernel

/-- Example: the default configuration with one variable. -/
example (fuel p : Nat) : gen (exR (defaultCfg [.named 0]) [1, 2, 3]) fuel (some .and) 1 p = .diverge :=
  (C68_one_variable_diverges (v := .named 0) rfl (by decide) (by decide) (weights_default _) (unit_exR _ _) ⟨rfl, rfl, rfl, rfl⟩ fuel 0 p).1 _ (.inl rfl)

/-- Example: only literals and negations. -/
example (fuel p : Nat) : gen (exR { defaultCfg [.named 0, .named 1] with wConst := 0, wOr := 0, wAnd := 0, wImpl := 0, wEquiv := 0 } [1, 2, 3]) fuel (some .not) 2 p = .diverge := by
  refine C68_negation_diverges (by decide) ⟨by simp [exR, defaultCfg], by simp [exR, defaultCfg], fun k => by cases k <;> simp [exR, defaultCfg, RCfg.weight] <;> norm_num, by simp [exR, defaultCfg]⟩
    (unit_exR _ _) (fun k => ?_) fuel 0 p
  cases k <;> simp [exR, defaultCfg, RCfg.weight]

end Verif.Rnd
