import Verif.F.Nnf
/-
Model of src/operations/transformations/cnf/factorization.rs and dnf/factorization.rs (the two
are dual; `o` is the outer operator: conjunction for CNF, disjunction for DNF), with handlers,
local and global caches.
-/
namespace Verif
open ER

/-- `ClauseLimitFactorizationHandler`, src/handlers/factorization_handler.rs:37-78; no limits is
`NopFactorizationHandler` (the counters then are not part of the original).  `u64` counters are
natural numbers. -/
structure Lim where
  dists : Nat
  clauses : Nat
  dl : Option Nat
  cl : Option Nat

/-- `started`, factorization_handler.rs:54-58. -/
def Lim.start (h : Lim) : Lim := { h with dists := 0, clauses := 0 }

/-- A counter above its limit. -/
def above : Nat → Option Nat → Bool
  | _, none => false
  | n, some l => decide (n > l)

/-- Computations that may be aborted by the handler (`Result<_, FactorizationError>`). -/
abbrev LM (α : Type) := Lim → Option α × Lim

def LM.pure {α : Type} (a : α) : LM α := fun h => (some a, h)
def LM.bind {α β : Type} (m : LM α) (k : α → LM β) : LM β := fun h =>
  match m h with
  | (none, h) => (none, h)
  | (some a, h) => k a h

/-- `performed_distribution`, factorization_handler.rs:66-70. -/
def lmDist : LM Unit := fun h => (if above (h.dists + 1) h.dl then none else some (), { h with dists := h.dists + 1 })

/-- `created_clause`, factorization_handler.rs:72-76. -/
def lmClause : LM Unit := fun h => (if above (h.clauses + 1) h.cl then none else some (), { h with clauses := h.clauses + 1 })

/-- The end of `distribute`, cnf/factorization.rs:107-108, dnf/factorization.rs:113-114. -/
def distLeaf (C : Canon) (o : Op) (x y : Formula) : LM Formula :=
  let r := Formula.mkNary C o.dual [x, y]
  lmClause.bind fun _ => .pure r

mutual
/-- `distribute(x, y)` when `y` is not an `o`-node: cnf/factorization.rs:92-110,
dnf/factorization.rs:97-116. -/
def distR (C : Canon) (o : Op) : Formula → Formula → LM Formula
  | .nary o' fs, y => lmDist.bind fun _ =>
    if o' = o then (distRs C o fs y).bind fun gs => .pure (Formula.mkNary C o gs)
    else distLeaf C o (.nary o' fs) y
  | .tru, y => lmDist.bind fun _ => distLeaf C o .tru y
  | .fls, y => lmDist.bind fun _ => distLeaf C o .fls y
  | .lit l, y => lmDist.bind fun _ => distLeaf C o (.lit l) y
  | .not f, y => lmDist.bind fun _ => distLeaf C o (.not f) y
  | .impl a b, y => lmDist.bind fun _ => distLeaf C o (.impl a b) y
  | .equiv a b, y => lmDist.bind fun _ => distLeaf C o (.equiv a b) y
  | .cc c, y => lmDist.bind fun _ => distLeaf C o (.cc c) y
  | .pbc p, y => lmDist.bind fun _ => distLeaf C o (.pbc p) y
def distRs (C : Canon) (o : Op) : List Formula → Formula → LM (List Formula)
  | [], _ => .pure []
  | x :: xs, y => (distR C o x y).bind fun g => (distRs C o xs y).bind fun gs => .pure (g :: gs)
end

/-- `distribute(f1, f2)` when `f1` is not an `o`-node: operands of `f2` come first then. -/
def distNon (C : Canon) (o : Op) (f1 f2 : Formula) : LM Formula :=
  lmDist.bind fun _ =>
    match f2 with
    | .nary o' fs =>
      if o' = o then (distRs C o fs f1).bind fun gs => .pure (Formula.mkNary C o gs)
      else distLeaf C o f1 (.nary o' fs)
    | f2 => distLeaf C o f1 f2

mutual
/-- `distribute`, cnf/factorization.rs:92-110, dnf/factorization.rs:97-116. -/
def distribute (C : Canon) (o : Op) : Formula → Formula → LM Formula
  | .nary o' fs, y =>
    if o' = o then lmDist.bind fun _ => (distributes C o fs y).bind fun gs => .pure (Formula.mkNary C o gs)
    else distNon C o (.nary o' fs) y
  | .tru, y => distNon C o .tru y
  | .fls, y => distNon C o .fls y
  | .lit l, y => distNon C o (.lit l) y
  | .not f, y => distNon C o (.not f) y
  | .impl a b, y => distNon C o (.impl a b) y
  | .equiv a b, y => distNon C o (.equiv a b) y
  | .cc c, y => distNon C o (.cc c) y
  | .pbc p, y => distNon C o (.pbc p) y
def distributes (C : Canon) (o : Op) : List Formula → Formula → LM (List Formula)
  | [], _ => .pure []
  | x :: xs, y => (distribute C o x y).bind fun g => (distributes C o xs y).bind fun gs => .pure (g :: gs)
end

/-- The loop of `handle_or` (CNF, cnf/factorization.rs:72-74) or `handle_and` (DNF,
dnf/factorization.rs:77-79). -/
def distFold (C : Canon) (o : Op) : Formula → List Formula → LM Formula
  | r, [] => .pure r
  | r, x :: xs => (distribute C o r x).bind fun r => distFold C o r xs

/-- State of a factorization: factory, local cache, handler. -/
structure FSt where
  w : World
  lc : Memo Formula
  h : Lim

/-- Computations on it; the outer `none` is a panic, the inner one an abort. -/
abbrev FM (α : Type) := FSt → Option (Option α × FSt)

def FM.pure {α : Type} (a : α) : FM α := fun s => some (some a, s)
def FM.bind {α β : Type} (m : FM α) (k : α → FM β) : FM β := fun s =>
  match m s with
  | none => none
  | some (none, s) => some (none, s)
  | some (some a, s) => k a s
def FM.lift {α : Type} (m : LM α) : FM α := fun s => some ((m s.h).1, { s with h := (m s.h).2 })
def FM.panic {α : Type} : FM α := fun _ => none
/-- A factory operation inside a factorization. -/
def FM.world {α : Type} (m : World → Option (α × World)) : FM α := fun s =>
  match m s.w with
  | none => none
  | some (a, w) => some (some a, { s with w := w })

/-- The lookups, cnf/factorization.rs:30-38, dnf/factorization.rs:31-32. -/
def facGet (o : Op) (f : Formula) (s : FSt) : Option Formula :=
  match s.lc f with
  | some g => some g
  | none =>
    match o with
    | .conj => s.w.cnfF f
    | .disj => s.w.dnfF f

/-- The insertions, cnf/factorization.rs:46-52, dnf/factorization.rs:43-53. -/
def facPut (cfg : FCfg) (o : Op) (f g : Formula) (s : FSt) : FSt :=
  match o with
  | .conj => if cfg.cCnf then { s with w := { s.w with cnfF := s.w.cnfF.insert f g } } else { s with lc := s.lc.insert f g }
  | .disj =>
    let s := if cfg.cDnf then s else { s with lc := s.lc.insert f g }
    let s := if cfg.cDnf then { s with w := { s.w with dnfF := s.w.dnfF.insert f g } } else s
    if cfg.cIsDnf then { s with w := { s.w with isDnf := s.w.isDnf.insert g true } } else s

/-- The frame of `apply_rec`. -/
def facMemo (cfg : FCfg) (o : Op) (f : Formula) (body : FM Formula) : FM Formula := fun s =>
  match facGet o f s with
  | some g => some (some g, s)
  | none => (body.bind fun g s => some (some g, facPut cfg o f g s)) s

mutual
/-- `apply_rec`, cnf/factorization.rs:22-53, dnf/factorization.rs:25-58; `other` handles the
formulas replaced by their NNF. -/
def facG (C : Canon) (cfg : FCfg) (o : Op) (other : Formula → FM Formula) : Formula → FM Formula
  | .tru => facMemo cfg o .tru (.pure .tru)
  | .fls => facMemo cfg o .fls (.pure .fls)
  | .lit l => facMemo cfg o (.lit l) (.pure (.lit l))
  | .nary o' fs => facMemo cfg o (.nary o' fs) ((facGs C cfg o other fs).bind fun gs =>
      if o' = o then .pure (Formula.mkNary C o gs)
      else
        match gs with
        | [] => .panic
        | g :: gs => .lift (distFold C o g gs))
  | .not f => facMemo cfg o (.not f) (other (.not f))
  | .impl a b => facMemo cfg o (.impl a b) (other (.impl a b))
  | .equiv a b => facMemo cfg o (.equiv a b) (other (.equiv a b))
  | .cc c => facMemo cfg o (.cc c) (other (.cc c))
  | .pbc p => facMemo cfg o (.pbc p) (other (.pbc p))
/-- `compute_nops`, cnf/factorization.rs:79-90. -/
def facGs (C : Canon) (cfg : FCfg) (o : Op) (other : Formula → FM Formula) : List Formula → FM (List Formula)
  | [] => .pure []
  | f :: fs => (facG C cfg o other f).bind fun g => (facGs C cfg o other fs).bind fun gs => .pure (g :: gs)
end

/-- cnf/factorization.rs:42: the NNF contains only constants, literals, conjunctions and
disjunctions, so this happens at most once along a path. -/
def facOther (C : Canon) (cfg : FCfg) (o : Op) (f : Formula) : FM Formula :=
  (FM.world (nnf C cfg f)).bind fun g => facG C cfg o (fun _ => .panic) g

/-- `factorization_cnf_with_handler`, cnf/factorization.rs:9-20, and
`factorization_dnf_with_handler`, dnf/factorization.rs:12-23.  Result, factory, handler. -/
def factorize (C : Canon) (cfg : FCfg) (o : Op) (f : Formula) (h : Lim) (w : World) : Option (Option Formula × World × Lim) :=
  match facG C cfg o (facOther C cfg o) f ⟨w, fun _ => none, h.start⟩ with
  | none => none
  | some (r, s) => some (r, s.w, s.h)

/-- `NopFactorizationHandler`. -/
def Lim.nop : Lim := ⟨0, 0, none, none⟩

/-! ### Shapes -/

/-- Constants, literals and `o`-nodes of literals. -/
inductive IsCl (o : Op) : Formula → Prop
  | tru : IsCl o .tru
  | fls : IsCl o .fls
  | lit (l) : IsCl o (.lit l)
  | nary {fs} : (∀ f ∈ fs, ∃ l, f = .lit l) → IsCl o (.nary o fs)

/-- Normal form with outer operator `o`. -/
inductive IsNf (o : Op) : Formula → Prop
  | cl {f} : IsCl o.dual f → IsNf o f
  | nary {fs} : (∀ f ∈ fs, IsCl o.dual f) → IsNf o (.nary o fs)

theorem isCl_disj {f} : IsCl .disj f ↔ IsClause f := by
  constructor <;> intro h <;> cases h <;> constructor <;> assumption
theorem isCl_conj {f} : IsCl .conj f ↔ IsTerm f := by
  constructor <;> intro h <;> cases h <;> constructor <;> assumption
theorem isNf_conj {f} : IsNf .conj f ↔ IsCnf f := by
  constructor
  · intro h
    cases h with
    | cl h => exact .clause (isCl_disj.1 h)
    | nary h => exact .and fun f hf => isCl_disj.1 (h f hf)
  · intro h
    cases h with
    | clause h => exact .cl (isCl_disj.2 h)
    | and h => exact .nary fun f hf => isCl_disj.2 (h f hf)
theorem isNf_disj {f} : IsNf .disj f ↔ IsDnf f := by
  constructor
  · intro h
    cases h with
    | cl h => exact .term (isCl_conj.1 h)
    | nary h => exact .or fun f hf => isCl_conj.1 (h f hf)
  · intro h
    cases h with
    | term h => exact .cl (isCl_conj.2 h)
    | or h => exact .nary fun f hf => isCl_conj.2 (h f hf)

theorem isCl_leaf {o g f} (hl : OLeaf o g f) (h : IsCl o f) : g.isConst = true ∨ ∃ l, g = .lit l := by
  induction hl with
  | self hs =>
    cases h with
    | tru => exact .inl rfl
    | fls => exact .inl rfl
    | lit l => exact .inr ⟨l, rfl⟩
    | nary _ => exact absurd rfl (hs _)
  | nary hm hl ih =>
    cases h with
    | nary h => obtain ⟨l, rfl⟩ := h _ hm; exact ih (.lit l)

theorem isCl_of_leaf {o g} (h : g.isConst = true ∨ ∃ l, g = .lit l) : IsCl o g := by
  rcases h with h | ⟨l, rfl⟩
  · cases g <;> simp [Formula.isConst] at h <;> constructor
  · exact .lit l

theorem isCl_mkNary (C : Canon) {o fs} (h : ∀ f ∈ fs, IsCl o f) : IsCl o (Formula.mkNary C o fs) := by
  rcases Formula.mkNary_cases C o fs with ⟨e, _⟩ | e | ⟨f, hf, hl⟩ | ⟨l, e, _, h5⟩
  · rw [e]; cases o <;> constructor
  · rw [e]; cases o <;> constructor
  · exact isCl_of_leaf (isCl_leaf hl (h f hf))
  · rw [e]
    refine .nary fun g hg => ?_
    obtain ⟨⟨f, hf, hl⟩, hc⟩ := h5 g hg
    rcases isCl_leaf hl (h f hf) with h | h
    · rw [hc] at h; cases h
    · exact h

theorem isNf_leaf {o g f} (hl : OLeaf o g f) (h : IsNf o f) : IsCl o.dual g := by
  induction hl with
  | self hs =>
    cases h with
    | cl h => exact h
    | nary _ => exact absurd rfl (hs _)
  | nary hm hl ih =>
    cases h with
    | cl h => cases o <;> cases h
    | nary h => exact ih (.cl (h _ hm))

theorem isNf_mkNary (C : Canon) {o} (fs) (h : ∀ f ∈ fs, IsNf o f) : IsNf o (Formula.mkNary C o fs) := by
  rcases Formula.mkNary_cases C o fs with ⟨e, _⟩ | e | ⟨f, hf, hl⟩ | ⟨l, e, _, h5⟩
  · rw [e]; cases o <;> exact .cl (by constructor)
  · rw [e]; cases o <;> exact .cl (by constructor)
  · exact .cl (isNf_leaf hl (h f hf))
  · rw [e]
    refine .nary fun g hg => ?_
    obtain ⟨⟨f, hf, hl⟩, _⟩ := h5 g hg
    exact isNf_leaf hl (h f hf)

theorem isNf_not {o f} (h : IsNf o f) (hn : ∀ fs, f ≠ .nary o fs) : IsCl o.dual f := by
  cases h with
  | cl h => exact h
  | nary _ => exact absurd rfl (hn _)

/-! ### Distribution -/

/-- `g` is a correct distribution of `x` over `y`. -/
structure DistOk (o : Op) (x y g : Formula) : Prop where
  eval : ∀ σ, g.eval σ = o.dual.comb (x.eval σ) (y.eval σ)
  norm : g.Norm
  shape : IsNf o g
  occ : ∀ v, Occ v g → Occ v x ∨ Occ v y

theorem LM.bind_some {α β : Type} {m : LM α} {k : α → LM β} {h b} (e : ((m.bind k) h).1 = some b) :
    ∃ a h', m h = (some a, h') ∧ (k a h').1 = some b := by
  unfold LM.bind at e
  rcases hm : m h with ⟨a, h'⟩
  rw [hm] at e
  cases a with
  | none => simp at e
  | some a => exact ⟨a, h', rfl, e⟩

theorem op_comb_distrib (o : Op) (a b c : Bool) : o.dual.comb (o.comb a b) c = o.comb (o.dual.comb a c) (o.dual.comb b c) := by
  cases o <;> cases a <;> cases b <;> cases c <;> rfl

theorem op_comb_abs (o : Op) (c : Bool) : o.dual.comb (!o.abs) c = !o.abs := by
  cases o <;> cases c <;> rfl

/-- Distribution over a list of operands. -/
theorem dist_list (C : Canon) {o fs gs y} (h : List.Forall₂ (fun x g => DistOk o x y g) fs gs) :
    DistOk o (.nary o fs) y (Formula.mkNary C o gs) := by
  refine ⟨fun σ => ?_, Formula.norm_mkNary C o ?_, isNf_mkNary C gs ?_, fun v hv => ?_⟩
  · rw [Formula.eval_mkNary, Formula.eval_nary]
    induction h with
    | nil => rw [Op.eval_nil]; exact (op_comb_abs o _).symm
    | cons h _ ih => rw [Op.eval_cons, Op.eval_cons, ih, h.eval, op_comb_distrib]
  · intro g hg; obtain ⟨x, _, hk⟩ := forall2_right h hg; exact hk.norm
  · intro g hg; obtain ⟨x, _, hk⟩ := forall2_right h hg; exact hk.shape
  · obtain ⟨g, hg, hv⟩ := Formula.occ_mkNary hv
    obtain ⟨x, hx, hk⟩ := forall2_right h hg
    rcases hk.occ v hv with h | h
    · exact .inl ((Formula.occ_nary ..).2 ⟨x, hx, h⟩)
    · exact .inr h

theorem distLeaf_ok {C : Canon} {o x y h g} (hx : x.Norm) (hy : y.Norm) (sx : IsCl o.dual x) (sy : IsCl o.dual y)
    (e : (distLeaf C o x y h).1 = some g) : DistOk o x y g := by
  unfold distLeaf at e
  obtain ⟨_, h', _, e⟩ := LM.bind_some e
  simp only [LM.pure, Option.some.injEq] at e
  subst e
  refine ⟨fun σ => ?_, Formula.norm_mkNary C _ ?_, .cl (isCl_mkNary C ?_), fun v hv => ?_⟩
  · rw [Formula.eval_mkNary, Op.eval_cons, Op.eval_singleton]
  · intro f hf; simp only [List.mem_cons, List.not_mem_nil, or_false] at hf; rcases hf with rfl | rfl <;> assumption
  · intro f hf; simp only [List.mem_cons, List.not_mem_nil, or_false] at hf; rcases hf with rfl | rfl <;> assumption
  · obtain ⟨g, hg, hv⟩ := Formula.occ_mkNary hv
    simp only [List.mem_cons, List.not_mem_nil, or_false] at hg
    rcases hg with e | e
    · exact .inl (e ▸ hv)
    · exact .inr (e ▸ hv)

theorem isNf_ops {o fs} (h : IsNf o (.nary o fs)) : ∀ f ∈ fs, IsNf o f := by
  cases h with
  | cl h => cases o <;> cases h
  | nary h => exact fun f hf => .cl (h f hf)

theorem distRs_of {C : Canon} {o y} (fs : List Formula)
    (ih : ∀ f ∈ fs, ∀ h g, f.Norm → IsNf o f → (distR C o f y h).1 = some g → DistOk o f y g) :
    ∀ h gs, (∀ f ∈ fs, f.Norm) → (∀ f ∈ fs, IsNf o f) →
    (distRs C o fs y h).1 = some gs → List.Forall₂ (fun x g => DistOk o x y g) fs gs := by
  induction fs with
  | nil => intro h gs _ _ e; simp only [distRs, LM.pure, Option.some.injEq] at e; subst e; exact .nil
  | cons f fs ihl =>
    intro h gs hn hs e
    simp only [distRs] at e
    obtain ⟨g, h3, e3, e⟩ := LM.bind_some e
    obtain ⟨gs', h4, e4, e⟩ := LM.bind_some e
    simp only [LM.pure, Option.some.injEq] at e
    subst e
    exact .cons (ih f (by simp) h g (hn f (by simp)) (hs f (by simp)) (by rw [e3]))
      (ihl (fun f hf => ih f (by simp [hf])) h3 gs' (fun f hf => hn f (by simp [hf])) (fun f hf => hs f (by simp [hf])) (by rw [e4]))

theorem distR_ok {C : Canon} {o y} (hy : y.Norm) (sy : IsCl o.dual y) (x : Formula) : ∀ h g, x.Norm → IsNf o x →
    (distR C o x y h).1 = some g → DistOk o x y g := by
  have leaf : ∀ x h g, x.Norm → IsNf o x → (∀ fs, x ≠ .nary o fs) → ((lmDist.bind fun _ => distLeaf C o x y) h).1 = some g → DistOk o x y g := by
    intro x h g hn hs hx e
    obtain ⟨_, h', _, e⟩ := LM.bind_some e
    exact distLeaf_ok hn hy (isNf_not hs hx) sy e
  induction x using Formula.ind with
  | nary o' fs ih =>
    intro h g hn hs e
    simp only [distR] at e
    by_cases ho : o' = o
    · subst ho
      simp only [if_true] at e
      obtain ⟨_, h1, _, e⟩ := LM.bind_some e
      obtain ⟨gs, h2, e2, e⟩ := LM.bind_some e
      simp only [LM.pure, Option.some.injEq] at e
      subst e
      refine dist_list C ?_
      have hops : ∀ f ∈ fs, f.Norm := by cases hn with | nary _ h _ => exact h
      exact distRs_of fs ih h1 gs hops (isNf_ops hs) (by rw [e2])
    · simp only [if_neg ho] at e
      exact leaf _ h g hn hs (by intro gs e; injection e with e; exact ho e) e
  | _ => intro h g hn hs e; exact leaf _ h g hn hs (by intro gs e; cases e) e

theorem DistOk.swap {o x y g} (h : DistOk o x y g) : DistOk o y x g :=
  ⟨fun σ => by rw [h.eval, Op.comb_comm], h.norm, h.shape, fun v hv => (h.occ v hv).symm⟩

theorem distNon_ok {C : Canon} {o x y h g} (hx : x.Norm) (hy : y.Norm) (sx : IsNf o x) (sy : IsNf o y) (hn : ∀ fs, x ≠ .nary o fs)
    (e : (distNon C o x y h).1 = some g) : DistOk o x y g := by
  have sx := isNf_not sx hn
  unfold distNon at e
  obtain ⟨_, h1, _, e⟩ := LM.bind_some e
  cases y with
  | nary o' fs =>
    simp only at e
    by_cases ho : o' = o
    · subst ho
      simp only [if_true] at e
      obtain ⟨gs, h2, e2, e⟩ := LM.bind_some e
      simp only [LM.pure, Option.some.injEq] at e
      subst e
      have hops : ∀ f ∈ fs, f.Norm := by cases hy with | nary _ h _ => exact h
      exact (dist_list C (distRs_of fs (fun f _ h g => distR_ok hx sx f h g) h1 gs hops (isNf_ops sy) (by rw [e2]))).swap
    · simp only [if_neg ho] at e
      exact distLeaf_ok hx hy sx (isNf_not sy (by intro gs e; injection e with e; exact ho e)) e
  | _ => exact distLeaf_ok hx hy sx (isNf_not sy (by intro gs e; cases e)) e

theorem distributes_of {C : Canon} {o y} (fs : List Formula)
    (ih : ∀ f ∈ fs, ∀ h g, f.Norm → IsNf o f → (distribute C o f y h).1 = some g → DistOk o f y g) :
    ∀ h gs, (∀ f ∈ fs, f.Norm) → (∀ f ∈ fs, IsNf o f) →
    (distributes C o fs y h).1 = some gs → List.Forall₂ (fun x g => DistOk o x y g) fs gs := by
  induction fs with
  | nil => intro h gs _ _ e; simp only [distributes, LM.pure, Option.some.injEq] at e; subst e; exact .nil
  | cons f fs ihl =>
    intro h gs hn hs e
    simp only [distributes] at e
    obtain ⟨g, h3, e3, e⟩ := LM.bind_some e
    obtain ⟨gs', h4, e4, e⟩ := LM.bind_some e
    simp only [LM.pure, Option.some.injEq] at e
    subst e
    exact .cons (ih f (by simp) h g (hn f (by simp)) (hs f (by simp)) (by rw [e3]))
      (ihl (fun f hf => ih f (by simp [hf])) h3 gs' (fun f hf => hn f (by simp [hf])) (fun f hf => hs f (by simp [hf])) (by rw [e4]))

theorem distribute_ok {C : Canon} {o y} (hy : y.Norm) (sy : IsNf o y) (x : Formula) : ∀ h g, x.Norm → IsNf o x →
    (distribute C o x y h).1 = some g → DistOk o x y g := by
  induction x using Formula.ind with
  | nary o' fs ih =>
    intro h g hn hs e
    simp only [distribute] at e
    by_cases ho : o' = o
    · subst ho
      simp only [if_true] at e
      obtain ⟨_, h1, _, e⟩ := LM.bind_some e
      obtain ⟨gs, h2, e2, e⟩ := LM.bind_some e
      simp only [LM.pure, Option.some.injEq] at e
      subst e
      refine dist_list C ?_
      have hops : ∀ f ∈ fs, f.Norm := by cases hn with | nary _ h _ => exact h
      exact distributes_of fs ih h1 gs hops (isNf_ops hs) (by rw [e2])
    · simp only [if_neg ho] at e
      exact distNon_ok hn hy hs sy (by intro gs e; injection e with e; exact ho e) e
  | _ => intro h g hn hs e; exact distNon_ok hn hy hs sy (by intro gs e; cases e) e

/-- The whole loop. -/
theorem distFold_ok {C : Canon} {o} (xs : List Formula) : ∀ r h g, r.Norm → IsNf o r → (∀ x ∈ xs, x.Norm) → (∀ x ∈ xs, IsNf o x) →
    (distFold C o r xs h).1 = some g →
    (∀ σ, g.eval σ = o.dual.eval σ (r :: xs)) ∧ g.Norm ∧ IsNf o g ∧ ∀ v, Occ v g → ∃ x ∈ r :: xs, Occ v x := by
  induction xs with
  | nil =>
    intro r h g hn hs _ _ e
    simp only [distFold, LM.pure, Option.some.injEq] at e
    subst e
    exact ⟨fun σ => (Op.eval_singleton _ σ r).symm, hn, hs, fun v hv => ⟨r, by simp, hv⟩⟩
  | cons x xs ih =>
    intro r h g hn hs hnx hsx e
    simp only [distFold] at e
    obtain ⟨r', h1, e1, e⟩ := LM.bind_some e
    have d := distribute_ok (C := C) (hnx x (by simp)) (hsx x (by simp)) r h r' hn hs (by rw [e1])
    obtain ⟨k1, k2, k3, k4⟩ := ih r' h1 g d.norm d.shape (fun y hy => hnx y (by simp [hy])) (fun y hy => hsx y (by simp [hy])) e
    refine ⟨fun σ => ?_, k2, k3, fun v hv => ?_⟩
    · rw [k1, Op.eval_cons, d.eval, Op.eval_cons, Op.eval_cons, Op.comb_assoc]
    · obtain ⟨z, hz, hv⟩ := k4 v hv
      rcases List.mem_cons.1 hz with rfl | hz
      · rcases d.occ v hv with h | h
        · exact ⟨r, by simp, h⟩
        · exact ⟨x, by simp, h⟩
      · exact ⟨z, by simp [hz], hv⟩

end Verif
