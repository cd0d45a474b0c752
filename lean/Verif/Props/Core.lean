import Verif.Sat.Prop
import Verif.Props.SatFormula
import Mathlib.Data.List.Forall2
import Mathlib.Data.List.Sort
/-
Property C48 (unsatisfiable cores).

The specification is `CSpec`: the formulas and propositions a user expects the solver to hold.  `CRuns E c X x` relates it to the solver after any sequence of calls.
-/
namespace Verif.Sat
open St Verif.Drup

section
variable {F : Type} [LinearOrder F] [Flt F] {B : Type}

/-! ### Clauses as they are recorded -/

theorem litT_pgLit {names : List Var} {l : Lit} (h : l.v ∈ names) (σ : Asg) : Drup.litT (ofNames (fun i => names[i]?) σ) (pgLit (enc names l)) = l.eval σ := by
  have hx : names[names.idxOf l.v]? = some l.v := by
    rw [List.getElem?_eq_getElem (List.idxOf_lt_length_of_mem h), List.getElem_idxOf]
  unfold Drup.litT ofNames Lit.eval pgLit enc
  rw [vr_mkLit, sgn_mkLit]
  cases hp : l.pos
  · have e : (((names.idxOf l.v : Int) + 1) * (if (!false) = true then -1 else 1)).natAbs = names.idxOf l.v + 1 := by simp; omega
    have hn : ¬ 0 < ((names.idxOf l.v : Int) + 1) * (if (!false) = true then -1 else 1) := by simp
    rw [e, if_neg hn, Nat.add_sub_cancel]
    simp [hx]
  · have e : (((names.idxOf l.v : Int) + 1) * (if (!true) = true then -1 else 1)).natAbs = names.idxOf l.v + 1 := by simp; omega
    have hn : 0 < ((names.idxOf l.v : Int) + 1) * (if (!true) = true then -1 else 1) := by simp
    rw [e, if_pos hn, Nat.add_sub_cancel]
    simp [hx]

theorem satC_pgLit {names : List Var} {d : Clause} (h : ∀ l ∈ d, l.v ∈ names) (σ : Asg) :
    satC (ofNames (fun i => names[i]?) σ) (d.map fun l => pgLit (enc names l)) ↔ Clause.Sat σ d := by
  unfold satC Clause.Sat
  constructor
  · rintro ⟨y, hy, ht⟩
    obtain ⟨l, hl, rfl⟩ := List.mem_map.1 hy
    exact ⟨l, hl, by rw [← litT_pgLit (h l hl)]; exact ht⟩
  · rintro ⟨l, hl, ht⟩
    exact ⟨_, List.mem_map_of_mem hl, by rw [litT_pgLit (h l hl)]; exact ht⟩

/-- The variables of the clauses that were added without a proposition. -/
def CMini.Plain (c : AuxTy → Nat) (x : CMini F B) : Prop :=
  ∀ e ∈ x.infos, e.prop = none → ∀ y ∈ e.clause, ∀ v, x.x.m.names[y.natAbs - 1]? = some v → Verif.Known c v

variable {E : Env F} {c : AuxTy → Nat} {X : CSpec B} {x : CMini F B} {Y : NSpec} {G : List Verif.Ent}

theorem zip_tag {R : Clause → Option (Prp B) → Prop} {names : List Var} {cls : List Clause} {ps : List (Option (Prp B))} (h : List.Forall₂ R cls ps) :
    ∀ e ∈ List.zipWith Info.mk (pgNamed names cls) ps, ∃ d ∈ cls, e.clause = d.map (fun l => pgLit (enc names l)) ∧ R d e.prop := by
  induction h with
  | nil => intro e he; cases he
  | @cons d p cls ps hd _ ih =>
    intro e he
    rcases List.mem_cons.1 he with rfl | he
    · exact ⟨d, List.mem_cons_self, rfl, hd⟩
    · obtain ⟨d', h1, h2⟩ := ih e he
      exact ⟨d', List.mem_cons_of_mem _ h1, h2⟩

/-- What the recorded clauses are. -/
theorem CInv.infos (hm : E.C.clauseMin ≠ .none) (hp : E.C.proofGen = true) (h : CInv E c X x Y G) :
    ∀ e ∈ x.infos, ∃ d, (∀ l ∈ d, l.v ∈ x.x.m.names) ∧ e.clause = d.map (fun l => pgLit (enc x.x.m.names l)) ∧ Tag G X.items d e.prop := by
  intro e he
  have hN := h.f.runs.holds hm
  unfold CMini.infos at he
  rw [(h.log hm hp).orig] at he
  obtain ⟨d, hd, h1, h2⟩ := zip_tag h.tag e he
  refine ⟨d, fun l hl => ?_, by rw [hN.names]; exact h1, h2⟩
  rw [hN.names]
  exact hN.over d hd l hl

theorem pgLit_name {names : List Var} {l : Lit} (h : l.v ∈ names) : names[(pgLit (enc names l)).natAbs - 1]? = some l.v := by
  have hx : names[names.idxOf l.v]? = some l.v := by
    rw [List.getElem?_eq_getElem (List.idxOf_lt_length_of_mem h), List.getElem_idxOf]
  have e : (pgLit (enc names l)).natAbs - 1 = names.idxOf l.v := by
    unfold pgLit enc
    rw [vr_mkLit, sgn_mkLit]
    cases l.pos <;> simp <;> omega
  rw [e]
  exact hx

/-! ### Cores -/

/-- C48: the propositions of a core were added as propositions, or are clauses that follow from an added formula (and have no backpack); together they have no
model; a core reported as minimal is one proposition.  Hypotheses: the formulas are over variables the factory knew at the start, and so are the clauses added without
a proposition.  (Missing: the latter cannot be dropped, see `C48_mixed_core`; that a core is reported at all, see `C48_no_core`.) -/
theorem C48_core_partial [DecidableEq B] (hm : E.C.clauseMin ≠ .none) (hcfg : E.cfg.cc.Good) (h : CRuns E c X x) (hX : ∀ i ∈ X.items, ∀ v, Occ v i.f → Verif.Known c v) (hx : x.Plain c)
    {hash : List Int → Int} {fuel : Nat} {ps : List (Prp B)} {mus : Bool} (hc : x.core E hash fuel = some (ps, mus)) :
    (∀ p ∈ ps, Item.prop p ∈ X.items ∨ (p.backpack = none ∧ ∃ f, Item.formula f ∈ X.items ∧ ∀ σ, f.eval σ = true → p.formula.eval σ = true)) ∧
    (∀ σ, ∃ p ∈ ps, p.formula.eval σ = false) ∧ (mus = true → ∃ p, ps = [p]) := by
  have hp : E.C.proofGen = true := by
    unfold CMini.core unsatCore at hc
    split at hc
    · rename_i h1; exact h1.1
    · cases hc
  obtain ⟨Y, G, i⟩ := h.inv hm hcfg hp
  have hinf := i.infos hm hp
  have hext : ∀ σ : Asg, ∃ τ : Asg, (∀ v, Verif.Known c v → τ v = σ v) ∧ EncOk G τ := by
    intro σ
    obtain ⟨τ, ag, ok⟩ := i.f.pg.w.base.ext σ
    exact ⟨τ, fun v hv => (ag v (known_iff.1 hv)).symm, ok⟩
  have plain : ∀ e ∈ x.infos, e.prop = none → ∀ d, (∀ l ∈ d, l.v ∈ x.x.m.names) → e.clause = d.map (fun l => pgLit (enc x.x.m.names l)) →
      ∀ σ τ : Asg, (∀ v, Verif.Known c v → τ v = σ v) → (Clause.Sat τ d ↔ Clause.Sat σ d) := by
    intro e he hpe d hd hcl σ τ hag
    have hk : ∀ l ∈ d, Verif.Known c l.v := fun l hl => hx e he hpe _ (by rw [hcl]; exact List.mem_map_of_mem hl) _ (pgLit_name (hd l hl))
    unfold Clause.Sat
    have : ∀ l ∈ d, l.eval τ = l.eval σ := fun l hl => by unfold Lit.eval; rw [hag _ (hk l hl)]
    exact ⟨fun ⟨l, hl, ht⟩ => ⟨l, hl, by rw [← this l hl]; exact ht⟩, fun ⟨l, hl, ht⟩ => ⟨l, hl, by rw [this l hl]; exact ht⟩⟩
  have hz : ∀ e ∈ x.infos, ∀ y ∈ e.clause, y ≠ 0 := by
    intro e he y hy
    obtain ⟨d, hd, hcl, _⟩ := hinf e he
    rw [hcl] at hy
    obtain ⟨l, hl, rfl⟩ := List.mem_map.1 hy
    exact pgLit_ne _
  have cov : ∀ σ : Asg, ∃ τ : Asg, ∀ e ∈ x.infos, ∀ p, propOf E.K (fun i => x.x.m.names[i]?) e = some p → p.formula.eval σ = true →
      satC (ofNames (fun i => x.x.m.names[i]?) τ) e.clause := by
    intro σ
    obtain ⟨τ, hag, ok⟩ := hext σ
    refine ⟨τ, fun e he p hpe hev => ?_⟩
    obtain ⟨d, hd, hcl, it, hit, hip, himp⟩ := hinf e he
    rw [hcl, satC_pgLit hd]
    unfold propOf at hpe
    cases hq : e.prop with
    | some q =>
      rw [hq] at hpe hip
      injection hpe with hpe
      subst hpe
      refine himp τ ok ?_
      cases it with
      | formula f => cases hip
      | prop q' =>
        injection hip with hip
        subst hip
        rw [← hev]
        exact Formula.eval_congr fun v hv => hag v (hX _ hit v hv)
    | none =>
      rw [hq] at hpe
      obtain ⟨g, hg, rfl⟩ := Option.map_eq_some_iff.1 hpe
      rw [plain e he hq d hd hcl σ τ hag, ← satC_pgLit hd, ← hcl]
      exact (vecFormula_eval hg σ).1 hev
  obtain ⟨k1, k2, k3⟩ := unsatCore_ok hz (i.log hm hp).proof cov hc
  refine ⟨fun p hps => ?_, k2, fun h => List.length_eq_one_iff.1 (k3 h)⟩
  obtain ⟨e, he, hpe⟩ := k1 p hps
  obtain ⟨d, hd, hcl, it, hit, hip, himp⟩ := hinf e he
  unfold propOf at hpe
  cases hq : e.prop with
  | some q =>
    rw [hq] at hpe hip
    injection hpe with hpe
    subst hpe
    cases it with
    | formula f => cases hip
    | prop q' => injection hip with hip; subst hip; exact .inl hit
  | none =>
    rw [hq] at hpe hip
    obtain ⟨g, hg, rfl⟩ := Option.map_eq_some_iff.1 hpe
    cases it with
    | prop q' => cases hip
    | formula f =>
      refine .inr ⟨rfl, f, hit, fun σ hf => ?_⟩
      rw [vecFormula_eval hg, hcl, satC_pgLit hd]
      obtain ⟨τ, hag, ok⟩ := hext σ
      rw [← plain e he hq d hd hcl σ τ hag]
      refine himp τ ok ?_
      rw [← hf]
      exact Formula.eval_congr fun v hv => hag v (hX _ hit v hv)

theorem CInv.tagged (hm : E.C.clauseMin ≠ .none) (hp : E.C.proofGen = true) (h : CInv E c X x Y G) (hX : ∀ i ∈ X.items, ∃ p, i = .prop p) : x.Plain c := by
  intro e he hpe
  obtain ⟨_, _, _, i, hi, e1, _⟩ := h.infos hm hp e he
  obtain ⟨p, rfl⟩ := hX i hi
  rw [hpe] at e1
  cases e1

/-- C48 if only propositions were added (over variables the factory knew at the start): a core is a set of added propositions without a model. -/
theorem C48_proposition_core_partial [DecidableEq B] (hm : E.C.clauseMin ≠ .none) (hcfg : E.cfg.cc.Good) (h : CRuns E c X x)
    (hX : ∀ i ∈ X.items, ∃ p, i = .prop p ∧ ∀ v, Occ v p.formula → Verif.Known c v) {hash : List Int → Int} {fuel : Nat} {ps : List (Prp B)} {mus : Bool}
    (hc : x.core E hash fuel = some (ps, mus)) :
    (∀ p ∈ ps, Item.prop p ∈ X.items) ∧ (∀ σ, ∃ p ∈ ps, p.formula.eval σ = false) ∧ (mus = true → ∃ p, ps = [p]) := by
  have hp : E.C.proofGen = true := by
    unfold CMini.core unsatCore at hc
    split at hc
    · rename_i h1; exact h1.1
    · cases hc
  obtain ⟨Y, G, i⟩ := h.inv hm hcfg hp
  obtain ⟨k1, k2, k3⟩ := C48_core_partial hm hcfg h (fun i hi v hv => by obtain ⟨p, rfl, hk⟩ := hX i hi; exact hk v hv)
    (i.tagged hm hp fun i hi => (hX i hi).imp fun _ h => h.1) hc
  refine ⟨fun p hps => ?_, k2, k3⟩
  rcases k1 p hps with h | ⟨_, f, hf, _⟩
  · exact h
  · obtain ⟨q, e, _⟩ := hX _ hf
    cases e

/-- C48 for the trimmer alone, whatever the proof: the clauses of the core are among those given, up to the order of their literals, and have no model. -/
theorem C48_trimmed {hash : List Int → Int} {fuel : Nat} {orig proof core : List (List Int)} (ho : ∀ c ∈ orig, ∀ x ∈ c, x ≠ 0) (hp : ∀ c ∈ proof, ∀ x ∈ c.tail, x ≠ 0)
    (h : drup hash fuel orig proof = some (some core)) :
    (∃ sub, sub.Sublist orig ∧ List.Forall₂ List.Perm core sub) ∧ ∀ σ : Nat → Bool, ∃ c ∈ core, ∀ x ∈ c, ¬ (if 0 < x then σ x.natAbs = true else σ x.natAbs = false) := by
  obtain ⟨h1, h2⟩ := drup_core ho hp h
  refine ⟨h1, fun σ => ?_⟩
  obtain ⟨c, hc, hs⟩ := h2 σ
  refine ⟨c, hc, fun x hx ht => hs ⟨x, hx, ?_⟩⟩
  unfold Drup.litT
  by_cases h0 : 0 < x
  · rw [if_pos h0] at ht ⊢; exact ht
  · rw [if_neg h0] at ht ⊢; rw [ht]; rfl

end

/-! ### Examples and counterexamples -/

/-- Operands are literals or operands of the other kind, all different and without complementary literals. -/
def goodB (o : Verif.Op) (fs : List Formula) : Bool :=
  decide fs.Nodup && fs.all fun f => match f with | .lit l => !decide (Formula.lit l.neg ∈ fs) | .nary o' _ => decide (o' ≠ o) | _ => false

theorem goodB_ok {o : Verif.Op} {fs : List Formula} (h : goodB o fs = true) : Formula.GoodOps o fs := by
  unfold goodB at h
  simp only [Bool.and_eq_true, decide_eq_true_eq, List.all_eq_true] at h
  refine ⟨h.1, fun f hf => ?_, fun f hf gs e => ?_, fun l hl => ?_, fun f hf => ?_⟩
  · have := h.2 f hf
    cases f <;> first | rfl | cases this
  · have := h.2 f hf
    subst e
    simp at this
  · simpa using h.2 _ hl
  · have := h.2 _ hf
    cases this

/-- A formula of literals, disjunctions and conjunctions in normal shape, of bounded depth. -/
def inB : Nat → Formula → Bool
  | 0, _ => false
  | _ + 1, .lit ⟨.named _, _⟩ => true
  | n + 1, .nary o fs => decide (2 ≤ fs.length) && goodB o fs && fs.all (inB n)
  | _ + 1, _ => false

theorem inB_ok {cfg : FCfg} {c : AuxTy → Nat} : ∀ {n : Nat} {f : Formula}, inB n f = true → Input cfg c f := by
  have key : ∀ (n : Nat) (f : Formula), inB n f = true → f.Norm ∧ NoCon f ∧ ∀ v, Occ v f → Verif.Known c v := by
    intro n
    induction n with
    | zero => intro f h; cases h
    | succ n ih =>
      intro f h
      unfold inB at h
      split at h
      · rename_i m hm; cases hm
      · refine ⟨.lit _, noCon_node (by simp) (by simp [Formula.operands]), fun v hv => ?_⟩
        simp at hv
        subst hv
        trivial
      · rename_i m o fs hm
        cases hm
        simp only [Bool.and_eq_true, decide_eq_true_eq, List.all_eq_true] at h
        refine ⟨.nary h.1.1 (fun f hf => (ih f (h.2 f hf)).1) (goodB_ok h.1.2), noCon_node (by simp) (fun g hg => (ih g (h.2 g (by simpa [Formula.operands] using hg))).2.1), fun v hv => ?_⟩
        obtain ⟨g, hg, ho⟩ := (Formula.occ_nary ..).1 hv
        exact (ih g (h.2 g hg)).2.2 v ho
      · cases h
  intro n f h
  obtain ⟨h1, h2, h3⟩ := key n f h
  exact ⟨h1, ⟨fun c hc => absurd rfl ((h2 _ hc).1 c), fun p hp => absurd rfl ((h2 _ hp).2 p)⟩, h3⟩

/-- An order of literals. -/
def sortKey : Formula → Nat
  | .lit ⟨.named n, b⟩ => 4 * n + b.toNat + 1
  | .lit ⟨.aux _ n, b⟩ => 4 * n + b.toNat + 3
  | _ => 0

/-- Operands are sorted (so that permutations of a clause are the same formula). -/
def canonS : Canon := ⟨fun _ l => l.insertionSort fun a b => sortKey a ≤ sortKey b, fun _ l => List.perm_insertionSort _ l, fun _ _ => false⟩

/-- A solver with proofs. -/
def exC (me : CnfMethod) : Env Int := { exEnv me with K := canonS, C := { demoM with proofGen := true } }

/-- Something a user does. -/
inductive Act
  | add (f : Formula)
  | prop (p : Prp Nat)
  | sat
  | satWith (as : Option (List Lit))

/-- It is done. -/
def Act.run (E : Env Int) (x : CMini Int Nat) : Act → Res (CMini Int Nat)
  | .add f => x.add E f
  | .prop p => x.addProp E p
  | .sat => match x.sat E 1000 with | .ok r => .ok r.1 | .panic => .panic | .diverge => .diverge
  | .satWith as => match x.satWith E 1000 [] as with | .ok r => .ok r.1 | .panic => .panic | .diverge => .diverge

def runActs (E : Env Int) : List Act → CMini Int Nat → Res (CMini Int Nat)
  | [], x => .ok x
  | a :: as, x => match a.run E x with | .ok x => runActs E as x | .panic => .panic | .diverge => .diverge

/-- What is added. -/
def Act.item : Act → Option (Item Nat)
  | .add f => some (.formula f)
  | .prop p => some (.prop p)
  | _ => none

/-- The formulas are as in `inB`. -/
def Act.okF : Act → Bool
  | .add f => inB 5 f
  | .prop p => inB 5 p.formula
  | _ => true

theorem runActs_ok {me : CnfMethod} : ∀ {as : List Act} {X : CSpec Nat} {x x' : CMini Int Nat}, as.all Act.okF = true → CRuns (exC me) (fun _ => 7) X x → runActs (exC me) as x = .ok x' →
    CRuns (exC me) (fun _ => 7) { X with items := X.items ++ as.filterMap Act.item } x' := by
  intro as
  induction as with
  | nil => intro X x x' _ h e; cases e; simpa using h
  | cons a as ih =>
    intro X x x' ha h e
    rw [List.all_cons, Bool.and_eq_true] at ha
    unfold runActs at e
    split at e
    · rename_i x1 e1
      have hle := h.inv (E := exC me) (by unfold exC demoM demoCfg; exact fun h => by cases h) trivial rfl
      cases a with
      | add f =>
        obtain ⟨Y, G, i⟩ := hle
        have := ih ha.2 (h.add (Input.le (inB_ok (cfg := (exC me).cfg) ha.1) i.f.pg.w.base.le) e1) e
        simpa [Act.item] using this
      | prop p =>
        obtain ⟨Y, G, i⟩ := hle
        have := ih ha.2 (h.addProp (Input.le (inB_ok (cfg := (exC me).cfg) ha.1) i.f.pg.w.base.le) e1) e
        simpa [Act.item] using this
      | sat =>
        unfold Act.run at e1
        simp only at e1
        split at e1
        · rename_i r e2
          cases e1
          exact ih ha.2 (h.sat e2) e
        · cases e1
        · cases e1
      | satWith as =>
        unfold Act.run at e1
        simp only at e1
        split at e1
        · rename_i r e2
          cases e1
          exact ih ha.2 (h.satWith e2) e
        · cases e1
        · cases e1
    · cases e
    · cases e

theorem exC_ex (me : CnfMethod) (as : List Act) (p : CMini Int Nat → Bool) (ha : as.all Act.okF = true) (h : okB (runActs (exC me) as (.new (exC me) (World.fresh fun _ => 7))) p = true) :
    ∃ x, CRuns (exC me) (fun _ => 7) { CSpec.empty with items := as.filterMap Act.item } x ∧ p x = true := by
  obtain ⟨x, e, hp⟩ := okB_ok h
  exact ⟨x, by simpa [CSpec.empty] using runActs_ok ha .new e, hp⟩

abbrev posF (n : Nat) : Formula := .lit ⟨.named n, true⟩
abbrev negF (n : Nat) : Formula := .lit ⟨.named n, false⟩
abbrev disF (a b : Formula) : Formula := .nary .disj [a, b]
abbrev conF (a b : Formula) : Formula := .nary .conj [a, b]

/-- A hash function. -/
def exHash (l : List Int) : Int := l.sum.natAbs

/-- Five propositions, four of which have no model. -/
def exActs : List Act :=
  [.prop ⟨disF (posF 0) (conF (posF 1) (posF 5)), some 0⟩, .prop ⟨disF (posF 0) (negF 1), some 1⟩, .prop ⟨disF (negF 0) (posF 1), some 2⟩, .prop ⟨disF (posF 3) (posF 4), some 3⟩,
    .prop ⟨disF (negF 0) (negF 1), some 4⟩, .sat]

/-- A run to a core in which auxiliary variables of propositions are shared. -/
def exMixed : List Act :=
  [.prop ⟨disF (conF (posF 0) (posF 1)) (posF 3), some 0⟩, .add (disF (conF (posF 0) (posF 1)) (posF 2)), .prop ⟨negF 2, some 1⟩, .prop ⟨negF 0, some 2⟩, .sat]

/-- A run to a core with repetitions. -/
def exTwice : List Act :=
  [.prop ⟨.nary .conj [posF 0, posF 1, posF 2], some 0⟩, .prop ⟨conF (posF 1) (.nary .disj [negF 0, negF 1, negF 2]), some 1⟩, .sat]

/-- The clauses have no model, and this is noticed under an assumption. -/
def exAssumed : List Act :=
  [.prop ⟨disF (posF 0) (posF 1), none⟩, .prop ⟨disF (posF 0) (negF 1), none⟩, .prop ⟨disF (negF 0) (posF 1), none⟩, .prop ⟨disF (negF 0) (negF 1), none⟩,
    .satWith (some [⟨.named 2, true⟩]), .sat]

/-- A search under an assumption, then more propositions and a search without assumptions. -/
def exStale : List Act :=
  [.prop ⟨posF 0, none⟩, .satWith (some [⟨.named 3, true⟩]), .prop ⟨disF (negF 0) (posF 3), none⟩, .prop ⟨negF 3, none⟩, .satWith none]

theorem known_of {as : List Act} (h : as.all Act.okF = true) : ∀ i ∈ as.filterMap Act.item, ∀ v, Occ v i.f → Verif.Known (fun _ => 7) v := by
  intro i hi
  obtain ⟨a, ha, e⟩ := List.mem_filterMap.1 hi
  have h := List.all_eq_true.1 h a ha
  cases a with
  | add f => injection e with e; subst e; exact (inB_ok (cfg := exFCfg .swc true) h).known
  | prop p => injection e with e; subst e; exact (inB_ok (cfg := exFCfg .swc true) h).known
  | sat => cases e
  | satWith _ => cases e

/-- The core, not marked as minimal, satisfies `q`. -/
def coreB (E : Env Int) (x : CMini Int Nat) (q : List (Prp Nat) → Bool) : Bool :=
  match x.core E exHash 100 with
  | some (ps, false) => q ps
  | _ => false

theorem coreB_ok {E : Env Int} {x : CMini Int Nat} {q : List (Prp Nat) → Bool} (h : coreB E x q = true) : ∃ ps, x.core E exHash 100 = some (ps, false) ∧ q ps = true := by
  unfold coreB at h
  split at h
  · rename_i ps e; exact ⟨ps, e, h⟩
  · cases h

/-- The propositions, by their backpacks. -/
def isPs (bs : List (Option Nat)) (ps : List (Prp Nat)) : Bool := decide (ps.map Prp.backpack = bs)

/-- The hypotheses of C48 for each method: the core consists of the four propositions without a model. -/
example (me : CnfMethod) : ∃ (X : CSpec Nat) (x : CMini Int Nat), CRuns (exC me) (fun _ => 7) X x ∧ (∀ i ∈ X.items, ∃ p, i = .prop p ∧ ∀ v, Occ v p.formula → Verif.Known (fun _ => 7) v) ∧
    ∃ ps, x.core (exC me) exHash 100 = some (ps, false) ∧ ps.map Prp.backpack = [some 0, some 1, some 2, some 4] := by
  obtain ⟨x, h, hp⟩ := exC_ex me exActs (fun x => coreB (exC me) x (isPs [some 0, some 1, some 2, some 4])) (by decide +kernel) (by cases me <;> decide +kernel)
  obtain ⟨ps, e, hr⟩ := coreB_ok hp
  refine ⟨_, x, h, fun i hi => ?_, ps, e, of_decide_eq_true hr⟩
  have hk := known_of (as := exActs) (by decide +kernel) i hi
  obtain ⟨a, ha, e⟩ := List.mem_filterMap.1 hi
  cases a with
  | add f => simp [exActs] at ha
  | prop p => injection e with e; subst e; exact ⟨p, rfl, hk⟩
  | sat => cases e
  | satWith _ => cases e

/-- The hypotheses of `C48_core_partial` with a formula: its two clauses are in the core beside two propositions. -/
example : ∃ (X : CSpec Nat) (x : CMini Int Nat), CRuns (exC .fullPg) (fun _ => 7) X x ∧ (∀ i ∈ X.items, ∀ v, Occ v i.f → Verif.Known (fun _ => 7) v) ∧ x.Plain (fun _ => 7) ∧
    ∃ ps, x.core (exC .fullPg) exHash 100 = some (ps, false) ∧ ps.map Prp.backpack = [some 0, none, none, some 1] := by
  obtain ⟨x, h, hp⟩ := exC_ex .fullPg [.prop ⟨disF (posF 0) (posF 1), some 0⟩, .add (conF (disF (posF 0) (negF 1)) (disF (negF 0) (posF 1))), .prop ⟨disF (negF 0) (negF 1), some 1⟩, .sat]
    (fun x => x.x.m.names.all (fun v => match v with | .named _ => true | .aux _ _ => false) && coreB (exC .fullPg) x (isPs [some 0, none, none, some 1])) (by decide +kernel) (by decide +kernel)
  rw [Bool.and_eq_true] at hp
  obtain ⟨ps, e, hr⟩ := coreB_ok hp.2
  refine ⟨_, x, h, known_of (by decide +kernel), fun _ _ _ y _ v hv => ?_, ps, e, of_decide_eq_true hr⟩
  have := List.all_eq_true.1 hp.1 v (List.mem_of_getElem? hv)
  cases v with
  | named _ => trivial
  | aux _ _ => cases this

/-- The hypotheses of `C48_trimmed`, with a deletion. -/
example : drup exHash 100 [[1, 2], [1, -2], [-1, 2], [3, 4], [-1, -2]] [[1, 1], [-1, 3, 4], [0]] = some (some [[2, 1], [-2, 1], [2, -1], [-2, -1]]) := by decide +kernel

/-- C48 does not hold if formulas and propositions share auxiliary variables: the proposition `(a & b) | d` defines an auxiliary variable `e` for `a & b`, the formula
`(a & b) | c` becomes the clause `e | c`, and with `~c` and `~a` the core is `(a & b) | d`, `e | c`, `~c`, `~a`, which has a model (with `e`, `d` true). -/
theorem C48_mixed_core : ∃ (X : CSpec Nat) (x : CMini Int Nat), CRuns (exC .pg) (fun _ => 7) X x ∧ (∀ i ∈ X.items, ∀ v, Occ v i.f → Verif.Known (fun _ => 7) v) ∧
    ∃ ps, x.core (exC .pg) exHash 100 = some (ps, false) ∧ ∃ σ, ∀ p ∈ ps, p.formula.eval σ = true := by
  obtain ⟨x, h, hp⟩ := exC_ex .pg exMixed (fun x => coreB (exC .pg) x fun ps => ps.all fun p => p.formula.eval fun v => match v with | .named n => n == 3 | .aux _ _ => true)
    (by decide +kernel) (by decide +kernel)
  obtain ⟨ps, e, hr⟩ := coreB_ok hp
  exact ⟨_, x, h, known_of (by decide +kernel), ps, e, _, List.all_eq_true.1 hr⟩

/-- A proposition can occur several times in a core (only neighbours are compared). -/
theorem C48_repeated_core : ∃ (X : CSpec Nat) (x : CMini Int Nat), CRuns (exC .factory) (fun _ => 7) X x ∧
    ∃ ps, x.core (exC .factory) exHash 100 = some (ps, false) ∧ ps.map Prp.backpack = [some 0, some 1, some 0, some 1] := by
  obtain ⟨x, h, hp⟩ := exC_ex .factory exTwice (fun x => coreB (exC .factory) x (isPs [some 0, some 1, some 0, some 1])) (by decide +kernel) (by decide +kernel)
  obtain ⟨ps, e, hr⟩ := coreB_ok hp
  exact ⟨_, x, h, ps, e, of_decide_eq_true hr⟩

/-- If the search under assumptions finds out that the clauses have no model at all, the proof is not finished; after `sat`, which answers UNSAT, no core is computed (`compute_unsat_core`
panics). -/
theorem C48_no_core : ∃ (X : CSpec Nat) (x : CMini Int Nat), CRuns (exC .pg) (fun _ => 7) X x ∧ (∀ σ, ∃ i ∈ X.items, i.f.eval σ = false) ∧ x.result = some false ∧ x.assumed = false ∧
    ∀ hash fuel, x.core (exC .pg) hash fuel = none := by
  obtain ⟨x, h, hp⟩ := exC_ex .pg exAssumed (fun x => decide (x.result = some false ∧ x.assumed = false ∧ x.x.m.y.s.pgOrig = [[1, 2], [1, -2], [-1, 2], [-1, -2]] ∧
    x.x.m.y.s.pgProof = [[1, 1]] ∧ x.props.length = 4)) (by decide +kernel) (by decide +kernel)
  obtain ⟨h1, h2, h3, h4, h5⟩ := of_decide_eq_true hp
  refine ⟨_, x, h, fun σ => ?_, h1, h2, fun hash fuel => ?_⟩
  · simp only [exAssumed, List.filterMap_cons, Act.item, List.filterMap_nil]
    cases h0 : σ (.named 0) <;> cases h1 : σ (.named 1)
    · exact ⟨_, List.mem_cons_self, by simp [Item.f, Lit.eval, h0, h1]⟩
    · exact ⟨_, List.mem_cons_of_mem _ List.mem_cons_self, by simp [Item.f, Lit.eval, h0, h1]⟩
    · exact ⟨_, List.mem_cons_of_mem _ (List.mem_cons_of_mem _ List.mem_cons_self), by simp [Item.f, Lit.eval, h0, h1]⟩
    · exact ⟨_, List.mem_cons_of_mem _ (List.mem_cons_of_mem _ (List.mem_cons_of_mem _ List.mem_cons_self)), by simp [Item.f, Lit.eval, h0, h1]⟩
  · unfold CMini.core
    rw [h4]
    obtain ⟨p1, p2, p3, p4, hps⟩ : ∃ p1 p2 p3 p4, x.props = [p1, p2, p3, p4] := by
      match x.props, h5 with
      | [p1, p2, p3, p4], _ => exact ⟨_, _, _, _, rfl⟩
    have hi : x.infos = [⟨[1, 2], p1⟩, ⟨[1, -2], p2⟩, ⟨[-1, 2], p3⟩, ⟨[-1, -2], p4⟩] := by
      unfold CMini.infos
      rw [h3, hps]
      rfl
    rw [hi]
    unfold unsatCore
    split
    · split
      · rfl
      · simp only [List.any_cons, List.any_nil, List.isEmpty_cons, Bool.or_false, Bool.false_eq_true, if_false, List.map_cons, List.map_nil]
        have : drup hash fuel [[1, 2], [1, -2], [-1, 2], [-1, -2]] [[1, 1]] = none := rfl
        rw [this]
    · rfl

/-- `sat_with` without assumptions leaves `last_computation_with_assumptions` as it was: no core is computed (`compute_unsat_core` panics) though the search had no assumptions. -/
theorem C48_stale_assumptions : ∃ (X : CSpec Nat) (x0 x : CMini Int Nat), CRuns (exC .pg) (fun _ => 7) X x0 ∧ x0.satWith (exC .pg) 1000 [] none = .ok (x, false) ∧ ∀ hash fuel, x.core (exC .pg) hash fuel = none := by
  obtain ⟨x0, h, hp⟩ := exC_ex .pg (exStale.take 4) (fun x => okB (x.satWith (exC .pg) 1000 [] none) fun r => !r.2 && r.1.assumed) (by decide +kernel) (by decide +kernel)
  obtain ⟨⟨x, b⟩, e, hr⟩ := okB_ok hp
  simp only [Bool.and_eq_true, Bool.not_eq_true'] at hr
  refine ⟨_, x0, x, h, by rw [e, hr.1], fun hash fuel => ?_⟩
  unfold CMini.core unsatCore
  rw [if_neg (by rw [hr.2]; simp)]

end Verif.Sat
