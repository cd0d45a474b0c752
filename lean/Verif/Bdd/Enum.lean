import Verif.Bdd.Count
/-
Enumeration of models, normal forms and the formula of a BDD
(bdd_model_enumeration.rs, bdd_normalform.rs, bdd_main.rs 248-261).
-/
namespace Verif
namespace Bdd
open ER
open Kernel (Prof)

/-- `datastructures::Model`. -/
structure BModel where
  pos : List Var
  neg : List Var
deriving DecidableEq, Repr

/-- bdd_model_enumeration.rs 31-39; `get_variable_for_index(i).unwrap()` panics
for unregistered indices. -/
def modelOf (idx : List Var) (p : Prof) : List Nat → Option BModel
  | [] => some ⟨[], []⟩
  | i :: is => (idx[i]?).bind fun v => (modelOf idx p is).map fun m => if p i = some false then { m with neg := v :: m.neg } else { m with pos := v :: m.pos }

/-- `generate_all_models` 29-50: the profiles at which a model is produced. -/
def genProfs : List Nat → Prof → List Prof
  | [], p => [p]
  | i :: is, p => match p i with
    | some _ => genProfs is p
    | none => genProfs is (upd p i (some false)) ++ genProfs is (upd p i (some true))

/-- `relevant_indices` 10-20.  Without a projection: the registered indices in
increasing order; with one: `kernel.var2idx[v]`, which panics for unregistered
variables, sorted. -/
def relevant (idx : List Var) : Option (List Var) → Option (List Nat)
  | none => some (List.range idx.length)
  | some vs => if ∀ v ∈ vs, v ∈ idx then some ((vs.map idx.idxOf).mergeSort (· ≤ ·)) else none

/-- `enumerate_all_models` 7-27. -/
def enumModels (r : Nat) (vs : Option (List Var)) (k : Kernel Var) : Option (List BModel × Kernel Var) :=
  (k.allPaths 1 r).bind fun x => (relevant k.idx vs).bind fun rel => ((x.1.flatMap (genProfs rel)).mapM fun p => modelOf k.idx p rel).map fun ms => (ms, x.2)

/-- bdd_normalform.rs 11-19. -/
def pathLits (idx : List Var) (cnf : Bool) (p : Prof) : List Nat → Option (List Formula)
  | [] => some []
  | i :: is => (idx[i]?).bind fun v => (pathLits idx cnf p is).map fun ls => match p i with
    | none => ls
    | some b => .lit ⟨v, b != cnf⟩ :: ls

/-- bdd_normalform.rs 7-24. -/
def normalForm (C : Canon) (cnf : Bool) (r : Nat) (k : Kernel Var) : Option (Formula × Kernel Var) :=
  (k.allPaths (if cnf then 0 else 1) r).bind fun x =>
    (x.1.mapM fun p => (pathLits k.idx cnf p (List.range k.varnum)).map (Formula.mkNary C (if cnf then .disj else .conj))).map fun ts =>
      (Formula.mkNary C (if cnf then .conj else .disj) ts, x.2)

/-- `to_formula_rec`, bdd_main.rs 248-261. -/
def toFormula (C : Canon) (k : Kernel Var) : Nat → Nat → Option Formula
  | 0, _ => none
  | f + 1, r =>
    if r = 0 then some .fls
    else if r = 1 then some .tru
    else (k.idx[k.level r]?).bind fun v => (toFormula C k f (k.high r)).bind fun g1 => (k.low r).bind fun lo => (toFormula C k f lo).map fun g2 =>
      Formula.mkOr C [Formula.mkAnd C [.lit ⟨v, true⟩, g1], Formula.mkAnd C [.lit ⟨v, false⟩, g2]]

/-! ### Levels that do not matter -/

theorem ord_of_lv {nv m : Nat} : ∀ (t : BT) (b : Nat), t.Red → BT.Ord nv b t → Lv m (fun ρ => t.eval ρ) → BT.Ord m b t
  | .leaf _, _, _, _, _ => trivial
  | .node v lo hi, b, hr, ho, hl => by
    obtain ⟨h1, h2, h3, h4⟩ := ho
    obtain ⟨r1, r2, r3⟩ := hr
    have ev : ∀ ρ x, (BT.node v lo hi).eval (BT.set ρ v x) = if x then hi.eval ρ else lo.eval ρ := fun ρ x => by
      have : BT.set ρ v x v = x := by simp [BT.set]
      rw [BT.eval, this, BT.eval_set_lt h4 (by omega), BT.eval_set_lt h3 (by omega)]
    have hv : v < m := by
      rcases Nat.lt_or_ge v m with h | h
      · exact h
      · refine (r1 (BT.canonical nv (b := v + 1) (Nat.sub_le _ _) h3 h4 r2 r3 fun ρ => ?_)).elim
        have := hl (BT.set ρ v false) (BT.set ρ v true) fun i hi => by simp only [BT.set]; rw [if_neg (by omega), if_neg (by omega)]
        simp only [ev] at this
        simpa using this
    refine ⟨h1, hv, ord_of_lv lo _ r2 h3 fun ρ ρ' e => ?_, ord_of_lv hi _ r3 h4 fun ρ ρ' e => ?_⟩
    · have := hl (BT.set ρ v false) (BT.set ρ' v false) fun i hi => by simp only [BT.set]; rw [e i hi]
      simp only [ev] at this
      simpa using this
    · have := hl (BT.set ρ v true) (BT.set ρ' v true) fun i hi => by simp only [BT.set]; rw [e i hi]
      simp only [ev] at this
      simpa using this

/-! ### Expansion -/

theorem genProfs_ext : ∀ (is : List Nat) (p q : Prof), q ∈ genProfs is p → (∀ j b, p j = some b → q j = some b) ∧ (∀ j ∈ is, (q j).isSome) ∧ (∀ j, j ∉ is → q j = p j)
  | [], p, q, h => by
    simp only [genProfs, List.mem_singleton] at h
    subst h
    exact ⟨fun _ _ h => h, by simp, fun _ _ => rfl⟩
  | i :: is, p, q, h => by
    unfold genProfs at h
    cases hp : p i with
    | some x =>
      rw [hp] at h
      obtain ⟨h1, h2, h3⟩ := genProfs_ext is p q h
      refine ⟨h1, fun j hj => ?_, fun j hj => h3 j (by simp at hj; tauto)⟩
      rcases List.mem_cons.1 hj with rfl | hj
      · rw [h1 _ _ hp]; rfl
      · exact h2 j hj
    | none =>
      rw [hp] at h
      simp only [List.mem_append] at h
      have key : ∀ x, q ∈ genProfs is (upd p i (some x)) → (∀ j b, p j = some b → q j = some b) ∧ (∀ j ∈ i :: is, (q j).isSome) ∧ (∀ j, j ∉ i :: is → q j = p j) := fun x hx => by
        obtain ⟨h1, h2, h3⟩ := genProfs_ext is _ q hx
        refine ⟨fun j b hj => ?_, fun j hj => ?_, fun j hj => ?_⟩
        · have hne : j ≠ i := fun e => by rw [e, hp] at hj; cases hj
          exact h1 j b (by rw [upd_ne hne]; exact hj)
        · rcases List.mem_cons.1 hj with rfl | hj
          · rw [h1 j x (upd_same _ _ _)]; rfl
          · exact h2 j hj
        · simp only [List.mem_cons, not_or] at hj
          rw [h3 j hj.2, upd_ne hj.1]
      exact h.elim (key false) (key true)

/-- All entries of `rel` as in `ρ`. -/
def Full (rel : List Nat) (ρ : Nat → Bool) (q : Prof) : Bool := rel.all fun i => q i == some (ρ i)
/-- No entry of `rel` different from `ρ`. -/
def Cmp (rel : List Nat) (ρ : Nat → Bool) (q : Prof) : Bool := rel.all fun i => (q i).all (· == ρ i)

theorem full_iff {rel : List Nat} {ρ : Nat → Bool} {q : Prof} : Full rel ρ q = true ↔ ∀ i ∈ rel, q i = some (ρ i) := by simp [Full]
theorem cmp_iff {rel : List Nat} {ρ : Nat → Bool} {q : Prof} : Cmp rel ρ q = true ↔ ∀ i ∈ rel, ∀ b, q i = some b → b = ρ i := by
  unfold Cmp
  rw [List.all_eq_true]
  refine forall₂_congr fun i _ => ?_
  cases q i <;> simp

theorem genProfs_count (rel : List Nat) (ρ : Nat → Bool) : ∀ (is : List Nat) (p : Prof), is ⊆ rel → (∀ i ∈ rel, p i = none → i ∈ is) →
    (genProfs is p).countP (Full rel ρ) = if Cmp rel ρ p then 1 else 0
  | [], p, _, hn => by
    have : Full rel ρ p = Cmp rel ρ p := by
      rw [Bool.eq_iff_iff, full_iff, cmp_iff]
      refine forall₂_congr fun i hi => ?_
      cases h : p i with
      | none => have := hn i hi h; simp at this
      | some b => simp
    simp [genProfs, List.countP_cons, this]
  | i :: is, p, hs, hn => by
    unfold genProfs
    cases hp : p i with
    | some x =>
      refine genProfs_count rel ρ is p (fun j hj => hs (by simp [hj])) fun j hj h => ?_
      rcases List.mem_cons.1 (hn j hj h) with rfl | h'
      · rw [hp] at h; cases h
      · exact h'
    | none =>
      have ih : ∀ x, (genProfs is (upd p i (some x))).countP (Full rel ρ) = if x = ρ i ∧ Cmp rel ρ p = true then 1 else 0 := fun x => by
        rw [genProfs_count rel ρ is _ (fun j hj => hs (by simp [hj])) fun j hj h => ?_]
        · congr 1
          rw [cmp_iff, cmp_iff, eq_iff_iff]
          constructor
          · intro h
            refine ⟨h i (hs (by simp)) x (upd_same _ _ _), fun j hj b hb => ?_⟩
            have hne : j ≠ i := fun e => by rw [e, hp] at hb; cases hb
            exact h j hj b (by rw [upd_ne hne]; exact hb)
          · rintro ⟨h0, h⟩ j hj b hb
            by_cases hne : j = i
            · subst hne; rw [upd_same] at hb; cases hb; exact h0
            · rw [upd_ne hne] at hb; exact h j hj b hb
        · by_cases hne : j = i
          · rw [hne, upd_same] at h; cases h
          · rw [upd_ne hne] at h
            exact (List.mem_cons.1 (hn j hj h)).resolve_left hne
      rw [List.countP_append, ih, ih]
      rcases Bool.eq_false_or_eq_true (ρ i) with e | e <;> simp [e]

/-! ### Models -/

/-- A model admits an assignment. -/
def BModel.admits (m : BModel) (σ : Asg) : Bool := m.pos.all σ && m.neg.all fun v => !σ v

theorem modelOf_ok {idx : List Var} {p : Prof} : ∀ {rel : List Nat}, (∀ i ∈ rel, i < idx.length) → ∃ m, modelOf idx p rel = some m ∧ (m.pos ++ m.neg).Perm (rel.filterMap (idx[·]?)) ∧
    ∀ ρ σ, Agr idx ρ σ → (∀ i ∈ rel, (p i).isSome) → m.admits σ = Full rel ρ p
  | [], _ => ⟨⟨[], []⟩, rfl, .refl _, fun _ _ _ _ => rfl⟩
  | i :: rel, h => by
    obtain ⟨m, e, hp, hm⟩ := modelOf_ok (rel := rel) (p := p) fun j hj => h j (by simp [hj])
    have hil : i < idx.length := h i (by simp)
    have hi : idx[i]? = some idx[i] := List.getElem?_eq_getElem hil
    unfold modelOf
    rw [hi, e]
    refine ⟨_, rfl, ?_, fun ρ σ hg hs => ?_⟩
    · rw [List.filterMap_cons, hi]
      simp only
      split
      · exact List.perm_middle.trans (.cons _ hp)
      · exact .cons _ hp
    · have := hm ρ σ hg fun j hj => hs j (by simp [hj])
      have hρ := hg i _ hi
      unfold Full
      rw [List.all_cons]
      show _ = (_ && Full rel ρ p)
      rw [← this, hρ]
      unfold BModel.admits
      have hsi := hs i (by simp)
      cases hpi : p i with
      | none => rw [hpi] at hsi; cases hsi
      | some b =>
        cases b with
        | false =>
          simp only [if_true, List.all_cons]
          cases σ idx[i] <;> simp
        | true =>
          simp only [Option.some.injEq, Bool.true_eq_false, if_false, List.all_cons]
          cases σ idx[i] <;> simp

theorem mapM_some {α β : Type} {f : α → Option β} : ∀ {l : List α}, (∀ a ∈ l, ∃ b, f a = some b) → ∃ r, l.mapM f = some r ∧ List.Forall₂ (fun a b => f a = some b) l r
  | [], _ => ⟨[], rfl, .nil⟩
  | a :: l, h => by
    obtain ⟨b, hb⟩ := h a (by simp)
    obtain ⟨r, hr, h2⟩ := mapM_some (l := l) fun x hx => h x (by simp [hx])
    exact ⟨b :: r, by simp [List.mapM_cons, hb, hr], .cons hb h2⟩

theorem forall2_countP {α β : Type} {R : α → β → Prop} {p : α → Bool} {q : β → Bool} {l : List α} {r : List β} (h : List.Forall₂ R l r) (hpq : ∀ a ∈ l, ∀ b, R a b → p a = q b) : l.countP p = r.countP q := by
  induction h with
  | nil => rfl
  | @cons a b l r hab _ ih =>
    rw [List.countP_cons, List.countP_cons, ih fun x hx => hpq x (by simp [hx]), hpq a (by simp) b hab]

theorem forall2_mem {α β : Type} {R : α → β → Prop} {l : List α} {r : List β} (h : List.Forall₂ R l r) : ∀ b ∈ r, ∃ a ∈ l, R a b := by
  induction h with
  | nil => simp
  | @cons a b l r hab _ ih =>
    intro x hx
    rcases List.mem_cons.1 hx with rfl | hx
    · exact ⟨a, by simp, hab⟩
    · obtain ⟨y, hy, h⟩ := ih x hx; exact ⟨y, by simp [hy], h⟩

theorem forall2_mem' {α β : Type} {R : α → β → Prop} {l : List α} {r : List β} (h : List.Forall₂ R l r) : ∀ a ∈ l, ∃ b ∈ r, R a b := by
  induction h with
  | nil => simp
  | @cons a b l r hab _ ih =>
    intro x hx
    rcases List.mem_cons.1 hx with rfl | hx
    · exact ⟨b, by simp, hab⟩
    · obtain ⟨y, hy, h⟩ := ih x hx; exact ⟨y, by simp [hy], h⟩

/-- The indices used. -/
theorem relevant_ok {idx : List Var} (hn : idx.Nodup) : ∀ {vs : Option (List Var)} {rel : List Nat}, relevant idx vs = some rel → (∀ i ∈ rel, i < idx.length) ∧ (rel.filterMap (idx[·]?)).Perm (vs.getD idx)
  | none, rel, h => by
    simp only [relevant, Option.some.injEq] at h
    subst h
    refine ⟨fun i hi => by simpa using hi, ?_⟩
    refine List.Perm.of_eq ?_
    show _ = idx
    refine List.ext_getElem? fun i => ?_
    have : (List.range idx.length).filterMap (idx[·]?) = idx := by
      have : ∀ (l : List Var) (n : Nat), (List.range' n l.length).filterMap (fun i => l[i - n]?) = l := by
        intro l
        induction l with
        | nil => simp
        | cons a l ih =>
          intro n
          rw [List.length_cons, List.range'_succ, List.filterMap_cons]
          simp only [Nat.sub_self, List.getElem?_cons_zero]
          congr 1
          refine Eq.trans ?_ (ih (n + 1))
          refine List.filterMap_congr fun i hi => ?_
          rw [List.mem_range'_1] at hi
          rw [show i - n = (i - (n + 1)) + 1 by omega, List.getElem?_cons_succ]
      have := this idx 0
      rw [List.range_eq_range']
      simpa using this
    rw [this]
  | some vs, rel, h => by
    simp only [relevant] at h
    split at h
    · rename_i hv
      simp only [Option.some.injEq] at h
      subst h
      have hperm : ((vs.map idx.idxOf).mergeSort (· ≤ ·)).Perm (vs.map idx.idxOf) := List.mergeSort_perm _ _
      refine ⟨fun i hi => ?_, ?_⟩
      · obtain ⟨v, hm, rfl⟩ := List.mem_map.1 (hperm.mem_iff.1 hi)
        exact List.idxOf_lt_length_iff.2 (hv v hm)
      · refine (hperm.filterMap _).trans (.of_eq ?_)
        show _ = vs
        rw [List.filterMap_map]
        have : ∀ v ∈ vs, ((fun x => idx[x]?) ∘ idx.idxOf) v = some v := fun v hm => by
          have := List.idxOf_lt_length_iff.2 (hv v hm)
          show idx[idx.idxOf v]? = some v
          rw [List.getElem?_eq_getElem this, List.getElem_idxOf]
        rw [List.filterMap_congr this]
        simp
    · cases h

theorem relevant_some {idx : List Var} {vs : List Var} (h : ∀ v ∈ vs, v ∈ idx) : ∃ rel, relevant idx (some vs) = some rel := by
  simp only [relevant]; rw [if_pos h]; exact ⟨_, rfl⟩

theorem countP_flatMap' {α β : Type} (f : α → List β) (p : β → Bool) (q : α → Bool) : ∀ (l : List α), (∀ a ∈ l, (f a).countP p = if q a then 1 else 0) → (l.flatMap f).countP p = l.countP q
  | [], _ => rfl
  | a :: l, h => by
    rw [List.flatMap_cons, List.countP_append, h a (by simp), countP_flatMap' f p q l fun x hx => h x (by simp [hx]), List.countP_cons]
    omega

/-- Enumeration over all registered variables. -/
theorem enumModels_ok {k : Kernel Var} (hk : KInv k) (hn : k.idx.Nodup) (hlen : k.idx.length ≤ k.varnum) {r : Nat} {F : (Nat → Bool) → Bool} (hs : Is k r F) (hl : Lv k.idx.length F) (ovs : Option (List Var)) (hvs : ∀ vs, ovs = some vs → ∀ v ∈ vs, v ∈ k.idx) :
    ∃ ms, enumModels r ovs k = some (ms, k.initRef) ∧ (∀ m ∈ ms, (m.pos ++ m.neg).Perm (ovs.getD k.idx)) ∧
      (ovs = none → ∀ ρ σ, Agr k.idx ρ σ → ms.countP (·.admits σ) = if F ρ then 1 else 0) ∧
      (∀ ρ σ, Agr k.idx ρ σ → F ρ = true → ∃ m ∈ ms, m.admits σ = true) ∧
      (∀ m ∈ ms, ∃ ρ, F ρ = true ∧ ∀ σ, Agr k.idx ρ σ → m.admits σ = true) := by
  obtain ⟨t, hd, ho, he⟩ := hs
  obtain ⟨L, e, h1, _, h3⟩ := allPaths_ok true hk hd ho
  have e : k.allPaths 1 r = some (L, k.initRef) := e
  have ho' : BT.Ord k.idx.length 0 t := ord_of_lv t 0 (hk.den_red hd) ho fun ρ ρ' h => by show t.eval ρ = t.eval ρ'; rw [he, he]; exact hl ρ ρ' h
  obtain ⟨rel, hrel⟩ : ∃ rel, relevant k.idx ovs = some rel := by
    cases ovs with
    | none => exact ⟨_, rfl⟩
    | some vs => exact relevant_some (hvs vs rfl)
  obtain ⟨r1, r2⟩ := relevant_ok hn hrel
  obtain ⟨ms, em, fm⟩ := mapM_some (f := fun p => modelOf k.idx p rel) (l := L.flatMap (genProfs rel)) fun p _ => by
    obtain ⟨m, e, _⟩ := modelOf_ok (p := p) r1
    exact ⟨m, e⟩
  have hmt : ∀ ρ q, Mt 0 k.varnum ρ q = true → Cmp rel ρ q = true := fun ρ q h => by
    rw [mt_iff] at h
    rw [cmp_iff]
    exact fun i hi b hb => h i b (Nat.zero_le _) (by have := r1 i hi; omega) hb
  have adm : ∀ q m, q ∈ L.flatMap (genProfs rel) → modelOf k.idx q rel = some m → ∀ ρ σ, Agr k.idx ρ σ → m.admits σ = Full rel ρ q := fun q m hq e ρ σ hg => by
    obtain ⟨p, hp, hq⟩ := List.mem_flatMap.1 hq
    obtain ⟨m', e', _, h⟩ := modelOf_ok (p := q) r1
    rw [e] at e'; cases e'
    exact h ρ σ hg (genProfs_ext rel p q hq).2.1
  refine ⟨ms, by unfold enumModels; rw [e]; simp [hrel, em], fun m hm => ?_, fun hall ρ σ hg => ?_, fun ρ σ hg hF => ?_, fun m hm => ?_⟩
  · obtain ⟨q, _, e⟩ := forall2_mem fm m hm
    obtain ⟨m', e', h, _⟩ := modelOf_ok (p := q) r1
    rw [e] at e'; cases e'
    exact h.trans r2
  · rw [← forall2_countP (p := Full rel ρ) fm fun q hq m e => (adm q m hq e ρ σ hg).symm]
    rw [countP_flatMap' (genProfs rel) (Full rel ρ) (Cmp rel ρ) L fun p _ => genProfs_count rel ρ rel p (fun _ h => h) fun i hi _ => hi]
    rw [show (if F ρ = true then 1 else 0) = if t.eval ρ = true then 1 else 0 by rw [he], ← h1 ρ]
    refine List.countP_congr fun q hq => ⟨fun h => ?_, hmt ρ q⟩
    subst hall
    simp only [relevant, Option.some.injEq] at hrel
    subst hrel
    rw [cmp_iff] at h
    rw [mt_iff]
    intro w x _ hw hx
    rcases Nat.lt_or_ge w k.idx.length with hlt | hge
    · exact h w (by simpa using hlt) x hx
    · rw [h3 _ ho' q hq w hge hw] at hx; cases hx
  · have : 0 < L.countP (Mt 0 k.varnum ρ) := by rw [h1, he, hF]; simp
    obtain ⟨p, hp, hm⟩ := List.countP_pos_iff.1 this
    have h2 := genProfs_count rel ρ rel p (fun _ h => h) fun i hi _ => hi
    rw [if_pos (hmt ρ p hm)] at h2
    obtain ⟨q, hq, hf⟩ := List.countP_pos_iff.1 (show 0 < (genProfs rel p).countP (Full rel ρ) by omega)
    have hq' := List.mem_flatMap.2 ⟨p, hp, hq⟩
    obtain ⟨m, hm, e⟩ := forall2_mem' fm q hq'
    exact ⟨m, hm, by rw [adm q m hq' e ρ σ hg]; exact hf⟩
  · obtain ⟨q, hq, e⟩ := forall2_mem fm m hm
    obtain ⟨p, hp, hqp⟩ := List.mem_flatMap.1 hq
    obtain ⟨x1, x2, _⟩ := genProfs_ext rel p q hqp
    refine ⟨fun i => (q i).getD false, ?_, fun σ hg => ?_⟩
    · have hmt : Mt 0 k.varnum (fun i => (q i).getD false) p = true := by
        rw [mt_iff]
        intro w x _ _ hx
        rw [x1 w x hx]; rfl
      have : 0 < L.countP (Mt 0 k.varnum fun i => (q i).getD false) := List.countP_pos_iff.2 ⟨p, hp, hmt⟩
      rw [h1] at this
      rw [← he]
      by_contra hc
      rw [if_neg hc] at this
      omega
    · rw [adm q m hq e _ σ hg, full_iff]
      intro i hi
      have := x2 i hi
      cases h : q i with
      | none => rw [h] at this; cases this
      | some b => rfl

/-! ### Normal forms -/

theorem pathLits_ok {idx : List Var} {cnf : Bool} {p : Prof} : ∀ {is : List Nat}, (∀ i ∈ is, i < idx.length) → ∃ ls, pathLits idx cnf p is = some ls ∧ (∀ f ∈ ls, ∃ l, f = .lit l ∧ l.v ∈ idx) ∧
    ∀ ρ σ, Agr idx ρ σ → (if cnf then (!(ls.any (Formula.eval σ))) else ls.all (Formula.eval σ)) = is.all fun w => (p w).all (· == ρ w)
  | [], _ => ⟨[], rfl, by simp, fun ρ σ _ => by cases cnf <;> simp⟩
  | i :: is, h => by
    obtain ⟨ls, e, hl, hm⟩ := pathLits_ok (is := is) (p := p) (cnf := cnf) fun j hj => h j (by simp [hj])
    have hil : i < idx.length := h i (by simp)
    have hi : idx[i]? = some idx[i] := List.getElem?_eq_getElem hil
    unfold pathLits
    rw [hi, e]
    refine ⟨_, rfl, ?_, fun ρ σ hg => ?_⟩
    · cases hp : p i with
      | none => simpa [hp] using hl
      | some b =>
        intro f hf
        rcases List.mem_cons.1 hf with rfl | hf
        · exact ⟨_, rfl, List.getElem_mem _⟩
        · exact hl f hf
    · have := hm ρ σ hg
      have hρ := hg i _ hi
      rw [List.all_cons, ← this, hρ]
      cases hp : p i with
      | none => simp
      | some b =>
        cases cnf <;> cases b <;> simp [Formula.eval, Lit.eval]

theorem normalForm_ok (C : Canon) (cnf : Bool) {k : Kernel Var} (hk : KInv k) (hlen : k.idx.length = k.varnum) {r : Nat} {F : (Nat → Bool) → Bool} (hs : Is k r F) :
    ∃ g, normalForm C cnf r k = some (g, k.initRef) ∧ Formula.Norm g ∧ IsNf (if cnf then .conj else .disj) g ∧ (∀ v, Occ v g → v ∈ k.idx) ∧ ∀ ρ σ, Agr k.idx ρ σ → g.eval σ = F ρ := by
  obtain ⟨t, hd, ho, he⟩ := hs
  obtain ⟨L, e, h1, _, _⟩ := allPaths_ok (!cnf) hk hd ho
  have e : k.allPaths (if cnf then 0 else 1) r = some (L, k.initRef) := by cases cnf <;> exact e
  have lits : ∀ p, ∃ ls, pathLits k.idx cnf p (List.range k.varnum) = some ls ∧ (∀ f ∈ ls, ∃ l, f = .lit l ∧ l.v ∈ k.idx) ∧ ∀ ρ σ, Agr k.idx ρ σ → (if cnf then (!(ls.any (Formula.eval σ))) else ls.all (Formula.eval σ)) = Mt 0 k.varnum ρ p := fun p => by
    obtain ⟨ls, e, h1, h2⟩ := pathLits_ok (idx := k.idx) (cnf := cnf) (p := p) (is := List.range k.varnum) fun i hi => by rw [hlen]; simpa using hi
    refine ⟨ls, e, h1, fun ρ σ hg => ?_⟩
    rw [h2 ρ σ hg]
    unfold Mt
    rw [List.range_eq_range', Nat.sub_zero]
  obtain ⟨ts, et, ft⟩ := mapM_some (f := fun p => (pathLits k.idx cnf p (List.range k.varnum)).map (Formula.mkNary C (if cnf then .disj else .conj))) (l := L) fun p _ => by
    obtain ⟨ls, e, _⟩ := lits p
    exact ⟨_, by rw [e]; rfl⟩
  have shape : ∀ g ∈ ts, ∃ ls, g = Formula.mkNary C (if cnf then .disj else .conj) ls ∧ ∀ f ∈ ls, ∃ l, f = .lit l ∧ l.v ∈ k.idx := fun g hg => by
    obtain ⟨p, _, e⟩ := forall2_mem ft g hg
    obtain ⟨ls, e', h, _⟩ := lits p
    rw [e'] at e
    exact ⟨ls, by simpa using e.symm, h⟩
  refine ⟨Formula.mkNary C (if cnf = true then Op.conj else Op.disj) ts, by unfold normalForm; rw [e]; simp only [Option.bind_some, et, Option.map_some], ?_, ?_, ?_, fun ρ σ hg => ?_⟩
  · refine Formula.norm_mkNary C _ fun g hg => ?_
    obtain ⟨ls, rfl, h⟩ := shape g hg
    refine Formula.norm_mkNary C _ fun f hf => ?_
    obtain ⟨l, rfl, _⟩ := h f hf
    exact .lit l
  · refine isNf_mkNary C _ fun g hg => ?_
    obtain ⟨ls, rfl, h⟩ := shape g hg
    refine .cl ?_
    cases cnf with
    | true => exact isCl_mkNary C fun f hf => by obtain ⟨l, rfl, _⟩ := h f hf; exact .lit l
    | false => exact isCl_mkNary C fun f hf => by obtain ⟨l, rfl, _⟩ := h f hf; exact .lit l
  · intro v hv
    obtain ⟨g, hg, hv⟩ := Formula.occ_mkNary hv
    obtain ⟨ls, rfl, h⟩ := shape g hg
    obtain ⟨f, hf, hv⟩ := Formula.occ_mkNary hv
    obtain ⟨l, rfl, hl⟩ := h f hf
    cases hv
    exact hl
  · have ev : ∀ g p, (pathLits k.idx cnf p (List.range k.varnum)).map (Formula.mkNary C (if cnf then .disj else .conj)) = some g → g.eval σ = (Mt 0 k.varnum ρ p != cnf) := fun g p e => by
      obtain ⟨ls, e', _, h⟩ := lits p
      rw [e'] at e
      simp only [Option.map_some, Option.some.injEq] at e
      rw [← e, Formula.eval_mkNary, ← h ρ σ hg]
      cases cnf <;> simp [Op.eval]
    have hc := forall2_countP (p := Mt 0 k.varnum ρ) (q := fun g => g.eval σ != cnf) ft fun p _ g e => by
      rw [ev g p e]; cases Mt 0 k.varnum ρ p <;> cases cnf <;> rfl
    rw [h1, he] at hc
    rw [Formula.eval_mkNary]
    cases cnf with
    | true =>
      simp only [if_true, Op.eval, Bool.not_true] at hc ⊢
      cases hF : F ρ with
      | true =>
        rw [hF] at hc
        simp only [Bool.true_eq_false, if_false] at hc
        rw [List.all_eq_true]
        intro g hg
        have := List.countP_eq_zero.1 hc.symm g hg
        simpa using this
      | false =>
        rw [hF] at hc
        simp only [if_true] at hc
        obtain ⟨g, hg, hgv⟩ := List.countP_pos_iff.1 (show 0 < ts.countP (fun g => g.eval σ != true) by omega)
        rw [Bool.eq_false_iff]
        intro hall
        rw [List.all_eq_true] at hall
        rw [hall g hg] at hgv
        simp at hgv
    | false =>
      simp only [Bool.false_eq_true, if_false, Op.eval, Bool.not_false] at hc ⊢
      cases hF : F ρ with
      | true =>
        rw [hF] at hc
        simp only [if_true] at hc
        obtain ⟨g, hg, hgv⟩ := List.countP_pos_iff.1 (show 0 < ts.countP (fun g => g.eval σ != false) by omega)
        rw [List.any_eq_true]
        exact ⟨g, hg, by simpa using hgv⟩
      | false =>
        rw [hF] at hc
        simp only [Bool.false_eq_true, if_false] at hc
        rw [Bool.eq_false_iff]
        intro hany
        obtain ⟨g, hg, hgv⟩ := List.any_eq_true.1 hany
        have := List.countP_eq_zero.1 hc.symm g hg
        rw [hgv] at this
        simp at this

/-! ### The formula of a BDD -/

theorem noCon_tru : NoCon .tru := by
  intro g hg
  rcases sub_operands.1 hg with rfl | ⟨_, h, _⟩
  · exact ⟨fun c => by simp, fun p => by simp⟩
  · simp [Formula.operands] at h

theorem noCon_fls : NoCon .fls := by
  intro g hg
  rcases sub_operands.1 hg with rfl | ⟨_, h, _⟩
  · exact ⟨fun c => by simp, fun p => by simp⟩
  · simp [Formula.operands] at h

theorem toFormula_ok (C : Canon) {k : Kernel Var} : ∀ (f r b : Nat) (t : BT), Den k r t → BT.Ord k.idx.length b t → t.depth < f →
    ∃ g, toFormula C k f r = some g ∧ g.Norm ∧ (∀ v, Occ v g → v ∈ k.idx) ∧ NoCon g ∧ ∀ ρ σ, Agr k.idx ρ σ → g.eval σ = t.eval ρ := by
  intro f
  induction f with
  | zero => intro r b t _ _ h; omega
  | succ f ih =>
    intro r b t hd ho hf
    unfold toFormula
    cases hd with
    | zero => exact ⟨.fls, by simp, .fls, fun v (hv : Occ v .fls) => (by cases hv), noCon_fls, fun _ _ _ => rfl⟩
    | one => exact ⟨.tru, by simp, .tru, fun v (hv : Occ v .tru) => (by cases hv), noCon_tru, fun _ _ _ => rfl⟩
    | @node _ lo tl th h2 hl dl dh =>
    rw [if_neg (by omega), if_neg (by omega)]
    obtain ⟨_, hv, o1, o2⟩ := ho
    simp only [BT.depth] at hf
    have hi : k.idx[k.level r]? = some k.idx[k.level r] := List.getElem?_eq_getElem hv
    obtain ⟨g1, e1, n1, c1, q1, v1⟩ := ih (k.high r) _ th dh o2 (by omega)
    obtain ⟨g2, e2, n2, c2, q2, v2⟩ := ih lo _ tl dl o1 (by omega)
    rw [hi, Option.bind_some, e1, Option.bind_some, hl, Option.bind_some, e2, Option.map_some]
    have pair : ∀ (x : Bool) (g : Formula), Formula.Norm g → ∀ h ∈ [Formula.lit ⟨k.idx[k.level r], x⟩, g], Formula.Norm h := fun x g hg h hh => by
      simp only [List.mem_cons, List.not_mem_nil, or_false] at hh
      rcases hh with rfl | rfl
      · exact .lit _
      · exact hg
    refine ⟨_, rfl, ?_, fun v hv => ?_, ?_, fun ρ σ hg => ?_⟩
    · refine Formula.norm_mkNary C _ fun h hh => ?_
      simp only [List.mem_cons, List.not_mem_nil, or_false] at hh
      rcases hh with rfl | rfl
      · exact Formula.norm_mkNary C _ (pair _ _ n1)
      · exact Formula.norm_mkNary C _ (pair _ _ n2)
    · obtain ⟨h, hh, hv⟩ := Formula.occ_mkNary hv
      simp only [List.mem_cons, List.not_mem_nil, or_false] at hh
      rcases hh with rfl | rfl
      · obtain ⟨h, hh, hw⟩ := Formula.occ_mkNary hv
        clear hv
        simp only [List.mem_cons, List.not_mem_nil, or_false] at hh
        rcases hh with rfl | rfl
        · cases hw; exact List.getElem_mem _
        · exact c1 v hw
      · obtain ⟨h, hh, hw⟩ := Formula.occ_mkNary hv
        clear hv
        simp only [List.mem_cons, List.not_mem_nil, or_false] at hh
        rcases hh with rfl | rfl
        · cases hw; exact List.getElem_mem _
        · exact c2 v hw
    · refine NoCon.mkNary fun h hh => ?_
      simp only [List.mem_cons, List.not_mem_nil, or_false] at hh
      rcases hh with rfl | rfl
      · refine NoCon.mkNary fun h hh => ?_
        simp only [List.mem_cons, List.not_mem_nil, or_false] at hh
        rcases hh with rfl | rfl
        · exact noCon_lit _
        · exact q1
      · refine NoCon.mkNary fun h hh => ?_
        simp only [List.mem_cons, List.not_mem_nil, or_false] at hh
        rcases hh with rfl | rfl
        · exact noCon_lit _
        · exact q2
    · have hρ := hg _ _ hi
      simp only [Formula.eval_mkOr, Formula.eval_mkAnd, List.any_cons, List.any_nil, List.all_cons, List.all_nil, Formula.eval, Lit.eval, BT.eval, v1 ρ σ hg, v2 ρ σ hg, hρ]
      cases σ k.idx[k.level r] <;> simp

end Bdd
end Verif
