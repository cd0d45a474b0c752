import Verif.Props.UpCnf
/-
The sizes of the CNFs with new variables: what the proofs of C77 need.  No code of the repository.
-/
namespace Verif
open ER

namespace Size

/-- The clauses of `d`, but constants, are in the list. -/
def LeafIn (d : Formula) (L : List Formula) : Prop := ∀ c, OLeaf .conj c d → c.isConst = false → c ∈ L

theorem oleaf_flat {o c g} (h : OLeaf o c g) (hg : ∀ gs, g ≠ .nary o gs) : c = g := by
  cases h with
  | self _ => rfl
  | nary _ _ => exact absurd rfl (hg _)

theorem cl_leaf {c g : Formula} (hg : IsCl .disj g) (h : OLeaf .conj c g) : c = g := by
  cases hg <;> cases h <;> rfl

theorem LeafIn.const {d L} (h : d.isConst = true) : LeafIn d L := by
  intro c hc hk
  have : c = d := oleaf_flat hc (by rintro gs rfl; simp [Formula.isConst] at h)
  rw [this, h] at hk
  cases hk

theorem LeafIn.mono {d L L'} (h : LeafIn d L) (hs : ∀ c ∈ L, c ∈ L') : LeafIn d L' := fun c h1 h2 => hs c (h c h1 h2)

theorem LeafIn.cl {d L} (hd : IsCl .disj d) (h : d ∈ L) : LeafIn d L := fun c hc _ => by rw [cl_leaf hd hc]; exact h

theorem leafIn_mkAnd {C : Canon} {fs : List Formula} {L} (h : ∀ f ∈ fs, LeafIn f L) : LeafIn (Formula.mkAnd C fs) L := by
  rcases Formula.mkNary_cases C .conj fs with ⟨e, _⟩ | e | ⟨f, hf, hl⟩ | ⟨l, e, _, hl⟩
  · unfold Formula.mkAnd; rw [e]; exact .const rfl
  · unfold Formula.mkAnd; rw [e]; exact .const rfl
  · intro c hc hk
    have : c = Formula.mkNary C .conj fs := oleaf_flat hc (Formula.OLeaf.flat hl)
    subst this
    exact h f hf _ hl hk
  · intro c hc hk
    unfold Formula.mkAnd at hc
    rw [e] at hc
    cases hc with
    | self hs => exact absurd rfl (hs _)
    | @nary _ g hg hc =>
      obtain ⟨⟨f, hf, hfl⟩, _⟩ := hl g hg
      have := oleaf_flat hc (Formula.OLeaf.flat hfl)
      subst this
      exact h f hf _ hfl hk

/-! ### The measure -/

theorem nodup_sum_le {α : Type} [DecidableEq α] (w : α → Nat) : ∀ {a b : List α}, a.Nodup → (∀ x ∈ a, x ∈ b) → (a.map w).sum ≤ (b.map w).sum := by
  intro a
  induction a with
  | nil => intro b _ _; simp
  | cons x t ih =>
    intro b hn hs
    have hx := hs x (by simp)
    have hp := (List.perm_cons_erase hx).map w
    have hsum : (b.map w).sum = w x + ((b.erase x).map w).sum := by rw [hp.sum_nat]; simp
    rw [hsum, List.map_cons, List.sum_cons]
    have := ih (b := b.erase x) (List.nodup_cons.1 hn).2 fun y hy => by
      have hne : y ≠ x := fun e => (List.nodup_cons.1 hn).1 (e ▸ hy)
      exact (List.mem_erase_of_ne hne).2 (hs y (by simp [hy]))
    omega

/-- The sum of a measure of the lengths of the clauses. -/
def msum (w : Nat → Nat) (g : Formula) : Nat := ((cnfCls g).map fun c => w c.length).sum

theorem msum_le {w : Nat → Nat} (hw : ∀ a b, a ≤ b → w a ≤ w b) {g : Formula} {L : List Formula} (hg : IsCnf g) (hn : g.Norm) (hL : LeafIn g L) (hne : L ≠ []) :
    msum w g ≤ (L.map fun c => w (clauseLits c).length).sum := by
  have one : ∀ {c}, c ∈ L → w (clauseLits c).length ≤ (L.map fun c => w (clauseLits c).length).sum := fun {c} hc => by
    have := nodup_sum_le (fun c => w (clauseLits c).length) (a := [c]) (b := L) (by simp) (by simpa using hc)
    simpa using this
  cases hg with
  | clause h =>
    cases h with
    | tru => simp [msum, cnfCls]
    | fls =>
      obtain ⟨c, hc⟩ := List.exists_mem_of_ne_nil L hne
      refine le_trans ?_ (one hc)
      simp only [msum, cnfCls, clauseLits, List.map_cons, List.map_nil, List.sum_cons, List.sum_nil, List.length_nil, Nat.add_zero]
      exact hw _ _ (Nat.zero_le _)
    | lit l => simpa [msum, cnfCls] using one (hL _ (.self (by simp)) rfl)
    | or h => simpa [msum, cnfCls] using one (hL _ (.self (by simp)) rfl)
  | @and fs h =>
    cases hn with
    | nary _ _ k =>
      have := nodup_sum_le (fun c => w (clauseLits c).length) (a := fs) (b := L) k.nodup fun f hf => hL f (.nary hf (.self (k.flat f hf))) (k.notConst f hf)
      simpa [msum, cnfCls, Function.comp_def] using this

/-! ### Restriction -/

/-- A disjunction of literals is not longer than the list of its operands. -/
theorem mkOr_lits (C : Canon) {gs : List Formula} (h : ∀ f ∈ gs, (∃ l, f = .lit l) ∨ f.isConst = true) : (clauseLits (Formula.mkOr C gs)).length ≤ gs.length := by
  have hflat : ∀ f ∈ gs, ∀ hs, f ≠ .nary .disj hs := by
    rintro f hf hs rfl
    rcases h _ hf with ⟨l, e⟩ | e
    · cases e
    · simp [Formula.isConst] at e
  have hnorm : (Formula.mkNary C .disj gs).Norm := Formula.norm_mkNary C _ fun f hf => by
    rcases h f hf with ⟨l, rfl⟩ | e
    · exact .lit l
    · cases f <;> simp [Formula.isConst] at e
      · exact .tru
      · exact .fls
  unfold Formula.mkOr
  rcases Formula.mkNary_cases C .disj gs with ⟨e, _⟩ | e | ⟨f, hf, hl⟩ | ⟨l, e, _, hl⟩
  · rw [e]; simp [Formula.absorbing, clauseLits]
  · rw [e]; simp [Formula.neutral, clauseLits]
  · have := oleaf_flat hl (hflat f hf)
    rw [this]
    have hpos : 1 ≤ gs.length := List.length_pos_of_mem hf
    rcases h f hf with ⟨l, rfl⟩ | e
    · simpa [clauseLits] using hpos
    · cases f <;> simp [Formula.isConst] at e <;> simp [clauseLits]
  · rw [e] at hnorm ⊢
    cases hnorm with
    | nary _ _ k =>
      refine le_trans (List.length_filterMap_le ..) (nodup_length_le k.nodup fun g hg => ?_)
      obtain ⟨⟨f, hf, hfl⟩, _⟩ := hl g hg
      rw [oleaf_flat hfl (hflat f hf)]
      exact hf

theorem restrict_lits {C : Canon} {A : PAsg} {c g : Formula} (hc : IsCl .disj c) (e : c.restrict C A = some g) : (clauseLits g).length ≤ (clauseLits c).length := by
  have hlit : ∀ {l : Lit} {g}, (Formula.lit l).restrict C A = some g → (∃ k, g = .lit k) ∨ g.isConst = true := by
    intro l g e
    have := isCl_restrict (o := .disj) (.lit l) e
    simp only [Formula.restrict, Option.some.injEq] at e
    subst e
    unfold PAsg.restrictLit
    split
    · exact .inr (by split <;> rfl)
    · split
      · exact .inr (by split <;> rfl)
      · exact .inl ⟨_, rfl⟩
  cases hc with
  | tru => simp only [Formula.restrict, Option.some.injEq] at e; subst e; exact le_rfl
  | fls => simp only [Formula.restrict, Option.some.injEq] at e; subst e; exact le_rfl
  | lit l =>
    rcases hlit e with ⟨k, rfl⟩ | h
    · simp [clauseLits]
    · cases g <;> simp [Formula.isConst] at h <;> simp [clauseLits]
  | @nary fs h =>
    simp only [Formula.restrict, Option.map_eq_some_iff] at e
    obtain ⟨gs, e1, rfl⟩ := e
    have hm := restricts_mem e1
    have hlen : gs.length = fs.length := hm.length_eq.symm
    have hcl : (clauseLits (.nary .disj fs)).length = fs.length := by
      simp only [clauseLits]
      clear hm e1 hlen
      induction fs with
      | nil => rfl
      | cons f fs ih =>
        obtain ⟨l, rfl⟩ := h f (by simp)
        simp [ih fun f hf => h f (by simp [hf])]
    rw [hcl, ← hlen]
    refine mkOr_lits C fun g hg => ?_
    obtain ⟨f, hf, e2⟩ := forall2_right hm hg
    obtain ⟨l, rfl⟩ := h f hf
    exact hlit e2

/-- The clause after restriction. -/
def rs (C : Canon) (A : PAsg) (c : Formula) : Formula := (c.restrict C A).getD .tru

theorem leafIn_restrict {C : Canon} {A : PAsg} {d g : Formula} {L} (hd : IsCnf d) (hn : d.Norm) (e : d.restrict C A = some g) (h : LeafIn d L) :
    LeafIn g (L.map (rs C A)) := by
  have hcl : ∀ {f}, IsClause f → IsCl .disj f := fun {f} hf => by cases hf with
    | tru => exact .tru
    | fls => exact .fls
    | lit l => exact .lit l
    | or h => exact .nary h
  have one : ∀ {f f'}, IsCl .disj f → (f.isConst = false → f ∈ L) → f.restrict C A = some f' → LeafIn f' (L.map (rs C A)) := by
    intro f f' hf hL e
    by_cases hk : f.isConst = true
    · cases f <;> simp [Formula.isConst] at hk <;> simp only [Formula.restrict, Option.some.injEq] at e <;> subst e <;> exact .const rfl
    · exact .cl (isCl_restrict hf e) (List.mem_map.2 ⟨f, hL (by simpa using hk), by simp [rs, e]⟩)
  cases hd with
  | clause hd => exact one (hcl hd) (fun hk => h d (.self (by cases hd <;> simp)) hk) e
  | @and fs hd =>
    simp only [Formula.restrict, Option.map_eq_some_iff] at e
    obtain ⟨gs, e1, rfl⟩ := e
    refine leafIn_mkAnd fun g hg => ?_
    obtain ⟨f, hf, e2⟩ := forall2_right (restricts_mem e1) hg
    refine one (hcl (hd f hf)) (fun hk => h f (.nary hf (.self ?_)) hk) e2
    have := hcl (hd f hf)
    cases this <;> simp

/-- The result of a transformation with new variables: the definitions of the nodes, restricted. -/
theorem msum_restrict {w : Nat → Nat} (hw : ∀ a b, a ≤ b → w a ≤ w b) {C : Canon} {A : PAsg} {d g : Formula} {L} (hd : IsCnf d) (hn : d.Norm)
    (e : d.restrict C A = some g) (hg : IsCnf g) (hgn : g.Norm) (h : LeafIn d L) (hL : ∀ c ∈ L, IsCl .disj c) (hne : L ≠ []) :
    msum w g ≤ (L.map fun c => w (clauseLits c).length).sum := by
  refine le_trans (msum_le hw hg hgn (leafIn_restrict hd hn e h) (by simpa using hne)) ?_
  rw [List.map_map]
  clear h hne
  induction L with
  | nil => simp
  | cons c L ih =>
    simp only [List.map_cons, List.sum_cons, Function.comp_apply]
    refine Nat.add_le_add (hw _ _ ?_) (ih fun c hc => hL c (by simp [hc]))
    unfold rs
    cases hr : c.restrict C A with
    | none => simp [clauseLits]
    | some c' => exact restrict_lits (hL c (by simp)) hr

end Size

end Verif
