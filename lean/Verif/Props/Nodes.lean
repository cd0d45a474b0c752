import Verif.F.Nodes
import Verif.Props.Ops

/-
C73: node counts; the limits of the 64-bit counters (C52) and of the Plaisted-Greenbaum transformation (C15).
-/
namespace Verif

private abbrev va : Var := .named 0
private abbrev vb : Var := .named 1
private abbrev vc : Var := .named 2

/-- C73: `number_of_nodes` is the number of places in the tree of the formula, in every state of its cache. -/
theorem C73_nodes {on : Bool} {m : Memo Nat} (hm : fnNodes.Reach on m) (f : Formula) :
    ∃ l : List (List Nat), l.Nodup ∧ (∀ p, p ∈ l ↔ At f p) ∧ numberOfNodes on f m = l.length := by
  obtain ⟨l, h1, h2, h3⟩ := nodes_val f
  refine ⟨l, h1, h2, ?_⟩
  unfold numberOfNodes
  rw [(fnNodes.run_ok on f m hm.valid).1, h3]

/-- C73: `number_of_internal_nodes` is the number of different sub-formulas, in every state of its cache. -/
theorem C73_internal {m : Memo (List Formula)} (hm : fnSub.Reach true m) (f : Formula) :
    ∃ l : List Formula, l.Nodup ∧ (∀ g, g ∈ l ↔ Sub g f) ∧ numberOfInternalNodes f m = l.length := by
  obtain ⟨h1, h2, _⟩ := C17_sub_nodes hm f
  exact ⟨_, h2, h1, rfl⟩

/-- C73: `number_of_operands` is the number of direct sub-formulas. -/
theorem C73_operands (f : Formula) (i : Nat) : i < numberOfOperands f ↔ ∃ g, f.operands[i]? = some g := by
  have h : numberOfOperands f = f.operands.length := by cases f <;> rfl
  rw [h]
  exact ⟨fun hi => ⟨_, List.getElem?_eq_getElem hi⟩, fun ⟨g, hg⟩ => (List.getElem?_eq_some_iff.1 hg).1⟩

/-- Example: `a => (b & (c + d = 1))` of the documentation has 7 nodes, 5 of them internal; the second call finds the
sub-formula in the cache. -/
example : let g : Formula := .nary .conj [.lit vb.p, .cc ⟨[vc, va], .eq, 1⟩]
    let m := (fnNodes.run true g fun _ => none).2
    fnNodes.Reach true m ∧ m g = some 4 ∧ numberOfNodes true (.impl (.lit va.p) g) m = 7 ∧
    numberOfInternalNodes (.impl (.lit va.p) g) (fun _ => none) = 5 ∧ numberOfOperands g = 2 :=
  ⟨.call _ .empty, by decide, by decide, by decide, by decide⟩

/-- C52, C73: the 64-bit counters are exact as long as the numbers are below 2^64. -/
theorem C73_u64_partial {on : Bool} {m m' : Memo Nat} (hm : fnAtoms64.Reach on m) (hm' : fnNodes64.Reach on m') {f : Formula} (hn : f.Norm) :
    ((leaves (sizeOf f) f).length < 2 ^ 64 → (fnAtoms64.run on f m).1 = (leaves (sizeOf f) f).length) ∧
    (∀ l : List (List Nat), l.Nodup → (∀ p, p ∈ l ↔ At f p) → l.length < 2 ^ 64 → (1 + (fnNodes64.run on f m').1) % 2 ^ 64 = l.length) := by
  rw [(fnAtoms64.run_ok on f m hm.valid).1, (fnNodes64.run_ok on f m' hm'.valid).1, atoms64_val, nodes64_val, atoms_val hn _ (Nat.le_refl _)]
  refine ⟨fun h => Nat.mod_eq_of_lt h, fun l h1 h2 h3 => ?_⟩
  obtain ⟨l', h4, h5, h6⟩ := nodes_val f
  have : l.length = l'.length := ((List.perm_ext_iff_of_nodup h1 h4).2 fun p => (h2 p).trans (h5 p).symm).length_eq
  omega

/-- Sub-formulas are shared, so that a formula of less than 200 nodes can have 2^64 atoms.  `number_of_atoms` then
returns 0 (a build with overflow checks panics), in every state of its cache. -/
theorem C52_overflow_counterexample : ∃ f : Formula, f.Norm ∧ f.isAtomic = false ∧
    (∀ m, fnSub.Reach true m → numberOfInternalNodes f m < 200) ∧
    (leaves (sizeOf f) f).length = 2 ^ 64 ∧ ∀ on m, fnAtoms64.Reach on m → (fnAtoms64.run on f m).1 = 0 := by
  have hab : va ≠ vb := by decide
  have hn : (Formula.nary .conj [shared va vb 62, .lit va.p, .lit vb.p]).Norm := by
    obtain ⟨gs, hg⟩ := shared_disj va vb 62
    refine .nary (by simp) (by intro f hf; simp at hf; rcases hf with rfl | rfl | rfl; exacts [shared_norm hab _, .lit _, .lit _]) ⟨?_, ?_, ?_, ?_, ?_⟩
    · rw [hg]; simp [Var.p, hab]
    · intro f hf; rw [hg] at hf; simp at hf; rcases hf with rfl | rfl | rfl <;> rfl
    · intro f hf gs; rw [hg] at hf; simp at hf; rcases hf with rfl | rfl | rfl <;> simp
    · intro l h1 h2
      rw [hg] at h1 h2
      simp [Var.p, Lit.neg] at h1 h2
      rcases h1 with rfl | rfl <;> simp at h2
    · intro f h; rw [hg] at h; simp at h
  have ha : fnAtoms.val (.nary .conj [shared va vb 62, .lit va.p, .lit vb.p]) = 2 ^ 64 := by
    simp only [atoms_nary, atoms_lit, List.foldl_cons, List.foldl_nil, shared_atoms]
  refine ⟨_, hn, rfl, fun m hm => ?_, ?_, fun on m hm => ?_⟩
  · obtain ⟨l, h1, h2, h3⟩ := C73_internal hm (.nary .conj [shared va vb 62, .lit va.p, .lit vb.p])
    have hs : l ⊆ .nary .conj [shared va vb 62, .lit va.p, .lit vb.p] :: sharedParts va vb 62 := by
      intro g hg
      have hl := sharedParts_lits va vb 62
      rcases sub_operands.1 ((h2 g).1 hg) with rfl | ⟨o, ho, h⟩
      · simp
      · simp only [Formula.operands, List.mem_cons, List.not_mem_nil, or_false] at ho
        rcases ho with rfl | rfl | rfl
        · exact List.mem_cons_of_mem _ (shared_sub h)
        · rw [sub_lit h]; exact List.mem_cons_of_mem _ hl.1
        · rw [sub_lit h]; exact List.mem_cons_of_mem _ hl.2
    have := (List.subperm_of_subset h1 hs).length_le
    rw [List.length_cons, sharedParts_length] at this
    omega
  · rw [← atoms_val hn _ (Nat.le_refl _), ha]
  · rw [(fnAtoms64.run_ok on _ m hm.valid).1, atoms64_val, ha]

/-- C15: up to 2^60 - 2 atoms the memory asked for by the Plaisted-Greenbaum transformation does not matter. -/
theorem C15_memory_partial (C : Canon) {f : Formula} (hn : f.Norm) (h : (leaves (sizeOf f) f).length + 1 < 2 ^ 60) (st : TState) (w : World) :
    pgGc C f st w = pgG C f st w :=
  pgGc_eq C f (by rw [atoms_val hn _ (Nat.le_refl _)]; exact h) st w

/-- C15: the Plaisted-Greenbaum transformation asks for memory for all atoms of the tree and panics on a formula of less
than 200 nodes in negation normal form, in every state. -/
theorem C15_memory_counterexample (C : Canon) : ∃ f : Formula, f.Norm ∧ IsNnf f ∧ (∀ m, fnSub.Reach true m → numberOfInternalNodes f m < 200) ∧
    ∀ st w, pgGc C f st w = none := by
  have hab : va ≠ vb := by decide
  refine ⟨shared va vb 59, shared_norm hab _, ?_, fun m hm => ?_, fun st w => ?_⟩
  · have : ∀ k, IsNnf (shared va vb k) := by
      intro k
      induction k with
      | zero => exact .nary (by intro f hf; simp at hf; rcases hf with rfl | rfl <;> exact .lit _)
      | succ k ih =>
        refine .nary (by
          intro f hf; simp at hf
          rcases hf with rfl | rfl <;>
          exact .nary (by intro f hf; simp at hf; rcases hf with rfl | rfl; exacts [ih, .lit _]))
    exact this 59
  · obtain ⟨l, h1, h2, h3⟩ := C73_internal hm (shared va vb 59)
    have hs : l ⊆ sharedParts va vb 59 := fun g hg => shared_sub ((h2 g).1 hg)
    have := (List.subperm_of_subset h1 hs).length_le
    rw [sharedParts_length] at this
    omega
  · obtain ⟨gs, hg⟩ := shared_disj va vb 59
    have ha := shared_atoms va vb 59
    rw [hg] at ha ⊢
    simp only [pgGc, atoms64_val, ha]
    rw [if_pos (by omega)]

/-- Example: a formula within the bound. -/
example : (shared va vb 5).Norm ∧ (leaves (sizeOf (shared va vb 5)) (shared va vb 5)).length + 1 < 2 ^ 60 := by
  have hn := shared_norm (a := va) (b := vb) (by decide) 5
  refine ⟨hn, ?_⟩
  rw [← atoms_val hn _ (Nat.le_refl _), shared_atoms]
  omega

end Verif
