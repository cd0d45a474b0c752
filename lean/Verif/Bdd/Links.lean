import Verif.Bdd.Tree
import Verif.Bdd.Kernel
import Mathlib.Data.List.Perm.Subperm
/-
Hash chains and the free list of the node table.
-/
namespace Verif
namespace Bdd

variable {V : Type}

@[simp] theorem upd_same {α : Type} (f : Nat → α) (i : Nat) (x : α) : upd f i x i = x := by simp [upd]
theorem upd_ne {α : Type} {f : Nat → α} {i j : Nat} {x : α} (h : j ≠ i) : upd f i x j = f j := by simp [upd, h]

/-- A `next`-linked list ending in `0`. -/
inductive Chain (next : Nat → Nat) : Nat → List Nat → Prop
  | nil : Chain next 0 []
  | cons {a : Nat} {c : List Nat} : a ≠ 0 → Chain next (next a) c → Chain next a (a :: c)

theorem Chain.upd {next : Nat → Nat} {n x : Nat} : ∀ {a : Nat} {c : List Nat}, Chain next a c → n ∉ c → Chain (upd next n x) a c
  | _, _, .nil, _ => .nil
  | _, _, .cons ha h, hn => by
    rename_i a c
    have hne : a ≠ n := fun e => hn (e ▸ List.mem_cons_self)
    refine .cons ha ?_
    rw [upd_ne hne]
    exact h.upd fun hm => hn (List.mem_cons_of_mem _ hm)

theorem length_le_of_lt {c : List Nat} {n : Nat} (hd : c.Nodup) (h : ∀ x ∈ c, x < n) : c.length ≤ n := by
  have : c ⊆ List.range n := fun x hx => List.mem_range.2 (h x hx)
  have := (List.subperm_of_subset hd this).length_le
  simpa using this

/-- Allocated inner node. -/
def Alloc (k : Kernel V) (n : Nat) : Prop := 2 ≤ n ∧ n < k.size ∧ (k.low n).isSome

/-- The node's bucket. -/
def InBucket (k : Kernel V) (h n : Nat) : Prop := ∃ l, k.low n = some l ∧ k.nodehash (k.level n) l (k.high n) = h

/-- Every bucket lists exactly its allocated nodes, the free list exactly the
free ones. -/
structure Links (k : Kernel V) : Prop where
  bucket : ∀ h, h < k.size → ∃ c, Chain k.next (k.hash h) c ∧ c.Nodup ∧ ∀ n, n ∈ c ↔ Alloc k n ∧ InBucket k h n
  freel : ∃ c, Chain k.next k.free c ∧ c.Nodup ∧ (∀ n, n ∈ c ↔ 2 ≤ n ∧ n < k.size ∧ k.low n = none) ∧ k.freenum = c.length

/-- Loop invariant of the relinking loop: nodes above `i` are done. -/
structure LinksFrom (i : Nat) (k : Kernel V) : Prop where
  bucket : ∀ h, h < k.size → ∃ c, Chain k.next (k.hash h) c ∧ c.Nodup ∧ ∀ n, n ∈ c ↔ i < n ∧ Alloc k n ∧ InBucket k h n
  freel : ∃ c, Chain k.next k.free c ∧ c.Nodup ∧ (∀ n, n ∈ c ↔ i < n ∧ 2 ≤ n ∧ n < k.size ∧ k.low n = none) ∧ k.freenum = c.length

namespace Kernel

theorem nodehash_lt {k : Kernel V} (h : 0 < k.size) (a b c : Nat) : k.nodehash a b c < k.size := Nat.mod_lt _ h

/-- What relinking leaves alone. -/
structure RelinkEq (live : Nat → Bool) (n : Nat) (k k' : Kernel V) : Prop where
  eq : k' = { k with low := k'.low, next := k'.next, hash := k'.hash, free := k'.free, freenum := k'.freenum }
  low : ∀ i, k'.low i = if 2 ≤ i ∧ i ≤ n ∧ live i = false then none else k.low i

theorem relinkStep_eq (live : Nat → Bool) (n : Nat) (hn : 2 ≤ n) (k : Kernel V) : (relinkStep live n k) = { k with low := (relinkStep live n k).low, next := (relinkStep live n k).next, hash := (relinkStep live n k).hash, free := (relinkStep live n k).free, freenum := (relinkStep live n k).freenum } ∧
    ∀ i, (relinkStep live n k).low i = if i = n ∧ live i = false then none else k.low i := by
  unfold relinkStep
  split
  · rename_i l h1 h2
    refine ⟨rfl, fun i => ?_⟩
    rw [if_neg]
    rintro ⟨rfl, h⟩; rw [h] at h1; cases h1
  · rename_i hx
    refine ⟨rfl, fun i => ?_⟩
    simp only
    by_cases hi : i = n
    · subst hi
      rw [upd_same]
      cases hl : live i with
      | false => simp
      | true =>
        cases hlow : k.low i with
        | none => simp
        | some l => exact (hx l hl hlow).elim
    · rw [upd_ne hi, if_neg (fun h => hi h.1)]

theorem relink_eq (live : Nat → Bool) : ∀ (n : Nat) (k : Kernel V), RelinkEq live n k (relink live n k)
  | 0, k => ⟨rfl, fun i => by rw [if_neg (by omega)]; rfl⟩
  | n + 1, k => by
    unfold relink
    split
    · exact ⟨rfl, fun i => by rw [if_neg (by omega)]⟩
    · have h1 := relinkStep_eq live (n + 1) (by omega) k
      have h2 := relink_eq live n (relinkStep live (n + 1) k)
      generalize relinkStep live (n + 1) k = k1 at h1 h2
      generalize relink live n k1 = k2 at h2
      obtain ⟨e1, l1⟩ := h1
      obtain ⟨e2, l2⟩ := h2
      refine ⟨by rw [e2, e1], fun i => ?_⟩
      rw [l2, l1]
      by_cases c1 : 2 ≤ i ∧ i ≤ n ∧ live i = false
      · rw [if_pos c1, if_pos ⟨c1.1, by omega, c1.2.2⟩]
      · rw [if_neg c1]
        by_cases c2 : i = n + 1 ∧ live i = false
        · rw [if_pos c2, if_pos ⟨by omega, by omega, c2.2⟩]
        · rw [if_neg c2, if_neg]
          rintro ⟨a, b, c⟩
          rcases Nat.lt_or_ge n i with h | h
          · exact c2 ⟨by omega, c⟩
          · exact c1 ⟨a, h, c⟩

theorem relinkStep_links {live : Nat → Bool} {n : Nat} {k : Kernel V} (hn : 2 ≤ n) (hs : n < k.size) (h : LinksFrom n k) : LinksFrom (n - 1) (relinkStep live n k) := by
  unfold relinkStep
  split
  · rename_i l h1 h2
    refine ⟨fun b hb => ?_, ?_⟩
    · obtain ⟨c, hc, hd, hm⟩ := h.bucket b hb
      have hnc : n ∉ c := fun hx => Nat.lt_irrefl _ ((hm n).1 hx).1
      by_cases hbb : b = k.nodehash (k.level n) l (k.high n)
      · refine ⟨n :: c, ?_, List.nodup_cons.2 ⟨hnc, hd⟩, fun m => ?_⟩
        · simp only [hbb, upd_same]
          refine .cons (by omega) ?_
          rw [upd_same]
          rw [hbb] at hc
          exact hc.upd hnc
        · rw [List.mem_cons, hm]
          constructor
          · rintro (rfl | ⟨a, b, c⟩)
            · exact ⟨by omega, ⟨hn, hs, by rw [h2]; rfl⟩, ⟨l, h2, hbb.symm⟩⟩
            · exact ⟨by omega, b, c⟩
          · rintro ⟨a, b, c⟩
            by_cases hmn : m = n
            · exact .inl hmn
            · exact .inr ⟨by omega, b, c⟩
      · refine ⟨c, ?_, hd, fun m => ?_⟩
        · simp only; rw [upd_ne hbb]; exact hc.upd hnc
        · rw [hm]
          constructor
          · rintro ⟨a, b, c⟩; exact ⟨by omega, b, c⟩
          · rintro ⟨a, b, c⟩
            by_cases hmn : m = n
            · subst hmn
              obtain ⟨l', hl', he⟩ := c
              simp only at hl' he
              rw [h2] at hl'; cases hl'
              exact (hbb he.symm).elim
            · exact ⟨by omega, b, c⟩
    · obtain ⟨c, hc, hd, hm, hf⟩ := h.freel
      have hnc : n ∉ c := fun hx => Nat.lt_irrefl _ ((hm n).1 hx).1
      refine ⟨c, hc.upd hnc, hd, fun m => ?_, hf⟩
      rw [hm]
      constructor
      · rintro ⟨a, b⟩; exact ⟨by omega, b⟩
      · rintro ⟨a, b⟩
        by_cases hmn : m = n
        · subst hmn; have := b.2.2; simp only at this; rw [h2] at this; cases this
        · exact ⟨by omega, b⟩
  · refine ⟨fun b hb => ?_, ?_⟩
    · obtain ⟨c, hc, hd, hm⟩ := h.bucket b hb
      have hnc : n ∉ c := fun hx => Nat.lt_irrefl _ ((hm n).1 hx).1
      refine ⟨c, hc.upd hnc, hd, fun m => ?_⟩
      rw [hm]
      simp only [Alloc, InBucket]
      by_cases hmn : m = n
      · subst hmn; simp
      · simp only [upd_ne hmn]
        constructor
        · rintro ⟨a, b⟩; exact ⟨by omega, b⟩
        · rintro ⟨a, b⟩; exact ⟨by omega, b⟩
    · obtain ⟨c, hc, hd, hm, hf⟩ := h.freel
      have hnc : n ∉ c := fun hx => Nat.lt_irrefl _ ((hm n).1 hx).1
      refine ⟨n :: c, ?_, List.nodup_cons.2 ⟨hnc, hd⟩, fun m => ?_, by simp [hf]⟩
      · show Chain (upd k.next n k.free) n (n :: c)
        refine .cons (by omega) ?_
        rw [upd_same]; exact hc.upd hnc
      · rw [List.mem_cons, hm]
        simp only
        by_cases hmn : m = n
        · subst hmn; simp only [upd_same, true_or, true_iff]; exact ⟨by omega, hn, hs, trivial⟩
        · rw [upd_ne hmn]
          constructor
          · rintro (e | ⟨a, b⟩)
            · exact (hmn e).elim
            · exact ⟨by omega, b⟩
          · rintro ⟨a, b⟩; exact .inr ⟨by omega, b⟩

theorem relinkStep_size (live : Nat → Bool) (n : Nat) (k : Kernel V) : (relinkStep live n k).size = k.size := by
  unfold relinkStep; split <;> rfl

theorem relink_links (live : Nat → Bool) : ∀ (n : Nat) (k : Kernel V), n < k.size → LinksFrom n k → Links (relink live n k)
  | 0, k, _, h => by
    refine ⟨fun b hb => ?_, ?_⟩
    · obtain ⟨c, h1, h2, h3⟩ := h.bucket b hb
      refine ⟨c, h1, h2, fun m => (h3 m).trans ⟨fun x => x.2, fun x => ⟨?_, x⟩⟩⟩
      have := x.1.1; omega
    · obtain ⟨c, h1, h2, h3, h4⟩ := h.freel
      refine ⟨c, h1, h2, fun m => (h3 m).trans ⟨fun x => x.2, fun x => ⟨?_, x⟩⟩, h4⟩
      have := x.1; omega
  | n + 1, k, hn, h => by
    unfold relink
    split
    · refine ⟨fun b hb => ?_, ?_⟩
      · obtain ⟨c, h1, h2, h3⟩ := h.bucket b hb
        refine ⟨c, h1, h2, fun m => (h3 m).trans ⟨fun x => x.2, fun x => ⟨?_, x⟩⟩⟩
        have := x.1.1; omega
      · obtain ⟨c, h1, h2, h3, h4⟩ := h.freel
        refine ⟨c, h1, h2, fun m => (h3 m).trans ⟨fun x => x.2, fun x => ⟨?_, x⟩⟩, h4⟩
        have := x.1; omega
    · refine relink_links live n _ (by rw [relinkStep_size]; omega) ?_
      exact relinkStep_links (n := n + 1) (by omega) hn h

/-- A cleared table is the start of the relinking loop. -/
theorem linksFrom_start {k : Kernel V} (hh : ∀ h, k.hash h = 0) (hf : k.free = 0) (hn : k.freenum = 0) : LinksFrom (k.size - 1) k := by
  refine ⟨fun b hb => ⟨[], ?_, List.nodup_nil, fun n => ?_⟩, [], ?_, List.nodup_nil, fun n => ?_, hn⟩
  · rw [hh]; exact .nil
  · simp only [List.not_mem_nil, false_iff]; rintro ⟨a, ⟨_, b, _⟩, _⟩; omega
  · rw [hf]; exact .nil
  · simp only [List.not_mem_nil, false_iff]; rintro ⟨a, _, b, _⟩; omega

/-- The bucket search decides membership in the table. -/
theorem find_chain {k : Kernel V} {lvl lo hi : Nat} : ∀ {fuel a : Nat} {c : List Nat}, Chain k.next a c → c.length ≤ fuel →
    (∃ r, k.find lvl lo hi fuel a = some (some r) ∧ r ∈ c ∧ k.level r = lvl ∧ k.low r = some lo ∧ k.high r = hi) ∨
    (k.find lvl lo hi fuel a = some none ∧ ∀ r ∈ c, ¬ (k.level r = lvl ∧ k.low r = some lo ∧ k.high r = hi))
  | fuel, _, _, .nil, _ => .inr ⟨by unfold find; simp, by simp⟩
  | 0, _, _, .cons ha h, hl => by simp at hl
  | fuel + 1, _, _, .cons ha h, hl => by
    rename_i a c
    by_cases hx : k.level a = lvl ∧ k.low a = some lo ∧ k.high a = hi
    · refine .inl ⟨a, ?_, List.mem_cons_self, hx⟩
      unfold find; simp [ha, hx]
    · have e : k.find lvl lo hi (fuel + 1) a = k.find lvl lo hi fuel (k.next a) := by
        conv => lhs; unfold find
        simp only [ha, if_false, hx]
      rw [e]
      rcases find_chain (fuel := fuel) h (by simpa using hl) with ⟨r, h1, h2, h3⟩ | ⟨h1, h2⟩
      · exact .inl ⟨r, h1, List.mem_cons_of_mem _ h2, h3⟩
      · refine .inr ⟨h1, fun r hr => ?_⟩
        rcases List.mem_cons.1 hr with rfl | hr
        · exact hx
        · exact h2 r hr

end Kernel
end Bdd
end Verif
