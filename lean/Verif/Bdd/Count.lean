import Verif.Bdd.Build
import Mathlib.Data.List.Nodup
/-
Counting and path enumeration (src/knowledge_compilation/bdd/bdd_operations.rs).
-/
namespace Verif
namespace Bdd

variable {V : Type}

namespace Kernel

/-- bdd_operations.rs 268-283. -/
def satCountRec : Nat → Nat → Kernel V → Option (Nat × Kernel V)
  | 0, _, _ => none
  | f + 1, r, k =>
    if r < 2 then some (r, k)
    else
      let e := k.miscc.get r
      if e.a = some r ∧ e.c = 2 then some (e.bdres, k)
      else do
        let lo ← k.low r
        let (a, k) ← satCountRec f lo k
        let (b, k) ← satCountRec f (k.high r) k
        let size := 2 ^ (k.level lo - k.level r - 1) * a + 2 ^ (k.level (k.high r) - k.level r - 1) * b
        return (size, { k with miscc := k.miscc.setBd r r 0 2 size })

/-- bdd_operations.rs 82-85. -/
def satCount (r : Nat) (k : Kernel V) : Option (Nat × Kernel V) := (satCountRec (k.varnum + 1) r k).map fun p => (p.1 * 2 ^ k.level r, p.2)

/-- bdd_operations.rs 285-300; `b` is the leaf whose paths are counted
(`count_true`, `count_false` are `1, 0` or `0, 1`, lines 88-95). -/
def pathCountRec (b : Bool) : Nat → Nat → Kernel V → Option (Nat × Kernel V)
  | 0, _, _ => none
  | f + 1, r, k =>
    if r = 0 then some (if b then 0 else 1, k)
    else if r = 1 then some (if b then 1 else 0, k)
    else
      let e := k.miscc.get r
      if e.a = some r ∧ e.c = (if b then 4 else 8) then some (e.bdres, k)
      else do
        let lo ← k.low r
        let (x, k) ← pathCountRec b f lo k
        let (y, k) ← pathCountRec b f (k.high r) k
        return (x + y, { k with miscc := k.miscc.setBd r r 0 (if b then 4 else 8) (x + y) })

/-- `path_count_one`, `path_count_zero`, 88-95. -/
def pathCount (b : Bool) (r : Nat) (k : Kernel V) : Option (Nat × Kernel V) := pathCountRec b (k.varnum + 1) r k

/-- An entry of a profile: `-1` is `none`. -/
abbrev Prof := Nat → Option Bool

/-- The loops 223-226 and 232-235: `v` downwards while above `l`. -/
def fillGap (l : Nat) : Nat → Prof → Prof
  | 0, p => p
  | v + 1, p => if v + 1 > l then fillGap l v (upd p (v + 1) none) else p

/-- `all_sat_rec` 212-238 (`tgt = 1`) and `all_unsat_rec` 240-266 (`tgt = 0`);
the vector of profiles is a list of functions.  Returns the profiles found and
the profile as left behind. -/
def allPathsRec (tgt : Nat) (k : Kernel V) : Nat → Nat → List Prof → Prof → Option (List Prof × Prof)
  | 0, _, _, _ => none
  | f + 1, r, ms, p =>
    if r = tgt then some (ms ++ [p], p)
    else if r = 1 - tgt then some (ms, p)
    else (k.low r).bind fun lo =>
      (if lo ≠ 1 - tgt then allPathsRec tgt k f lo ms (fillGap (k.level r) (k.level lo - 1) (upd p (k.level r) (some false))) else some (ms, p)).bind fun x =>
      if k.high r ≠ 1 - tgt then allPathsRec tgt k f (k.high r) x.1 (fillGap (k.level r) (k.level (k.high r) - 1) (upd x.2 (k.level r) (some true))) else some x

/-- The initial profile 64-67. -/
def initProf (k : Kernel V) (r : Nat) : Prof := (List.range (k.level r)).foldr (fun v p => upd p v none) fun _ => some false

/-- `all_sat` 63-72, `all_unsat` 98-107. -/
def allPaths (tgt r : Nat) (k : Kernel V) : Option (List Prof × Kernel V) :=
  (allPathsRec tgt k (k.varnum + 1) r [] (k.initProf r)).map fun p => (p.1, k.initRef)

end Kernel

/-! ### Counts -/

/-- Only the miscellaneous cache differs. -/
def MiscEq (k k' : Kernel V) : Prop := k' = { k with miscc := k'.miscc }

theorem MiscEq.refl (k : Kernel V) : MiscEq k k := rfl
theorem MiscEq.trans {a b c : Kernel V} (h1 : MiscEq a b) (h2 : MiscEq b c) : MiscEq a c := by
  unfold MiscEq at *; rw [h2, h1]
theorem MiscEq.tab {k k' : Kernel V} (h : MiscEq k k') : TabEq k k' := by rw [h]; exact tabEq_misc k _
theorem MiscEq.set (k : Kernel V) (c : Cache) : MiscEq k { k with miscc := c } := rfl

theorem satCountRec_ok : ∀ (f : Nat) (k : Kernel V) (r : Nat) (t : BT), KInv k → Den k r t → t.depth < f → ∃ k', Kernel.satCountRec f r k = some (t.satc k.varnum, k') ∧ KInv k' ∧ MiscEq k k' := by
  intro f
  induction f with
  | zero => intro k r t _ _ h; omega
  | succ f ih =>
    intro k r t hk hd hf
    unfold Kernel.satCountRec
    have hd0 := hd
    cases hd with
    | zero => exact ⟨k, by simp [BT.satc], hk, .refl _⟩
    | one => exact ⟨k, by simp [BT.satc], hk, .refl _⟩
    | @node _ lo tl th h2 hl dl dh =>
    rw [if_neg (by omega)]
    simp only
    by_cases he : (k.miscc.get r).a = some r ∧ (k.miscc.get r).c = 2
    · rw [if_pos he]
      refine ⟨k, ?_, hk, .refl _⟩
      have he2 : (k.miscc.tab (r % k.miscc.size)).c = 2 := he.2
      rcases hk.mc (r % k.miscc.size) r he.1 with ⟨var, tv, F, a, b, c, d⟩ | ⟨t', d', h⟩
      · omega
      · have := den_fun d' hd0
        subst this
        rcases h with ⟨_, h⟩ | ⟨h, _⟩ | ⟨h, _⟩
        · show some ((k.miscc.tab (r % k.miscc.size)).bdres, k) = _
          rw [h]
        · omega
        · omega
    rw [if_neg he]
    simp only [BT.depth] at hf
    obtain ⟨k1, e1, hk1, m1⟩ := ih k lo tl hk dl (by omega)
    have hh1 : k1.high = k.high := m1.tab.high
    have hv1 : k1.varnum = k.varnum := m1.tab.varnum
    obtain ⟨k2, e2, hk2, m2⟩ := ih k1 (k.high r) th hk1 (m1.tab.dext _ _ dh) (by omega)
    have m12 := m1.trans m2
    simp only [bind, Option.bind, hl, e1, hh1, e2, pure]
    have hlv : k2.level = k.level := m12.tab.level
    have hv2 : k2.varnum = k.varnum := m12.tab.varnum
    have hhi : k2.high = k.high := m12.tab.high
    have hval : 2 ^ (k2.level lo - k2.level r - 1) * tl.satc k.varnum + 2 ^ (k2.level (k2.high r) - k2.level r - 1) * th.satc k1.varnum = (BT.node (k.level r) tl th).satc k.varnum := by
      simp only [BT.satc]; rw [hlv, hhi, hk.level dl, hk.level dh, hv1]
    rw [hval]
    refine ⟨_, rfl, setMiscBd_inv hk2 fun x => ?_, m12.trans (.set _ _)⟩
    intro r' hr'
    cases hr'
    refine .inr ⟨_, m12.tab.dext _ _ hd0, .inl ⟨rfl, by rw [hv2]⟩⟩

theorem pathCountRec_ok (b : Bool) : ∀ (f : Nat) (k : Kernel V) (r : Nat) (t : BT), KInv k → Den k r t → t.depth < f → ∃ k', Kernel.pathCountRec b f r k = some (t.pathc b, k') ∧ KInv k' ∧ MiscEq k k' := by
  intro f
  induction f with
  | zero => intro k r t _ _ h; omega
  | succ f ih =>
    intro k r t hk hd hf
    unfold Kernel.pathCountRec
    have hd0 := hd
    cases hd with
    | zero => exact ⟨k, by cases b <;> simp [BT.pathc], hk, .refl _⟩
    | one => exact ⟨k, by cases b <;> simp [BT.pathc], hk, .refl _⟩
    | @node _ lo tl th h2 hl dl dh =>
    rw [if_neg (by omega), if_neg (by omega)]
    simp only
    by_cases he : (k.miscc.get r).a = some r ∧ (k.miscc.get r).c = (if b then 4 else 8)
    · rw [if_pos he]
      refine ⟨k, ?_, hk, .refl _⟩
      have he2 : (k.miscc.tab (r % k.miscc.size)).c = (if b then 4 else 8) := he.2
      rcases hk.mc (r % k.miscc.size) r he.1 with ⟨var, tv, F, a, _, c, d⟩ | ⟨t', d', h⟩
      · cases b <;> simp at he2 <;> omega
      · have := den_fun d' hd0
        subst this
        have : (k.miscc.tab (r % k.miscc.size)).bdres = (BT.node (k.level r) tl th).pathc b := by
          rcases h with ⟨h, _⟩ | ⟨h, h'⟩ | ⟨h, h'⟩
          · cases b <;> simp at he2 <;> omega
          · cases b <;> simp at he2
            · omega
            · exact h'
          · cases b <;> simp at he2
            · exact h'
            · omega
        show some ((k.miscc.tab (r % k.miscc.size)).bdres, k) = _
        rw [this]
    rw [if_neg he]
    simp only [BT.depth] at hf
    obtain ⟨k1, e1, hk1, m1⟩ := ih k lo tl hk dl (by omega)
    have hh1 : k1.high = k.high := m1.tab.high
    obtain ⟨k2, e2, hk2, m2⟩ := ih k1 (k.high r) th hk1 (m1.tab.dext _ _ dh) (by omega)
    have m12 := m1.trans m2
    simp only [bind, Option.bind, hl, e1, hh1, e2, pure]
    refine ⟨_, rfl, setMiscBd_inv hk2 fun x => ?_, m12.trans (.set _ _)⟩
    intro r' hr'
    cases hr'
    refine .inr ⟨_, m12.tab.dext _ _ hd0, ?_⟩
    cases b
    · exact .inr (.inr ⟨rfl, rfl⟩)
    · exact .inr (.inl ⟨rfl, rfl⟩)

/-! ### What is counted -/

/-- All Boolean vectors of length `n`. -/
def vecs : Nat → List (List Bool)
  | 0 => [[]]
  | n + 1 => (vecs n).map (false :: ·) ++ (vecs n).map (true :: ·)

theorem mem_vecs : ∀ {n : Nat} {v : List Bool}, v ∈ vecs n ↔ v.length = n
  | 0, v => by simp [vecs]
  | n + 1, v => by
    cases v with
    | nil => simp [vecs]
    | cons x v => cases x <;> simp [vecs, mem_vecs (n := n)]

theorem nodup_vecs : ∀ (n : Nat), (vecs n).Nodup
  | 0 => by simp [vecs]
  | n + 1 => by
    unfold vecs
    rw [List.nodup_append]
    have inj : ∀ b : Bool, ((vecs n).map (b :: ·)).Nodup := fun b => List.Nodup.map (fun x y h => by injection h) (nodup_vecs n)
    refine ⟨inj false, inj true, fun a ha b hb e => ?_⟩
    simp only [List.mem_map] at ha hb
    obtain ⟨x, _, rfl⟩ := ha
    obtain ⟨y, _, rfl⟩ := hb
    simp at e

/-- The valuation of the levels from `b` on given by a vector. -/
def vval (b : Nat) (v : List Bool) : Nat → Bool := fun i => v.getD (i - b) false

theorem vval_head (b : Nat) (x : Bool) (v : List Bool) : vval b (x :: v) b = x := by simp [vval]
theorem vval_tail (b : Nat) (x : Bool) (v : List Bool) (i : Nat) (h : b + 1 ≤ i) : vval b (x :: v) i = vval (b + 1) v i := by
  unfold vval
  obtain ⟨d, rfl⟩ : ∃ d, i = b + 1 + d := ⟨i - (b + 1), by omega⟩
  have h1 : b + 1 + d - b = d + 1 := by omega
  have h2 : b + 1 + d - (b + 1) = d := by omega
  rw [h1, h2]; simp

/-- Number of models over `n` levels from `b` on. -/
def mcount (b n : Nat) (t : BT) : Nat := (vecs n).countP fun v => t.eval (vval b v)

theorem mcount_succ (b n : Nat) (t : BT) : mcount b (n + 1) t = (vecs n).countP (fun v => t.eval (vval b (false :: v))) + (vecs n).countP (fun v => t.eval (vval b (true :: v))) := by
  unfold mcount
  rw [vecs, List.countP_append, List.countP_map, List.countP_map]
  rfl

theorem mcount_skip {nv b n : Nat} {t : BT} (h : BT.Ord nv (b + 1) t) : mcount b (n + 1) t = 2 * mcount (b + 1) n t := by
  rw [mcount_succ]
  have : ∀ x v, t.eval (vval b (x :: v)) = t.eval (vval (b + 1) v) := fun x v => h.cg _ _ fun w hw => vval_tail b x v w hw
  simp only [this]
  show mcount (b + 1) n t + mcount (b + 1) n t = _
  omega

theorem mcount_node {nv b n : Nat} {lo hi : BT} (hl : BT.Ord nv (b + 1) lo) (hh : BT.Ord nv (b + 1) hi) : mcount b (n + 1) (.node b lo hi) = mcount (b + 1) n lo + mcount (b + 1) n hi := by
  rw [mcount_succ]
  have h0 : ∀ v, (BT.node b lo hi).eval (vval b (false :: v)) = lo.eval (vval (b + 1) v) := fun v => by
    simp only [BT.eval, vval_head]; exact hl.cg _ _ fun w hw => vval_tail b false v w hw
  have h1 : ∀ v, (BT.node b lo hi).eval (vval b (true :: v)) = hi.eval (vval (b + 1) v) := fun v => by
    simp only [BT.eval, vval_head]; exact hh.cg _ _ fun w hw => vval_tail b true v w hw
  simp only [h0, h1]
  rfl

theorem mcount_level {nv : Nat} : ∀ (d b n : Nat) (t : BT), BT.Ord nv (b + d) t → mcount b (d + n) t = 2 ^ d * mcount (b + d) n t
  | 0, b, n, t, _ => by simp
  | d + 1, b, n, t, h => by
    have e : d + 1 + n = (d + n) + 1 := by omega
    rw [e, mcount_skip (nv := nv) (h.mono (by omega)), mcount_level d (b + 1) n t (by rw [show b + 1 + d = b + (d + 1) by omega]; exact h)]
    rw [show b + 1 + d = b + (d + 1) by omega, Nat.pow_succ]
    rw [Nat.mul_comm (2 ^ d) 2, Nat.mul_assoc]

theorem level_le {nv b : Nat} {t : BT} (h : BT.Ord nv b t) (hb : b ≤ nv) : b ≤ t.level nv ∧ t.level nv ≤ nv := by
  cases t with
  | leaf x => exact ⟨hb, Nat.le_refl _⟩
  | node v lo hi => obtain ⟨a, c, _⟩ := h; exact ⟨a, by show v ≤ nv; omega⟩

theorem ord_level {nv b : Nat} {t : BT} (h : BT.Ord nv b t) : BT.Ord nv (t.level nv) t := by
  cases t with
  | leaf x => trivial
  | node v lo hi => obtain ⟨_, c, d, e⟩ := h; exact ⟨Nat.le_refl _, c, d, e⟩

theorem mcount_satc {nv : Nat} : ∀ (t : BT) (b : Nat), BT.Ord nv b t → b ≤ nv → mcount (t.level nv) (nv - t.level nv) t = t.satc nv
  | .leaf x, b, _, _ => by
    show mcount nv (nv - nv) (.leaf x) = _
    rw [Nat.sub_self]
    cases x <;> simp [mcount, vecs, BT.eval, BT.satc]
  | .node v lo hi, b, h, hb => by
    obtain ⟨h1, h2, h3, h4⟩ := h
    have e : nv - v = (nv - v - 1) + 1 := by omega
    show mcount v (nv - v) _ = _
    rw [e, mcount_node h3 h4]
    have sub : ∀ (u : BT), BT.Ord nv (v + 1) u → mcount (v + 1) (nv - v - 1) u = 2 ^ (u.level nv - v - 1) * mcount (u.level nv) (nv - u.level nv) u := fun u hu => by
      obtain ⟨a, c⟩ := level_le hu (by omega)
      have := mcount_level (nv := nv) (u.level nv - v - 1) (v + 1) (nv - u.level nv) u (by rw [show v + 1 + (u.level nv - v - 1) = u.level nv by omega]; exact ord_level hu)
      rw [show u.level nv - v - 1 + (nv - u.level nv) = nv - v - 1 by omega, show v + 1 + (u.level nv - v - 1) = u.level nv by omega] at this
      exact this
    rw [sub lo h3, sub hi h4, mcount_satc lo (v + 1) h3 (by omega), mcount_satc hi (v + 1) h4 (by omega)]
    simp only [BT.satc]

/-- The count of models over all levels. -/
theorem mcount_total {nv : Nat} {t : BT} (h : BT.Ord nv 0 t) : t.satc nv * 2 ^ t.level nv = mcount 0 nv t := by
  obtain ⟨_, c⟩ := level_le h (Nat.zero_le _)
  have := mcount_level (nv := nv) (t.level nv) 0 (nv - t.level nv) t (by rw [Nat.zero_add]; exact ord_level h)
  rw [show t.level nv + (nv - t.level nv) = nv by omega, Nat.zero_add, mcount_satc t 0 h (Nat.zero_le _)] at this
  rw [this, Nat.mul_comm]

theorem satCount_ok {k : Kernel V} (hk : KInv k) {r : Nat} {t : BT} (hd : Den k r t) (ho : BT.Ord k.varnum 0 t) : ∃ k', k.satCount r = some (mcount 0 k.varnum t, k') ∧ KInv k' ∧ MiscEq k k' := by
  obtain ⟨k', e, h1, h2⟩ := satCountRec_ok (k.varnum + 1) k r t hk hd (by have := ho.depth_le (Nat.zero_le _); omega)
  refine ⟨k', ?_, h1, h2⟩
  unfold Kernel.satCount
  rw [e, Option.map_some, hk.level hd, mcount_total ho]

theorem pathCount_ok {k : Kernel V} (hk : KInv k) {r : Nat} {t : BT} (b : Bool) (hd : Den k r t) (ho : BT.Ord k.varnum 0 t) : ∃ k', k.pathCount b r = some (t.pathc b, k') ∧ KInv k' ∧ MiscEq k k' :=
  pathCountRec_ok b (k.varnum + 1) k r t hk hd (by have := ho.depth_le (Nat.zero_le _); omega)

/-! ### Paths -/

open Kernel (Prof)

theorem fillGap_eq (l : Nat) : ∀ (v : Nat) (p : Prof) (w : Nat), Kernel.fillGap l v p w = if l < w ∧ w ≤ v then none else p w
  | 0, p, w => by
    unfold Kernel.fillGap
    split
    · omega
    · rfl
  | v + 1, p, w => by
    unfold Kernel.fillGap
    split
    · rename_i h
      rw [fillGap_eq l v]
      by_cases h1 : w = v + 1
      · subst h1; rw [if_neg (by omega), upd_same, if_pos (by omega)]
      · rw [upd_ne h1]
        by_cases h2 : l < w ∧ w ≤ v
        · rw [if_pos h2, if_pos (by omega)]
        · rw [if_neg h2, if_neg (by omega)]
    · rw [if_neg (by omega)]

theorem initProf_eq (k : Kernel V) (r w : Nat) : k.initProf r w = if w < k.level r then none else some false := by
  unfold Kernel.initProf
  have : ∀ (l : List Nat), l.foldr (fun v (p : Prof) => upd p v none) (fun _ => some false) w = if w ∈ l then none else some false := by
    intro l
    induction l with
    | nil => simp
    | cons a l ih =>
      rw [List.foldr_cons]
      by_cases h : w = a
      · subst h; simp
      · rw [upd_ne h, ih]; simp [h]
  rw [this]
  simp

/-- A profile admits a valuation on the levels from `b` to `nv`. -/
def Mt (b nv : Nat) (ρ : Nat → Bool) (q : Prof) : Bool := (List.range' b (nv - b)).all fun w => (q w).all (· == ρ w)

theorem mt_iff {b nv : Nat} {ρ : Nat → Bool} {q : Prof} : Mt b nv ρ q = true ↔ ∀ w x, b ≤ w → w < nv → q w = some x → x = ρ w := by
  unfold Mt
  rw [List.all_eq_true]
  constructor
  · intro h w x h1 h2 h3
    have := h w (by rw [List.mem_range'_1]; omega)
    rw [h3] at this
    simpa using this
  · intro h w hw
    rw [List.mem_range'_1] at hw
    cases hq : q w with
    | none => rfl
    | some x => simp [h w x (by omega) (by omega) hq]

/-- The paths found below a node. -/
structure PathsOk (tb : Bool) (nv : Nat) (t : BT) (p : Prof) (L : List Prof) : Prop where
  low : ∀ q ∈ L, ∀ w, w < t.level nv → q w = p w
  one : ∀ ρ, L.countP (Mt (t.level nv) nv ρ) = if t.eval ρ = tb then 1 else 0
  len : L.length = t.pathc tb
  gap : ∀ m, BT.Ord m (t.level nv) t → ∀ q ∈ L, ∀ w, t.level nv ≤ w → m ≤ w → w < nv → q w = none

theorem paths_child {tb x : Bool} {nv v : Nat} {u : BT} (hu : BT.Ord nv (v + 1) u) (hv : v < nv) {p : Prof} {L : List Prof} (h : PathsOk tb nv u (Kernel.fillGap v (u.level nv - 1) (upd p v (some x))) L) :
    (∀ q ∈ L, ∀ w, w < v → q w = p w) ∧ (∀ ρ, L.countP (Mt v nv ρ) = if ρ v = x ∧ u.eval ρ = tb then 1 else 0) ∧ (∀ m, v < m → BT.Ord m (v + 1) u → ∀ q ∈ L, ∀ w, v ≤ w → m ≤ w → w < nv → q w = none) := by
  obtain ⟨l1, l2⟩ := level_le hu (by omega)
  have hq : ∀ q ∈ L, q v = some x ∧ ∀ w, v < w → w < u.level nv → q w = none := fun q hq => by
    refine ⟨?_, fun w h1 h2 => ?_⟩
    · rw [h.low q hq v (by omega), fillGap_eq, if_neg (by omega), upd_same]
    · rw [h.low q hq w h2, fillGap_eq, if_pos (by omega)]
  refine ⟨fun q hm w hw => ?_, fun ρ => ?_, fun m hvm ho q hm w h1 h2 h3 => ?_⟩
  · rw [h.low q hm w (by omega), fillGap_eq, if_neg (by omega), upd_ne (by omega)]
  · have key : ∀ q ∈ L, Mt v nv ρ q = (decide (ρ v = x) && Mt (u.level nv) nv ρ q) := fun q hm => by
      obtain ⟨a, b⟩ := hq q hm
      rw [Bool.eq_iff_iff, Bool.and_eq_true, mt_iff, mt_iff, decide_eq_true_iff]
      constructor
      · intro g
        exact ⟨(g v x (Nat.le_refl _) hv a).symm, fun w y g1 g2 g3 => g w y (by omega) g2 g3⟩
      · rintro ⟨g0, g⟩ w y g1 g2 g3
        by_cases e : w = v
        · subst e; rw [a] at g3; cases g3; exact g0.symm
        · rcases Nat.lt_or_ge w (u.level nv) with e1 | e1
          · rw [b w (by omega) e1] at g3; cases g3
          · exact g w y e1 g2 g3
    rw [List.countP_congr (p := Mt v nv ρ) (q := fun q => decide (ρ v = x) && Mt (u.level nv) nv ρ q) (fun q hm => by rw [key q hm])]
    by_cases e : ρ v = x
    · have : (fun q => decide (ρ v = x) && Mt (u.level nv) nv ρ q) = Mt (u.level nv) nv ρ := by funext q; simp [e]
      rw [this, h.one]
      simp [e]
    · rw [if_neg (by tauto)]
      simp [e]
  · by_cases e : w = v
    · omega
    · rcases Nat.lt_or_ge w (u.level nv) with e1 | e1
      · exact (hq q hm).2 w (by omega) e1
      · refine h.gap m ?_ q hm w e1 h2 h3
        cases u with
        | leaf y => trivial
        | node z a b => obtain ⟨_, c, d, f⟩ := ho; exact ⟨Nat.le_refl _, c, d, f⟩

theorem leafPaths {k : Kernel V} {tb : Bool} {n : Nat} {t : BT} (hd : Den k n t) (h : n = 1 - tb.toNat) (ρ : Nat → Bool) : ¬ t.eval ρ = tb ∧ t.pathc tb = 0 := by
  cases hd with
  | zero => cases tb <;> simp [BT.eval, BT.pathc] at h ⊢
  | one => cases tb <;> simp [BT.eval, BT.pathc] at h ⊢
  | node h2 => cases tb <;> simp at h <;> omega

theorem allPathsRec_ok (tb : Bool) {k : Kernel V} (hk : KInv k) : ∀ (f r b : Nat) (t : BT) (ms : List Prof) (p : Prof), Den k r t → BT.Ord k.varnum b t → b ≤ k.varnum → t.depth < f →
    ∃ L p', Kernel.allPathsRec tb.toNat k f r ms p = some (ms ++ L, p') ∧ (∀ w, w < t.level k.varnum → p' w = p w) ∧ PathsOk tb k.varnum t p L := by
  intro f
  induction f with
  | zero => intro r b t ms p _ _ _ h; omega
  | succ f ih =>
    intro r b t ms p hd ho hb hf
    unfold Kernel.allPathsRec
    have mtop : ∀ ρ q, Mt k.varnum k.varnum ρ q = true := fun ρ q => by rw [mt_iff]; intro w x h1 h2; omega
    -- a leaf
    have leafc : ∀ x : Bool, r = x.toNat → t = .leaf x → ∃ L p', (if r = tb.toNat then some (ms ++ [p], p) else if r = 1 - tb.toNat then some (ms, p) else (k.low r).bind fun lo =>
      (if lo ≠ 1 - tb.toNat then Kernel.allPathsRec tb.toNat k f lo ms (Kernel.fillGap (k.level r) (k.level lo - 1) (upd p (k.level r) (some false))) else some (ms, p)).bind fun x =>
      if k.high r ≠ 1 - tb.toNat then Kernel.allPathsRec tb.toNat k f (k.high r) x.1 (Kernel.fillGap (k.level r) (k.level (k.high r) - 1) (upd x.2 (k.level r) (some true))) else some x) = some (ms ++ L, p') ∧
        (∀ w, w < t.level k.varnum → p' w = p w) ∧ PathsOk tb k.varnum t p L := by
      rintro x rfl rfl
      by_cases hx : x = tb
      · subst hx
        rw [if_pos rfl]
        refine ⟨[p], p, rfl, fun _ _ => rfl, ⟨by simp, fun ρ => ?_, by simp [BT.pathc], fun m _ q _ w h1 _ h3 => ?_⟩⟩
        · show List.countP (Mt k.varnum k.varnum ρ) [p] = _
          simp [mtop, BT.eval]
        · have h1 : k.varnum ≤ w := h1
          omega
      · have h1 : x.toNat = 1 - tb.toNat := by cases x <;> cases tb <;> simp at hx ⊢
        have h0 : x.toNat ≠ tb.toNat := by cases x <;> cases tb <;> simp at hx ⊢
        rw [if_neg h0, if_pos h1]
        exact ⟨[], p, by simp, fun _ _ => rfl, ⟨by simp, fun ρ => by simp [BT.eval, hx], by simp [BT.pathc, hx], by simp⟩⟩
    cases hd with
    | zero => exact leafc false rfl rfl
    | one => exact leafc true rfl rfl
    | @node _ lo tl th h2 hl dl dh =>
    clear leafc
    obtain ⟨ob, ov', ol, oh⟩ := ho
    have t1 : tb.toNat ≤ 1 := by cases tb <;> simp
    rw [if_neg (by omega), if_neg (by omega)]
    simp only [BT.depth] at hf
    rw [hl, Option.bind_some]
    simp only [hk.level dl, hk.level dh]
    -- the low branch
    have low : ∃ L1 p1, (if lo ≠ 1 - tb.toNat then Kernel.allPathsRec tb.toNat k f lo ms (Kernel.fillGap (k.level r) (tl.level k.varnum - 1) (upd p (k.level r) (some false))) else some (ms, p)) = some (ms ++ L1, p1) ∧
        (∀ w, w < k.level r → p1 w = p w) ∧ ((∀ q ∈ L1, ∀ w, w < k.level r → q w = p w) ∧ (∀ ρ, L1.countP (Mt (k.level r) k.varnum ρ) = if ρ (k.level r) = false ∧ tl.eval ρ = tb then 1 else 0) ∧
          (∀ m, k.level r < m → BT.Ord m (k.level r + 1) tl → ∀ q ∈ L1, ∀ w, k.level r ≤ w → m ≤ w → w < k.varnum → q w = none)) ∧ L1.length = tl.pathc tb := by
      by_cases hz : lo ≠ 1 - tb.toNat
      · rw [if_pos hz]
        obtain ⟨L1, p1, e1, a1, P1⟩ := ih lo (k.level r + 1) tl ms (Kernel.fillGap (k.level r) (tl.level k.varnum - 1) (upd p (k.level r) (some false))) dl ol (by omega) (by omega)
        refine ⟨L1, p1, e1, fun w hw => ?_, paths_child ol ov' P1, P1.len⟩
        have := (level_le ol (by omega)).1
        rw [a1 w (by omega), fillGap_eq, if_neg (by omega), upd_ne (by omega)]
      · rw [if_neg hz]
        have hz : lo = 1 - tb.toNat := by omega
        refine ⟨[], p, by simp, fun _ _ => rfl, ⟨by simp, fun ρ => ?_, by simp⟩, by rw [(leafPaths dl hz fun _ => false).2]; rfl⟩
        have := (leafPaths dl hz ρ).1
        simp [this]
    obtain ⟨L1, p1, e1, a1, ⟨b1, c1, g1⟩, n1⟩ := low
    rw [e1, Option.bind_some]
    simp only
    have high : ∃ L2 p2, (if k.high r ≠ 1 - tb.toNat then Kernel.allPathsRec tb.toNat k f (k.high r) (ms ++ L1) (Kernel.fillGap (k.level r) (th.level k.varnum - 1) (upd p1 (k.level r) (some true))) else some (ms ++ L1, p1)) = some (ms ++ L1 ++ L2, p2) ∧
        (∀ w, w < k.level r → p2 w = p1 w) ∧ ((∀ q ∈ L2, ∀ w, w < k.level r → q w = p1 w) ∧ (∀ ρ, L2.countP (Mt (k.level r) k.varnum ρ) = if ρ (k.level r) = true ∧ th.eval ρ = tb then 1 else 0) ∧
          (∀ m, k.level r < m → BT.Ord m (k.level r + 1) th → ∀ q ∈ L2, ∀ w, k.level r ≤ w → m ≤ w → w < k.varnum → q w = none)) ∧ L2.length = th.pathc tb := by
      by_cases hz : k.high r ≠ 1 - tb.toNat
      · rw [if_pos hz]
        obtain ⟨L2, p2, e2, a2, P2⟩ := ih (k.high r) (k.level r + 1) th (ms ++ L1) (Kernel.fillGap (k.level r) (th.level k.varnum - 1) (upd p1 (k.level r) (some true))) dh oh (by omega) (by omega)
        refine ⟨L2, p2, e2, fun w hw => ?_, paths_child oh ov' P2, P2.len⟩
        have := (level_le oh (by omega)).1
        rw [a2 w (by omega), fillGap_eq, if_neg (by omega), upd_ne (by omega)]
      · rw [if_neg hz]
        have hz : k.high r = 1 - tb.toNat := by omega
        refine ⟨[], p1, by simp, fun _ _ => rfl, ⟨by simp, fun ρ => ?_, by simp⟩, by rw [(leafPaths dh hz fun _ => false).2]; rfl⟩
        have := (leafPaths dh hz ρ).1
        simp [this]
    obtain ⟨L2, p2, e2, a2, ⟨b2, c2, g2⟩, n2⟩ := high
    refine ⟨L1 ++ L2, p2, by rw [e2, List.append_assoc], fun w hw => (a2 w hw).trans (a1 w hw), ⟨fun q hq w hw => ?_, fun ρ => ?_, ?_, fun m ho q hq w h1 h3 h4 => ?_⟩⟩
    · rcases List.mem_append.1 hq with hq | hq
      · exact b1 q hq w hw
      · exact (b2 q hq w hw).trans (a1 w hw)
    · show List.countP (Mt (k.level r) k.varnum ρ) (L1 ++ L2) = _
      rw [List.countP_append, c1, c2]
      simp only [BT.eval]
      rcases Bool.eq_false_or_eq_true (ρ (k.level r)) with hρ | hρ <;> simp [hρ]
    · rw [List.length_append, n1, n2]; rfl
    · obtain ⟨_, i1, i2, i3⟩ := ho
      rcases List.mem_append.1 hq with hq | hq
      · exact g1 m i1 i2 q hq w h1 h3 h4
      · exact g2 m i1 i3 q hq w h1 h3 h4

/-- `all_sat` and `all_unsat` list every admissible valuation in exactly one profile. -/
theorem allPaths_ok (tb : Bool) {k : Kernel V} (hk : KInv k) {r : Nat} {t : BT} (hd : Den k r t) (ho : BT.Ord k.varnum 0 t) :
    ∃ L, k.allPaths tb.toNat r = some (L, k.initRef) ∧ (∀ ρ, L.countP (Mt 0 k.varnum ρ) = if t.eval ρ = tb then 1 else 0) ∧ L.length = t.pathc tb ∧ ∀ m, BT.Ord m 0 t → ∀ q ∈ L, ∀ w, m ≤ w → w < k.varnum → q w = none := by
  obtain ⟨L, p', e, _, P⟩ := allPathsRec_ok tb hk (k.varnum + 1) r 0 t [] (k.initProf r) hd ho (Nat.zero_le _) (by have := ho.depth_le (Nat.zero_le _); omega)
  have hlow : ∀ q ∈ L, ∀ w, w < t.level k.varnum → q w = none := fun q hq w hw => by
    rw [P.low q hq w hw, initProf_eq, hk.level hd, if_pos hw]
  refine ⟨L, by unfold Kernel.allPaths; rw [e]; simp, fun ρ => ?_, P.len, fun m hm q hq w h1 h2 => ?_⟩
  · rw [← P.one ρ]
    refine List.countP_congr fun q hq => ?_
    rw [mt_iff, mt_iff]
    constructor
    · intro g w x h1 h2 h3; exact g w x (Nat.zero_le _) h2 h3
    · intro g w x _ h2 h3
      rcases Nat.lt_or_ge w (t.level k.varnum) with h | h
      · rw [hlow q hq w h] at h3; cases h3
      · exact g w x h h2 h3
  · rcases Nat.lt_or_ge w (t.level k.varnum) with h | h
    · exact hlow q hq w h
    · refine P.gap m ?_ q hq w h h1 h2
      cases t with
      | leaf y => trivial
      | node z a b => obtain ⟨_, c, d, f⟩ := hm; exact ⟨Nat.le_refl _, c, d, f⟩

end Bdd
end Verif
