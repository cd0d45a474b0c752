import Verif.Bdd.Support
/-
Numbers of nodes (bdd_kernel.rs 226-258, bdd_operations.rs 75-79, 110-115,
302-313, bdd_main.rs 89-91, 119-126).
-/
namespace Verif
namespace Bdd
open ER

variable {V : Type}

namespace Kernel

/-- `mark_count`, bdd_kernel.rs 250-259; the mark bits are the function `m`. -/
def markCount (k : Kernel V) : Nat → (Nat → Bool) → Nat → Option (Nat × (Nat → Bool))
  | 0, _, _ => none
  | f + 1, m, i =>
    if i < 2 then some (0, m)
    else if m i then some (0, m)
    else match k.low i with
      | none => some (0, m)
      | some l => (markCount k f (upd m i true) l).bind fun a => (markCount k f a.2 (k.high i)).map fun b => (1 + a.1 + b.1, b.2)

/-- `unmark`, bdd_kernel.rs 226-236. -/
def unmark (k : Kernel V) : Nat → (Nat → Bool) → Nat → Option (Nat → Bool)
  | 0, _, _ => none
  | f + 1, m, i =>
    if i < 2 then some m
    else if !m i then some m
    else match k.low i with
      | none => some m
      | some l => (unmark k f (upd m i false) l).bind fun a => unmark k f a (k.high i)

/-- `node_count`, bdd_operations.rs 75-79: the count and the mark bits left behind. -/
def nodeCount (r : Nat) (k : Kernel V) : Option (Nat × (Nat → Bool)) :=
  (markCount k (k.size + 1) (fun _ => false) r).bind fun p => (unmark k (k.size + 1) p.2 r).map fun m => (p.1, m)

/-- `var_profile_rec`, bdd_operations.rs 302-313; the vector of counts is a
function, `low(r).unwrap()` and an index beyond the vector panic. -/
def profRec (k : Kernel V) : Nat → (Nat → Bool) × (Nat → Nat) → Nat → Option ((Nat → Bool) × (Nat → Nat))
  | 0, _, _ => none
  | f + 1, (m, p), r =>
    if r < 2 then some (m, p)
    else if m r then some (m, p)
    else if k.level r < k.varnum then
      (k.low r).bind fun l => (profRec k f (upd m r true, upd p (k.level r) (p (k.level r) + 1)) l).bind fun a => profRec k f a (k.high r)
    else none

/-- `var_profile`, bdd_operations.rs 110-115: the counts and the mark bits left behind. -/
def profile (r : Nat) (k : Kernel V) : Option ((Nat → Nat) × (Nat → Bool)) :=
  (profRec k (k.size + 1) (fun _ => false, fun _ => 0) r).bind fun p => (unmark k (k.size + 1) p.1 r).map fun m => (p.2, m)

end Kernel

/-- `Bdd::variable_profile`, bdd_main.rs 119-126; the map as a list in the order
of the indices; an index without a variable panics. -/
def variableProfile (r : Nat) (k : Kernel Var) : Option (List (Var × Nat) × (Nat → Bool)) :=
  (k.profile r).bind fun p => ((List.range k.varnum).mapM fun i => (k.idx[i]?).map fun v => (v, p.1 i)).map fun L => (L, p.2)

/-! ### The traversals -/

theorem mark_mono {k : Kernel V} : ∀ (f : Nat) (m : Nat → Bool) (r : Nat) (m' : Nat → Bool), k.mark f m r = some m' → ∀ x, m x = true → m' x = true := by
  intro f
  induction f with
  | zero => intro m r m' h; simp [Kernel.mark] at h
  | succ f ih =>
    intro m r m' h x hx
    unfold Kernel.mark at h
    by_cases h2 : r < 2
    · rw [if_pos h2] at h; cases h; exact hx
    rw [if_neg h2] at h
    by_cases hm : m r = true
    · rw [if_pos hm] at h; cases h; exact hx
    rw [if_neg hm] at h
    cases hl : k.low r with
    | none => rw [hl] at h; cases h; exact hx
    | some l =>
      rw [hl] at h
      simp only [Option.bind_eq_bind] at h
      obtain ⟨m1, h1, h3⟩ := Option.bind_eq_some_iff.1 h
      refine ih _ _ _ h3 x (ih _ _ _ h1 x ?_)
      by_cases e : x = r
      · rw [e]; exact upd_same _ _ _
      · rw [upd_ne e]; exact hx

/-- What the three traversals do, in terms of the nodes newly marked. -/
theorem visit_ok {nv : Nat} {k : Kernel V} (hi : Inv nv k) (hv : nv = k.varnum) : ∀ (f : Nat) (m : Nat → Bool) (r : Nat) (t : BT) (m' : Nat → Bool), Den k r t → k.mark f m r = some m' →
    ∃ new : List Nat, new.Nodup ∧ (∀ x, x ∈ new ↔ m' x = true ∧ m x = false) ∧ k.markCount f m r = some (new.length, m') ∧
      ∀ p, k.profRec f (m, p) r = some (m', fun i => p i + new.countP fun x => k.level x == i) := by
  intro f
  induction f with
  | zero => intro m r t m' _ h; simp [Kernel.mark] at h
  | succ f ih =>
    intro m r t m' hd h
    have h0 := h
    unfold Kernel.mark at h
    unfold Kernel.markCount Kernel.profRec
    have triv : m' = m → ∃ new : List Nat, new.Nodup ∧ (∀ x, x ∈ new ↔ m' x = true ∧ m x = false) ∧ some (0, m) = some (new.length, m') ∧
        ∀ p : Nat → Nat, some (m, p) = some (m', fun i => p i + new.countP fun x => k.level x == i) := fun e => by
      subst e
      exact ⟨[], List.nodup_nil, fun x => by simp, rfl, fun p => by simp⟩
    by_cases h2 : r < 2
    · rw [if_pos h2] at h ⊢
      simp only [if_pos h2]
      cases h; exact triv rfl
    rw [if_neg h2] at h ⊢
    simp only [if_neg h2]
    by_cases hm : m r = true
    · rw [if_pos hm] at h ⊢
      simp only [if_pos hm]
      cases h; exact triv rfl
    rw [if_neg hm] at h ⊢
    simp only [if_neg hm]
    cases hd with
    | zero => omega
    | one => omega
    | @node _ l tl th _ hl dl dh =>
    have hlv := (hi.kid r l (by omega) hl).2.2.2
    rw [hl] at h ⊢
    simp only [Option.bind_eq_bind] at h
    obtain ⟨m1, h1, h3⟩ := Option.bind_eq_some_iff.1 h
    obtain ⟨n1, d1, x1, c1, p1⟩ := ih _ _ _ _ dl h1
    obtain ⟨n2, d2, x2, c2, p2⟩ := ih _ _ _ _ dh h3
    have mo1 := mark_mono _ _ _ _ h1
    have mo2 := mark_mono _ _ _ _ h3
    have mr : m1 r = true := mo1 r (upd_same _ _ _)
    have hm' : m r = false := by simpa using hm
    refine ⟨r :: (n1 ++ n2), ?_, fun x => ?_, ?_, fun p => ?_⟩
    · refine List.nodup_cons.2 ⟨fun hr => ?_, List.nodup_append.2 ⟨d1, d2, fun a ha b hb e => ?_⟩⟩
      · rcases List.mem_append.1 hr with hr | hr
        · have := ((x1 r).1 hr).2; rw [upd_same] at this; cases this
        · have := ((x2 r).1 hr).2; rw [mr] at this; cases this
      · have a1 := ((x1 a).1 ha).1
        have b1 := ((x2 b).1 hb).2
        rw [← e, a1] at b1; cases b1
    · simp only [List.mem_cons, List.mem_append, x1, x2]
      by_cases e : x = r
      · subst e; simp [hm', mo2 x mr]
      · rw [upd_ne e]
        constructor
        · rintro (h | ⟨a, b⟩ | ⟨a, b⟩)
          · exact absurd h e
          · exact ⟨mo2 x a, b⟩
          · refine ⟨a, ?_⟩
            by_contra hc
            have := mo1 x (by rw [upd_ne e]; simpa using hc)
            rw [this] at b; cases b
        · rintro ⟨a, b⟩
          cases hx : m1 x with
          | true => exact .inr (.inl ⟨rfl, b⟩)
          | false => exact .inr (.inr ⟨a, rfl⟩)
    · simp only [c1, Option.bind_some, c2, Option.map_some, List.length_cons, List.length_append]
      congr 2; omega
    · rw [if_pos (by omega)]
      simp only [Option.bind_some, p1, p2]
      congr 2
      funext i
      rw [List.countP_cons, List.countP_append]
      by_cases e : i = k.level r
      · subst e; rw [upd_same]; simp; omega
      · rw [upd_ne e]
        have : ¬ k.level r = i := fun h => e h.symm
        simp [this]; omega

theorem unmark_eq {k : Kernel V} : ∀ (f : Nat) (m : Nat → Bool) (r : Nat), k.unmark f m r = (k.mark f (fun x => !m x) r).map fun a x => !a x := by
  intro f
  induction f with
  | zero => intro m r; rfl
  | succ f ih =>
    intro m r
    unfold Kernel.unmark Kernel.mark
    have nn : (fun x => !(fun x => !m x) x) = m := funext fun x => by simp
    by_cases h2 : r < 2
    · rw [if_pos h2, if_pos h2, Option.map_some, nn]
    rw [if_neg h2, if_neg h2]
    by_cases hm : (!m r) = true
    · rw [if_pos hm, if_pos hm, Option.map_some, nn]
    rw [if_neg hm, if_neg hm]
    cases hl : k.low r with
    | none => simp only [Option.map_some]; rw [nn]
    | some l =>
      simp only [Option.bind_eq_bind]
      have hu : (fun x => !upd m r false x) = upd (fun x => !m x) r true := funext fun x => by
        by_cases e : x = r
        · subst e; rw [upd_same, upd_same]; rfl
        · rw [upd_ne e, upd_ne e]
      rw [ih, hu]
      cases k.mark f (upd (fun x => !m x) r true) l with
      | none => rfl
      | some a =>
        simp only [Option.map_some, Option.bind_some]
        rw [ih]
        congr 2
        funext x; simp

/-! ### Sub-trees -/

/-- The inner nodes of a tree. -/
def BT.subs : BT → List BT
  | .leaf _ => []
  | .node v lo hi => .node v lo hi :: (lo.subs ++ hi.subs)

theorem subs_trans : ∀ {t u w : BT}, u ∈ t.subs → w ∈ u.subs → w ∈ t.subs
  | .leaf _, u, w, h, _ => by simp [BT.subs] at h
  | .node v lo hi, u, w, h, hw => by
    simp only [BT.subs, List.mem_cons, List.mem_append] at h
    rcases h with rfl | h | h
    · exact hw
    · simp only [BT.subs, List.mem_cons, List.mem_append]; exact .inr (.inl (subs_trans h hw))
    · simp only [BT.subs, List.mem_cons, List.mem_append]; exact .inr (.inr (subs_trans h hw))

theorem subs_node : ∀ {t u : BT}, u ∈ t.subs → ∃ v lo hi, u = .node v lo hi
  | .leaf _, u, h => by simp [BT.subs] at h
  | .node v lo hi, u, h => by
    simp only [BT.subs, List.mem_cons, List.mem_append] at h
    rcases h with rfl | h | h
    · exact ⟨_, _, _, rfl⟩
    · exact subs_node h
    · exact subs_node h

theorem subs_ord {nv : Nat} : ∀ {t u : BT} {b : Nat}, BT.Ord nv b t → t.Red → u ∈ t.subs → u.Red ∧ b ≤ u.level nv ∧ BT.Ord nv (u.level nv) u
  | .leaf _, u, b, _, _, h => by simp [BT.subs] at h
  | .node v lo hi, u, b, ho, hr, h => by
    simp only [BT.subs, List.mem_cons, List.mem_append] at h
    obtain ⟨o1, o2, o3, o4⟩ := ho
    rcases h with rfl | h | h
    · exact ⟨hr, o1, Nat.le_refl _, o2, o3, o4⟩
    · obtain ⟨a, b', c⟩ := subs_ord o3 hr.2.1 h; exact ⟨a, by omega, c⟩
    · obtain ⟨a, b', c⟩ := subs_ord o4 hr.2.2 h; exact ⟨a, by omega, c⟩

/-- Values below `i` from the first function, the others from the second. -/
def mix (i : Nat) (ρ₀ ρ : Nat → Bool) : Nat → Bool := fun j => if j < i then ρ₀ j else ρ j

theorem cofactor {nv : Nat} (i : Nat) (ρ₀ : Nat → Bool) : ∀ (t : BT) (b : Nat), BT.Ord nv b t → t.Red →
    ∃ u, BT.Ord nv i u ∧ u.Red ∧ ((∃ x, u = .leaf x) ∨ u ∈ t.subs) ∧ ∀ ρ, t.eval (mix i ρ₀ ρ) = u.eval ρ
  | .leaf x, b, _, _ => ⟨.leaf x, trivial, trivial, .inl ⟨x, rfl⟩, fun _ => rfl⟩
  | .node v lo hi, b, ho, hr => by
    obtain ⟨o1, o2, o3, o4⟩ := ho
    by_cases h : v < i
    · have hv : ∀ ρ, mix i ρ₀ ρ v = ρ₀ v := fun ρ => by simp [mix, h]
      cases hb : ρ₀ v with
      | true =>
        obtain ⟨u, a, b', c, d⟩ := cofactor i ρ₀ hi (v + 1) o4 hr.2.2
        exact ⟨u, a, b', c.imp id fun h => by simp [BT.subs, h], fun ρ => by rw [BT.eval, hv, hb, if_pos rfl, d]⟩
      | false =>
        obtain ⟨u, a, b', c, d⟩ := cofactor i ρ₀ lo (v + 1) o3 hr.2.1
        exact ⟨u, a, b', c.imp id fun h => by simp [BT.subs, h], fun ρ => by rw [BT.eval, hv, hb, if_neg (by simp), d]⟩
    · have o : BT.Ord nv i (.node v lo hi) := ⟨by omega, o2, o3, o4⟩
      exact ⟨_, o, hr, .inr (by simp [BT.subs]), fun ρ => BT.eval_congr o fun w hw _ => by simp only [mix]; rw [if_neg (by omega)]⟩

theorem sub_reached {nv : Nat} : ∀ {t u : BT} {b : Nat}, BT.Ord nv b t → t.Red → u ∈ t.subs → ∃ ρ₀, ∀ ρ, t.eval (mix (u.level nv) ρ₀ ρ) = u.eval ρ
  | .leaf x, u, b, _, _, h => by simp [BT.subs] at h
  | .node v lo hi, u, b, ho, hr, h => by
    have ho' := ho
    obtain ⟨o1, o2, o3, o4⟩ := ho
    simp only [BT.subs, List.mem_cons, List.mem_append] at h
    rcases h with rfl | h | h
    · refine ⟨fun _ => false, fun ρ => ?_⟩
      have o : BT.Ord nv v (.node v lo hi) := ⟨Nat.le_refl _, o2, o3, o4⟩
      exact BT.eval_congr o fun w hw _ => by show (if w < v then false else ρ w) = ρ w; rw [if_neg (by omega)]
    · obtain ⟨ρ₀, e⟩ := sub_reached o3 hr.2.1 h
      have hlt := (subs_ord o3 hr.2.1 h).2.1
      refine ⟨BT.set ρ₀ v false, fun ρ => ?_⟩
      have hv : mix (u.level nv) (BT.set ρ₀ v false) ρ v = false := by simp only [mix, BT.set]; rw [if_pos (by omega)]; simp
      rw [BT.eval, hv, if_neg (by simp), ← e ρ]
      exact BT.eval_congr o3 fun w hw _ => by simp only [mix, BT.set]; rw [if_neg (show ¬ w = v by omega)]
    · obtain ⟨ρ₀, e⟩ := sub_reached o4 hr.2.2 h
      have hlt := (subs_ord o4 hr.2.2 h).2.1
      refine ⟨BT.set ρ₀ v true, fun ρ => ?_⟩
      have hv : mix (u.level nv) (BT.set ρ₀ v true) ρ v = true := by simp only [mix, BT.set]; rw [if_pos (by omega)]; simp
      rw [BT.eval, hv, if_pos rfl, ← e ρ]
      exact BT.eval_congr o4 fun w hw _ => by simp only [mix, BT.set]; rw [if_neg (show ¬ w = v by omega)]

theorem levels_ge {nv : Nat} : ∀ {u : BT} {b : Nat}, BT.Ord nv b u → ∀ i ∈ u.levels, b ≤ i
  | .leaf _, _, _, i, h => by simp [BT.levels] at h
  | .node v lo hi, b, ⟨o1, _, o3, o4⟩, i, h => by
    simp only [BT.levels, List.mem_cons, List.mem_append] at h
    rcases h with rfl | h | h
    · exact o1
    · have := levels_ge o3 i h; omega
    · have := levels_ge o4 i h; omega

/-- The first level an ordered tree can depend on is that of its root. -/
theorem dep_root {nv i : Nat} {u : BT} (ho : BT.Ord nv i u) (hr : u.Red) : (∃ ρ, u.eval (BT.set ρ i true) ≠ u.eval (BT.set ρ i false)) ↔ ∃ lo hi, u = .node i lo hi := by
  rw [← levels_iff u i ho hr i]
  cases u with
  | leaf x => simp [BT.levels]
  | node v lo hi =>
    simp only [BT.levels, List.mem_cons, List.mem_append]
    constructor
    · rintro (h | h | h)
      · subst h; exact ⟨_, _, rfl⟩
      · have := levels_ge ho.2.2.1 i h; have := ho.1; omega
      · have := levels_ge ho.2.2.2 i h; have := ho.1; omega
    · rintro ⟨_, _, h⟩; cases h; exact .inl rfl

/-- The sub-trees at level `i` are the functions left when the levels below `i`
are fixed and level `i` matters. -/
theorem subs_fn {nv : Nat} {t : BT} (ho : BT.Ord nv 0 t) (hr : t.Red) (i : Nat) (G : (Nat → Bool) → Bool) :
    ((∃ ρ₀, ∀ ρ, t.eval (mix i ρ₀ ρ) = G ρ) ∧ ∃ ρ, G (BT.set ρ i true) ≠ G (BT.set ρ i false)) ↔ ∃ u ∈ t.subs, u.level nv = i ∧ ∀ ρ, u.eval ρ = G ρ := by
  constructor
  · rintro ⟨⟨ρ₀, e⟩, ρ, hne⟩
    obtain ⟨u, a, b, c, d⟩ := cofactor i ρ₀ t 0 ho hr
    have eu : ∀ ρ, u.eval ρ = G ρ := fun ρ => by rw [← d, e]
    obtain ⟨lo, hi, rfl⟩ := (dep_root a b).1 ⟨ρ, by rw [eu, eu]; exact hne⟩
    rcases c with ⟨x, h⟩ | c
    · cases h
    · exact ⟨_, c, rfl, eu⟩
  · rintro ⟨u, hu, hl, e⟩
    obtain ⟨ρ₀, h⟩ := sub_reached ho hr hu
    obtain ⟨a, _, c⟩ := subs_ord ho hr hu
    refine ⟨⟨ρ₀, fun ρ => by rw [← hl, h, e]⟩, ?_⟩
    rw [hl] at c
    obtain ⟨v, lo, hi, rfl⟩ := subs_node hu
    simp only [BT.level] at hl
    subst hl
    obtain ⟨ρ, h⟩ := (dep_root c a).2 ⟨_, _, rfl⟩
    exact ⟨ρ, by rw [← e, ← e]; exact h⟩

/-- The nodes counted are the inner nodes of the tree, each once; no mark is left. -/
theorem count_ok {k : Kernel V} (hk : KInv k) {r : Nat} {t : BT} (d : Den k r t) :
    ∃ new : List Nat, new.Nodup ∧ (∀ x ∈ new, ∃ u ∈ t.subs, Den k x u) ∧ (∀ u ∈ t.subs, ∃ x ∈ new, Den k x u) ∧
      k.nodeCount r = some (new.length, fun _ => false) ∧ k.profile r = some ((fun i => new.countP fun x => k.level x == i), fun _ => false) := by
  have unmb : ∀ m : Nat → Bool, unm k m < k.size + 1 := fun m => by
    unfold unm
    have := List.countP_le_length (p := fun x : Nat => !m x) (l := List.range k.size)
    rw [List.length_range] at this
    omega
  have hP : ∀ n l, 2 ≤ n → k.low n = some l → (∃ u, Den k n u ∧ (2 ≤ n → u ∈ t.subs)) → (∃ u, Den k l u ∧ (2 ≤ l → u ∈ t.subs)) ∧ ∃ u, Den k (k.high n) u ∧ (2 ≤ k.high n → u ∈ t.subs) := fun n l h2 hl hu => by
    obtain ⟨u, du, hu⟩ := hu
    have hu := hu h2
    have self : ∀ {n u}, Den k n u → 2 ≤ n → u ∈ u.subs := fun d h => by
      cases d with
      | zero => omega
      | one => omega
      | node => simp [BT.subs]
    cases du with
    | zero => omega
    | one => omega
    | @node _ l' tl th _ hl' dl dh =>
      rw [hl] at hl'; cases hl'
      exact ⟨⟨tl, dl, fun h => subs_trans hu (by simp [BT.subs, self dl h])⟩, ⟨th, dh, fun h => subs_trans hu (by simp [BT.subs, self dh h])⟩⟩
  have hPr : ∃ u, Den k r u ∧ (2 ≤ r → u ∈ t.subs) := ⟨t, d, fun h => by
    cases d with
    | zero => omega
    | one => omega
    | node => simp [BT.subs]⟩
  obtain ⟨m, e, hm, hx⟩ := mark_ok hk.toInv hP (k.size + 1) (fun _ => false) r (unmb _) (hk.den_ok d) hPr
  obtain ⟨new, nd, hnew, c1, p1⟩ := visit_ok hk.toInv rfl _ _ _ _ _ d e
  have cover : ∀ n u, Den k n u → (n < 2 ∨ m n = true) → ∀ w ∈ u.subs, ∃ x, m x = true ∧ Den k x w := fun n u du => by
    induction du with
    | zero => intro _ i hi; simp [BT.subs] at hi
    | one => intro _ i hi; simp [BT.subs] at hi
    | @node n l tl th h2 hl dl dh ih1 ih2 =>
      intro hmn w hw
      have hmn : m n = true := hmn.resolve_left (by omega)
      obtain ⟨cl, _⟩ := hm.cl n hmn rfl
      obtain ⟨c1, c2⟩ := cl l hl
      simp only [BT.subs, List.mem_cons, List.mem_append] at hw
      rcases hw with rfl | hw | hw
      · exact ⟨n, hmn, .node h2 hl dl dh⟩
      · exact ih1 c1 w hw
      · exact ih2 c2 w hw
  -- unmarking visits what was marked
  have hun : k.unmark (k.size + 1) m r = some fun _ => false := by
    rw [unmark_eq]
    obtain ⟨m2, e2, hm2, hx2⟩ := mark_ok hk.toInv (P := fun _ => True) (fun _ _ _ _ _ => ⟨trivial, trivial⟩) (k.size + 1) (fun x => !m x) r (unmb _) (hk.den_ok d) trivial
    rw [e2, Option.map_some]
    congr 1
    funext x
    have cover2 : ∀ n u, Den k n u → (n < 2 ∨ (m n = true ∧ m2 n = true)) → ∀ w ∈ u.subs, ∃ x, m2 x = true ∧ Den k x w := fun n u du => by
      induction du with
      | zero => intro _ i hi; simp [BT.subs] at hi
      | one => intro _ i hi; simp [BT.subs] at hi
      | @node n l tl th h2 hl dl dh ih1 ih2 =>
        intro hmn w hw
        obtain ⟨a, b⟩ := hmn.resolve_left (by omega)
        obtain ⟨cl, _⟩ := hm.cl n a rfl
        obtain ⟨c1, c2⟩ := cl l hl
        obtain ⟨cl', _⟩ := hm2.cl n b (by simp [a])
        obtain ⟨c1', c2'⟩ := cl' l hl
        have both : ∀ y, (y < 2 ∨ m y = true) → (y < 2 ∨ m2 y = true) → y < 2 ∨ (m y = true ∧ m2 y = true) := fun y h1 h2 => by
          rcases h1 with h | h
          · exact .inl h
          · exact h2.imp id fun h' => ⟨h, h'⟩
        simp only [BT.subs, List.mem_cons, List.mem_append] at hw
        rcases hw with rfl | hw | hw
        · exact ⟨n, b, .node h2 hl dl dh⟩
        · exact ih1 (both _ c1 c1') w hw
        · exact ih2 (both _ c2 c2') w hw
    have : m2 x = true := by
      cases hmx : m x with
      | false => exact hm2.mono x (by simp [hmx])
      | true =>
        obtain ⟨_, al, u, du, hu⟩ := hm.cl x hmx rfl
        have hr2 : r < 2 ∨ (m r = true ∧ m2 r = true) := by
          rcases hx with h | h
          · exact .inl h
          · exact hx2.imp id fun h' => ⟨h, h'⟩
        obtain ⟨y, hy, dy⟩ := cover2 r t d hr2 u (hu al.1)
        rw [hk.toInv.den_inj du dy]; exact hy
    rw [this]; rfl
  refine ⟨new, nd, fun x hx => ?_, fun u hu => ?_, ?_, ?_⟩
  · obtain ⟨h1, _⟩ := (hnew x).1 hx
    obtain ⟨_, al, u, du, hu⟩ := hm.cl x h1 rfl
    exact ⟨u, hu al.1, du⟩
  · obtain ⟨x, h1, h2⟩ := cover r t d hx u hu
    exact ⟨x, (hnew x).2 ⟨h1, rfl⟩, h2⟩
  · unfold Kernel.nodeCount
    rw [c1, Option.bind_some, hun, Option.map_some]
  · unfold Kernel.profile
    rw [p1, Option.bind_some, hun, Option.map_some]
    simp

end Bdd
end Verif
