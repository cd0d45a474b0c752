import Verif.Bdd.Model
/-
Support of a BDD (bdd_operations.rs 118-134, 315-326, bdd_main.rs 156-167).
-/
namespace Verif
namespace Bdd
open ER

variable {V : Type}

namespace Kernel

/-- bdd_operations.rs 315-326; the mark bits are the function `m`. -/
def supportRec (k : Kernel V) : Nat → (Nat → Bool) × List Nat → Nat → Option ((Nat → Bool) × List Nat)
  | 0, _, _ => none
  | f + 1, (m, acc), r =>
    if r < 2 then some (m, acc)
    else if m r then some (m, acc)
    else match k.low r with
      | none => some (m, acc)
      | some l => (supportRec k f (upd m r true, acc ++ [k.level r]) l).bind fun p => supportRec k f p (k.high r)

/-- The loop 127-132. -/
def supportLoop : List Nat → Nat → Kernel V → Option (Nat × Kernel V)
  | [], res, k => some (res, k)
  | n :: ns, res, k => (k.addRef res).bind fun k => (k.makeNode n 0 res).bind fun p => (p.2.delRef res).bind fun k => supportLoop ns p.1 k

/-- bdd_operations.rs 118-134. -/
def support (r : Nat) (k : Kernel V) : Option (Nat × Kernel V) :=
  if r < 2 ∨ k.varnum = 0 then some (0, k)
  else (supportRec k (k.size + 1) (fun _ => false, []) r).bind fun p => supportLoop p.2 1 k

end Kernel

/-- `Bdd::support`, bdd_main.rs 156-167; the set as a list. -/
def supportH (r : Nat) (k : Kernel Var) : Option (List Var × Kernel Var) :=
  (k.support r).bind fun p => (createModel p.1 p.2).bind fun o => match o with
    | none => some ([], p.2)
    | some m => if m.neg = [] then some (m.pos, p.2) else none

/-- The levels that occur in a tree. -/
def BT.levels : BT → List Nat
  | .leaf _ => []
  | .node v lo hi => v :: (lo.levels ++ hi.levels)

/-- A level occurs in an ordered reduced tree iff the function depends on it. -/
theorem levels_iff {nv : Nat} : ∀ (t : BT) (b : Nat), BT.Ord nv b t → t.Red → ∀ i, i ∈ t.levels ↔ ∃ ρ, t.eval (BT.set ρ i true) ≠ t.eval (BT.set ρ i false)
  | .leaf x, _, _, _, i => by simp [BT.levels, BT.eval]
  | .node v lo hi, b, ho, hr, i => by
    obtain ⟨r1, r2, r3⟩ := hr
    obtain ⟨o1, o2, o3, o4⟩ := ho
    have il := levels_iff lo (v + 1) o3 r2 i
    have ih := levels_iff hi (v + 1) o4 r3 i
    have ev : ∀ ρ x, (BT.node v lo hi).eval (BT.set ρ v x) = if x then hi.eval ρ else lo.eval ρ := fun ρ x => by
      have : BT.set ρ v x v = x := by simp [BT.set]
      rw [BT.eval, this, BT.eval_set_lt o4 (by omega), BT.eval_set_lt o3 (by omega)]
    simp only [BT.levels, List.mem_cons, List.mem_append, il, ih]
    constructor
    · rintro (rfl | ⟨ρ, h⟩ | ⟨ρ, h⟩)
      · by_contra hn
        refine r1 (BT.canonical nv (b := i + 1) (Nat.sub_le _ _) o3 o4 r2 r3 fun ρ => ?_)
        by_contra hne
        exact hn ⟨ρ, by rw [ev, ev]; simpa using fun h => hne h.symm⟩
      · by_cases e : i = v
        · subst e
          rw [BT.eval_set_lt o3 (by omega), BT.eval_set_lt o3 (by omega)] at h
          exact (h rfl).elim
        · refine ⟨BT.set ρ v false, ?_⟩
          have c : ∀ x, BT.set (BT.set ρ v false) i x = BT.set (BT.set ρ i x) v false := fun x => by
            funext j; simp only [BT.set]; by_cases a : j = i <;> by_cases d : j = v <;> simp_all
          rw [c, c, ev, ev]
          simpa using h
      · by_cases e : i = v
        · subst e
          rw [BT.eval_set_lt o4 (by omega), BT.eval_set_lt o4 (by omega)] at h
          exact (h rfl).elim
        · refine ⟨BT.set ρ v true, ?_⟩
          have c : ∀ x, BT.set (BT.set ρ v true) i x = BT.set (BT.set ρ i x) v true := fun x => by
            funext j; simp only [BT.set]; by_cases a : j = i <;> by_cases d : j = v <;> simp_all
          rw [c, c, ev, ev]
          simpa using h
    · rintro ⟨ρ, h⟩
      by_cases e : i = v
      · exact .inl e
      · have hv : ∀ x, BT.set ρ i x v = ρ v := fun x => by simp [BT.set, Ne.symm e]
        rw [BT.eval, BT.eval, hv, hv] at h
        cases hx : ρ v with
        | true => rw [hx] at h; exact .inr (.inr ⟨ρ, by simpa using h⟩)
        | false => rw [hx] at h; exact .inr (.inl ⟨ρ, by simpa using h⟩)

/-- `support_rec` marks as `mark_node` does and collects the levels marked. -/
theorem supportRec_ok {k : Kernel V} : ∀ (f : Nat) (m : Nat → Bool) (acc : List Nat) (r : Nat) (m' : Nat → Bool), k.mark f m r = some m' →
    ∃ new, k.supportRec f (m, acc) r = some (m', acc ++ new) ∧ (∀ x, m x = true → m' x = true) ∧ ∀ i, i ∈ new ↔ ∃ x, m' x = true ∧ m x = false ∧ k.level x = i := by
  intro f
  induction f with
  | zero => intro m acc r m' h; simp [Kernel.mark] at h
  | succ f ih =>
    intro m acc r m' h
    unfold Kernel.mark at h
    unfold Kernel.supportRec
    have triv : m' = m → ∃ new, some (m, acc) = some (m', acc ++ new) ∧ (∀ x, m x = true → m' x = true) ∧ ∀ i, i ∈ new ↔ ∃ x, m' x = true ∧ m x = false ∧ k.level x = i := fun e => by
      subst e
      exact ⟨[], by simp, fun _ h => h, fun i => by simp; intro x h1 h2; rw [h1] at h2; cases h2⟩
    split at h
    · rename_i c; simp only [c, if_true]; cases h; exact triv rfl
    · rename_i c
      simp only [c, if_false]
      split at h
      · rename_i c2; simp only [c2, if_true]; cases h; exact triv rfl
      · rename_i c2
        have c2' : m r = false := by simpa using c2
        simp only [c2', Bool.false_eq_true, if_false]
        cases hl : k.low r with
        | none => rw [hl] at h; cases h; exact triv rfl
        | some l =>
          rw [hl] at h
          simp only [Option.bind_eq_bind] at h
          cases h1 : k.mark f (upd m r true) l with
          | none => rw [h1] at h; cases h
          | some m1 =>
            rw [h1] at h
            simp only [Option.bind_some] at h
            obtain ⟨n1, e1, a1, b1⟩ := ih _ (acc ++ [k.level r]) _ _ h1
            obtain ⟨n2, e2, a2, b2⟩ := ih _ (acc ++ [k.level r] ++ n1) _ _ h
            have mr : m1 r = true := a1 r (upd_same _ _ _)
            refine ⟨k.level r :: (n1 ++ n2), by simp only [e1, Option.bind_some, e2]; simp, fun x hx => a2 x (a1 x ?_), fun i => ?_⟩
            · by_cases e : x = r
              · rw [e]; exact upd_same _ _ _
              · rw [upd_ne e]; exact hx
            · simp only [List.mem_cons, List.mem_append, b1, b2]
              constructor
              · rintro (rfl | ⟨x, p, q, rfl⟩ | ⟨x, p, q, rfl⟩)
                · exact ⟨r, a2 r mr, c2', rfl⟩
                · by_cases e : x = r
                  · rw [e, upd_same] at q; cases q
                  · rw [upd_ne e] at q; exact ⟨x, a2 x p, q, rfl⟩
                · refine ⟨x, p, ?_, rfl⟩
                  by_contra hx
                  have hx : m x = true := by simpa using hx
                  have : m1 x = true := a1 x (by by_cases e : x = r; { rw [e]; exact upd_same _ _ _ }; { rw [upd_ne e]; exact hx })
                  rw [this] at q; cases q
              · rintro ⟨x, p, q, rfl⟩
                by_cases e : x = r
                · exact .inl (by rw [e])
                · cases hm : m1 x with
                  | true => exact .inr (.inl ⟨x, hm, by rw [upd_ne e]; exact q, rfl⟩)
                  | false => exact .inr (.inr ⟨x, p, hm, rfl⟩)

/-- The chain built by the loop. -/
theorem supportLoop_ok {H : List Nat} : ∀ (ns : List Nat) (L : List (Nat × Bool)) (res : Nat) (k : Kernel V), Pub k H → (∀ n ∈ ns, n < k.varnum) → Den k res (cube L) →
    ∃ x k', Kernel.supportLoop ns res k = some (x, k') ∧ Pub k' H ∧ Adv H k k' ∧ k'.idx = k.idx ∧ Den k' x (cube ((ns.map fun n => (n, true)).reverse ++ L))
  | [], L, res, k, hp, _, hd => ⟨res, k, rfl, hp, .rfl, rfl, hd⟩
  | n :: ns, L, res, k, hp, hn, hd => by
    obtain ⟨k1, e1, p1, d1, v1, i1⟩ := addRef_ok hp hd
    have dr := d1 _ _ hd
    obtain ⟨y, k2, e2, inv2, kp2, d2⟩ := makeNode_ok p1.toInv (lvl := n) (by rw [v1]; exact hn n (by simp)) Den.zero dr (.const (by omega)) (p1.prot (.inr (by simp)))
    obtain ⟨p2, a2⟩ := p1.keep (p1.toKInv.ge kp2.toGe inv2) kp2
    have hmk : BT.mk n (.leaf false) (cube L) = cube ((n, true) :: L) := mk_cube n true L
    rw [hmk] at d2
    obtain ⟨k3, e3, p3, d3, v3, i3⟩ := delRef_ok p2 (n := res) (by simp) (a2.den res (.inr (by simp)) _ dr)
    rw [List.erase_cons_head] at p3
    have a3 : Adv H k k3 := ⟨by rw [v3, a2.varnum, v1], by rw [i3, ← i1]; exact a2.idx, fun m hm t ht => d3 m t (a2.den m (hm.imp id fun h => by simp [h]) t (d1 m t ht))⟩
    obtain ⟨x, k', e4, p4, a4, i4, d4⟩ := supportLoop_ok ns ((n, true) :: L) y k3 p3 (fun m hm => by rw [a3.varnum]; exact hn m (by simp [hm])) (d3 _ _ d2)
    refine ⟨x, k', ?_, p4, a3.trans a4, by rw [i4, i3, kp2.idx, i1], ?_⟩
    · unfold Kernel.supportLoop
      rw [e1, Option.bind_some, e2, Option.bind_some]
      simp only [e3, Option.bind_some, e4]
    · simpa using d4

/-- `Bdd::support` gives the registered variables the function depends on. -/
theorem supportH_ok {k : Kernel Var} {H : List Nat} (hp : Pub k H) {r : Nat} (hr : r < 2 ∨ r ∈ H) {F : (Nat → Bool) → Bool} (hf : Is k r F) :
    ∃ L k', supportH r k = some (L, k') ∧ Pub k' H ∧ Adv H k k' ∧ k'.idx = k.idx ∧ ∀ v, v ∈ L ↔ ∃ i, k.idx[i]? = some v ∧ ∃ ρ, F (BT.set ρ i true) ≠ F (BT.set ρ i false) := by
  obtain ⟨t, d, ho, ef⟩ := hf
  have hF : F = fun ρ => t.eval ρ := funext fun ρ => (ef ρ).symm
  have hlev := levels_iff t 0 ho (hp.den_red d)
  unfold supportH Kernel.support
  by_cases h2 : r < 2
  · rw [if_pos (.inl h2)]
    have hc : t.levels = [] := by cases d with | zero => rfl | one => rfl | node h => omega
    refine ⟨[], k, by simp [createModel], hp, .rfl, rfl, fun v => ?_⟩
    simp only [List.not_mem_nil, false_iff]
    rintro ⟨i, _, h⟩
    rw [hF] at h
    have := (hlev i).2 h
    rw [hc] at this; simp at this
  have hvn : k.varnum ≠ 0 := by
    cases d with
    | zero => omega
    | one => omega
    | node => have := ho.2.1; omega
  rw [if_neg (by simp [h2, hvn])]
  -- the marked nodes
  have hunm : unm k (fun _ => false) < k.size + 1 := by
    unfold unm
    have := List.countP_le_length (p := fun x : Nat => !(fun _ => false) x) (l := List.range k.size)
    rw [List.length_range] at this
    omega
  have hP : ∀ n l, 2 ≤ n → k.low n = some l → (∃ u, Den k n u ∧ ∀ i ∈ u.levels, i ∈ t.levels) → (∃ u, Den k l u ∧ ∀ i ∈ u.levels, i ∈ t.levels) ∧ ∃ u, Den k (k.high n) u ∧ ∀ i ∈ u.levels, i ∈ t.levels := fun n l h2 hl hu => by
    obtain ⟨u, du, hu⟩ := hu
    cases du with
    | zero => omega
    | one => omega
    | @node _ l' tl th _ hl' dl dh =>
      rw [hl] at hl'; cases hl'
      exact ⟨⟨tl, dl, fun i hi => hu i (by simp [BT.levels, hi])⟩, ⟨th, dh, fun i hi => hu i (by simp [BT.levels, hi])⟩⟩
  obtain ⟨m, e, hm, hx⟩ := mark_ok hp.toInv hP (k.size + 1) (fun _ => false) r hunm (hp.den_ok d) ⟨t, d, fun _ h => h⟩
  obtain ⟨new, e1, _, hnew⟩ := supportRec_ok _ _ [] _ _ e
  have cover : ∀ n u, Den k n u → (n < 2 ∨ m n = true) → ∀ i ∈ u.levels, ∃ x, m x = true ∧ k.level x = i := fun n u du => by
    induction du with
    | zero => intro _ i hi; simp [BT.levels] at hi
    | one => intro _ i hi; simp [BT.levels] at hi
    | @node n l tl th h2 hl dl dh ih1 ih2 =>
      intro hmn i hi
      have hmn : m n = true := hmn.resolve_left (by omega)
      obtain ⟨cl, _⟩ := hm.cl n hmn rfl
      obtain ⟨c1, c2⟩ := cl l hl
      simp only [BT.levels, List.mem_cons, List.mem_append] at hi
      rcases hi with rfl | hi | hi
      · exact ⟨n, hmn, rfl⟩
      · exact ih1 c1 i hi
      · exact ih2 c2 i hi
  have hmem : ∀ i, i ∈ new ↔ i ∈ t.levels := fun i => by
    rw [hnew]
    constructor
    · rintro ⟨x, h1, _, rfl⟩
      obtain ⟨_, al, u, du, hu⟩ := hm.cl x h1 rfl
      refine hu _ ?_
      cases du with
      | zero => have := al.1; omega
      | one => have := al.1; omega
      | node => simp [BT.levels]
    · intro hi
      obtain ⟨x, h1, h2⟩ := cover r t d hx i hi
      exact ⟨x, h1, rfl, h2⟩
  have hlt : ∀ (u : BT) b, BT.Ord k.varnum b u → ∀ i ∈ u.levels, i < k.varnum := fun u => by
    induction u with
    | leaf _ => intro b _ i hi; simp [BT.levels] at hi
    | node v lo hi ih1 ih2 =>
      rintro b ⟨o1, o2, o3, o4⟩ i hi
      simp only [BT.levels, List.mem_cons, List.mem_append] at hi
      rcases hi with rfl | hi | hi
      · exact o2
      · exact ih1 _ o3 i hi
      · exact ih2 _ o4 i hi
  obtain ⟨x, k', e2, p', a', i', d'⟩ := supportLoop_ok new [] 1 k hp (fun n hn => hlt t 0 ho n ((hmem n).1 hn)) Den.one
  obtain ⟨M, e3, q1, q2⟩ := createModel_ok p'.toKInv d'
  have hneg : M.neg = [] := List.eq_nil_iff_forall_not_mem.2 fun v hv => by
    obtain ⟨i, hi, _⟩ := (q2 v).1 hv
    simp at hi
  refine ⟨M.pos, k', ?_, p', a', i', fun v => ?_⟩
  · rw [e1]
    simp only [Option.bind_some, List.nil_append, e2, e3, hneg, if_true]
  · rw [q1, i', hF]
    constructor
    · rintro ⟨i, hi, hv⟩
      refine ⟨i, hv, (hlev i).1 ((hmem i).1 ?_)⟩
      simpa using hi
    · rintro ⟨i, hv, h⟩
      refine ⟨i, ?_, hv⟩
      simpa using (hmem i).2 ((hlev i).2 h)

end Bdd
end Verif
