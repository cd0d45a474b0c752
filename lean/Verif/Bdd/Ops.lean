import Verif.Bdd.Inv
/-
Binary operations and negation on node indices.
-/
namespace Verif
namespace Bdd

variable {V : Type}

/-- `F` does not depend on the variables below `b`. -/
def Ind (b : Nat) (F : (Nat → Bool) → Bool) : Prop := ∀ σ τ : Nat → Bool, (∀ v, b ≤ v → σ v = τ v) → F σ = F τ

theorem BT.Ord.ind {nv b : Nat} {t : BT} (h : Ord nv b t) : Ind b fun σ => t.eval σ := fun _ _ he => eval_congr h fun v hv _ => he v hv

theorem BT.Ord.cg {nv b : Nat} {t : BT} (h : Ord nv b t) (σ τ : Nat → Bool) (he : ∀ v, b ≤ v → σ v = τ v) : t.eval σ = t.eval τ := h.ind σ τ he

theorem BT.Ord.of_ind {nv b : Nat} {t : BT} (hr : t.Red) (ho : Ord nv 0 t) (hd : Ind b fun σ => t.eval σ) : Ord nv b t := by
  cases t with
  | leaf x => trivial
  | node v lo hi =>
    obtain ⟨_, h2, h3, h4⟩ := ho
    refine ⟨?_, h2, h3, h4⟩
    rcases Nat.lt_or_ge v b with h | h
    · exfalso
      refine hr.1 (canonical nv (Nat.sub_le _ _) h3 h4 hr.2.1 hr.2.2 fun σ => ?_)
      have := hd (set σ v false) (set σ v true) fun w hw => by simp only [set]; rw [if_neg (by omega), if_neg (by omega)]
      simpa [eval, set, eval_set_lt h3 (Nat.lt_succ_self v), eval_set_lt h4 (Nat.lt_succ_self v)] using this
    · exact h

/-- The invariant of a finished kernel. -/
structure KInv (k : Kernel V) : Prop extends Inv k.varnum k where
  l0 : k.level 0 = k.varnum
  l1 : k.level 1 = k.varnum
  vr : ∀ i, i < k.varnum → (Den k (k.vars (2 * i)) (.node i (.leaf false) (.leaf true)) ∧ k.ref (k.vars (2 * i)) = maxRef) ∧
    (Den k (k.vars (2 * i + 1)) (.node i (.leaf true) (.leaf false)) ∧ k.ref (k.vars (2 * i + 1)) = maxRef)
  qs : ∀ i, (k.qset i).natAbs ≤ k.qid

/-- Node `n` stands for `F`. -/
abbrev Is (k : Kernel V) (n : Nat) (F : (Nat → Bool) → Bool) : Prop := Sem k.varnum k n F

theorem KInv.ge {k k' : Kernel V} (h : KInv k) (hg : Ge k k') (hi : Inv k.varnum k') : KInv k' where
  toInv := by rw [hg.varnum]; exact hi
  l0 := by rw [(hg.same 0 (.const (by omega))).1, hg.varnum]; exact h.l0
  l1 := by rw [(hg.same 1 (.const (by omega))).1, hg.varnum]; exact h.l1
  vr i hl := by
    rw [hg.vars, hg.ref]
    rw [hg.varnum] at hl
    obtain ⟨⟨a, b⟩, c, d⟩ := h.vr i hl
    exact ⟨⟨a.ge hg (.ref (by rw [b]; decide)), b⟩, c.ge hg (.ref (by rw [d]; decide)), d⟩
  qs i := by rw [hg.qset, hg.qid]; exact h.qs i

theorem KInv.level {k : Kernel V} (h : KInv k) {n : Nat} {t : BT} (hd : Den k n t) : k.level n = t.level k.varnum := by
  cases hd with
  | zero => exact h.l0
  | one => exact h.l1
  | node => rfl

/-! ### Stack -/

/-- Same node table. -/
structure TabEq (k k' : Kernel V) : Prop where
  size : k'.size = k.size
  ref : k'.ref = k.ref
  level : k'.level = k.level
  low : k'.low = k.low
  high : k'.high = k.high
  hash : k'.hash = k.hash
  next : k'.next = k.next
  free : k'.free = k.free
  freenum : k'.freenum = k.freenum
  varnum : k'.varnum = k.varnum
  vars : k'.vars = k.vars
  grow : k'.grow = k.grow

theorem TabEq.dext {k k' : Kernel V} (h : TabEq k k') : Dext k k' := dext_of fun n l _ hl => by
  rw [h.level, h.low, h.high]; exact ⟨rfl, hl, rfl⟩

theorem TabEq.ok {k k' : Kernel V} (h : TabEq k k') {n : Nat} (ho : Ok k n) : Ok k' n := by
  rcases ho with ho | ⟨a, b, c⟩
  · exact .inl ho
  · exact .inr ⟨a, by rw [h.size]; exact b, by rw [h.low]; exact c⟩

theorem KInv.tab {k k' : Kernel V} (h : KInv k) (e : TabEq k k') (hs : ∀ n ∈ k'.stack, Ok k n) (ha : ∀ i, ApplyOk k.varnum k (k'.applyc.tab i)) (hq : ∀ i, QuantOk k.varnum k (k'.quantc.tab i)) (hm : ∀ i, MiscOk k.varnum k (k'.miscc.tab i))
    (hqs : ∀ i, (k'.qset i).natAbs ≤ k'.qid) : KInv k' where
  sz := by rw [e.size]; exact h.sz
  links := by
    have hal : ∀ n, Alloc k' n ↔ Alloc k n := fun n => by unfold Alloc; rw [e.size, e.low]
    have hib : ∀ b n, InBucket k' b n ↔ InBucket k b n := fun b n => by unfold InBucket Kernel.nodehash; rw [e.low, e.level, e.high, e.size]
    refine ⟨fun b hb => ?_, ?_⟩
    · rw [e.size] at hb
      obtain ⟨c, h1, h2, h3⟩ := h.links.bucket b hb
      exact ⟨c, by rw [e.next, e.hash]; exact h1, h2, fun n => by rw [hal, hib]; exact h3 n⟩
    · obtain ⟨c, h1, h2, h3, h4⟩ := h.links.freel
      exact ⟨c, by rw [e.next, e.free]; exact h1, h2, fun n => by rw [e.size, e.low]; exact h3 n, by rw [e.freenum]; exact h4⟩
  out := by rw [e.size, e.low]; exact h.out
  kid n l h2 hl := by
    rw [e.low] at hl
    obtain ⟨a, b, c, d⟩ := h.kid n l h2 hl
    rw [e.high, e.level, e.varnum]
    exact ⟨e.ok a, e.ok b, c, d⟩
  uniq := by rw [e.low, e.level, e.high]; exact h.uniq
  refs n hn := by rw [e.ref] at hn; exact e.ok (h.refs n hn)
  stk n hn := e.ok (hs n hn)
  ac i := by rw [e.varnum]; exact (ha i).dext e.dext
  qc i := by rw [e.varnum]; exact (hq i).dext e.dext
  mc i := by rw [e.varnum]; exact (hm i).dext e.dext
  gr := by rw [e.grow]; exact h.gr
  l0 := by rw [e.level, e.varnum]; exact h.l0
  l1 := by rw [e.level, e.varnum]; exact h.l1
  vr i hi := by
    rw [e.varnum] at hi
    rw [e.vars, e.ref]
    obtain ⟨⟨a, b⟩, c, d⟩ := h.vr i hi
    exact ⟨⟨e.dext _ _ a, b⟩, e.dext _ _ c, d⟩
  qs := hqs

theorem tabEq_stack (k : Kernel V) (s : List Nat) : TabEq k { k with stack := s } := ⟨rfl, rfl, rfl, rfl, rfl, rfl, rfl, rfl, rfl, rfl, rfl, rfl⟩

theorem stack_inv {k : Kernel V} (h : KInv k) {s : List Nat} (hs : ∀ n ∈ s, Ok k n) : KInv { k with stack := s } :=
  h.tab (tabEq_stack k s) hs h.ac h.qc h.mc h.qs

theorem push_inv {k : Kernel V} (h : KInv k) {x : Nat} (hx : Ok k x) : KInv { k with stack := x :: k.stack } :=
  stack_inv h fun n hn => by
    rcases List.mem_cons.1 hn with rfl | hn
    · exact hx
    · exact h.stk n hn

theorem pop_inv {k : Kernel V} (h : KInv k) {s : List Nat} (hs : ∀ n ∈ s, n ∈ k.stack) : KInv { k with stack := s } := stack_inv h fun n hn => h.stk n (hs n hn)

theorem push_ge {k : Kernel V} (x : Nat) : Ge k { k with stack := x :: k.stack } :=
  ⟨rfl, rfl, rfl, rfl, rfl, rfl, rfl, rfl, fun _ _ => ⟨rfl, rfl, rfl⟩, prot_of_same rfl (fun _ hn => List.mem_cons_of_mem _ hn) fun _ _ => ⟨rfl, rfl, rfl⟩⟩

theorem pop_keep {k k' : Kernel V} (hg : Ge k k') : Keep k { k' with stack := k.stack } := by
  refine ⟨⟨hg.varnum, hg.cap, hg.vars, hg.idx, hg.qset, hg.qid, hg.qlast, hg.ref, hg.same, ?_⟩, rfl⟩
  exact prot_of_same (k' := { k' with stack := k.stack }) hg.ref (fun _ hn => hn) hg.same

theorem push_eq {k : Kernel V} {x : Nat} (h : k.stack.length < k.cap) : k.push x = some { k with stack := x :: k.stack } := by unfold Kernel.push; rw [if_pos h]

/-- The common two-call scheme. -/
theorem two_ok {k : Kernel V} (hcap : k.stack.length + 2 ≤ k.cap) {c1 c2 : Kernel V → Option (Nat × Kernel V)} {fin : Nat → Nat → Kernel V → Option (Nat × Kernel V)} {F1 F2 F : (Nat → Bool) → Bool}
    (h1 : ∃ x1 k1, c1 k = some (x1, k1) ∧ KInv k1 ∧ Keep k k1 ∧ Is k1 x1 F1)
    (h2 : ∀ x1 k2, KInv k2 → Ge k k2 → k2.stack = x1 :: k.stack → ∃ x2 k3, c2 k2 = some (x2, k3) ∧ KInv k3 ∧ Keep k2 k3 ∧ Is k3 x2 F2)
    (h3 : ∀ x1 x2 k4, KInv k4 → Ge k k4 → k4.stack = x2 :: x1 :: k.stack → Is k4 x1 F1 → Is k4 x2 F2 → ∃ y k5, fin x1 x2 k4 = some (y, k5) ∧ KInv k5 ∧ Keep k4 k5 ∧ Is k5 y F) :
    ∃ y k', Kernel.two c1 c2 fin k = some (y, k') ∧ KInv k' ∧ Keep k k' ∧ Is k' y F := by
  obtain ⟨x1, k1, e1, I1, K1, S1⟩ := h1
  let k2 : Kernel V := { k1 with stack := x1 :: k1.stack }
  have p1 : k1.push x1 = some k2 := push_eq (by rw [K1.stack, K1.cap]; omega)
  obtain ⟨t1, d1, o1, v1⟩ := S1
  have I2 : KInv k2 := push_inv I1 (I1.den_ok d1)
  have G2 : Ge k k2 := K1.toGe.trans (push_ge x1)
  have s2 : k2.stack = x1 :: k.stack := by show x1 :: k1.stack = _; rw [K1.stack]
  obtain ⟨x2, k3, e2, I3, K3, S2⟩ := h2 x1 k2 I2 G2 s2
  let k4 : Kernel V := { k3 with stack := x2 :: k3.stack }
  have s3 : k3.stack = x1 :: k.stack := K3.stack.trans s2
  have G3 : Ge k k3 := G2.trans K3.toGe
  have p2 : k3.push x2 = some k4 := push_eq (by rw [s3, G3.cap]; simp only [List.length_cons]; omega)
  obtain ⟨t2, d2, o2, v2⟩ := S2
  have I4 : KInv k4 := push_inv I3 (I3.den_ok d2)
  have G4 : Ge k k4 := G3.trans (push_ge x2)
  have s4 : k4.stack = x2 :: x1 :: k.stack := by show x2 :: k3.stack = _; rw [s3]
  have D1 : Is k4 x1 F1 := by
    refine ⟨t1, ?_, ?_, v1⟩
    · have d1' : Den k2 x1 t1 := (tabEq_stack k1 _).dext _ _ d1
      exact (d1'.ge K3.toGe (.stk (by rw [s2]; simp))).ge (push_ge x2) (.stk (by rw [s3]; simp))
    · show BT.Ord k3.varnum 0 t1
      rw [G3.varnum, ← K1.varnum]; exact o1
  have D2 : Is k4 x2 F2 := ⟨t2, (tabEq_stack k3 _).dext _ _ d2, o2, v2⟩
  obtain ⟨y, k5, e3, I5, K5, S5⟩ := h3 x1 x2 k4 I4 G4 s4 D1 D2
  have s5 : k5.stack = x2 :: x1 :: k.stack := K5.stack.trans s4
  have G5 : Ge k k5 := G4.trans K5.toGe
  let k6 : Kernel V := { k5 with stack := k.stack }
  refine ⟨y, k6, ?_, pop_inv I5 fun n hn => by rw [s5]; simp [hn], pop_keep G5, S5.dext (tabEq_stack k5 _).dext⟩
  have r2 : k4.read 2 = some x1 := by unfold Kernel.read; rw [s4]; rfl
  have r1 : k4.read 1 = some x2 := by unfold Kernel.read; rw [s4]; rfl
  have pp : k5.pop 2 = some k6 := by
    unfold Kernel.pop; rw [s5, if_pos (by simp)]; rfl
  simp only [Kernel.two, bind, Option.bind, e1, p1, e2, p2, r2, r1, e3, pp, pure]

/-- Finishing with `make_node` at the level of a protected node. -/
theorem fin_make {k : Kernel V} (hk : KInv k) {v x1 x2 : Nat} {F1 F2 F : (Nat → Bool) → Bool} (hv : v < k.varnum) (p1 : Prot k x1) (p2 : Prot k x2) (S1 : Is k x1 F1) (S2 : Is k x2 F2) (i1 : Ind (v + 1) F1) (i2 : Ind (v + 1) F2)
    (hF : ∀ σ, F σ = if σ v then F2 σ else F1 σ) : ∃ y k', k.makeNode v x1 x2 = some (y, k') ∧ KInv k' ∧ Keep k k' ∧ Is k' y F := by
  obtain ⟨t1, d1, o1, e1⟩ := S1
  obtain ⟨t2, d2, o2, e2⟩ := S2
  obtain ⟨y, k', m1, m2, m3, m4⟩ := makeNode_ok hk.toInv hv d1 d2 p1 p2
  refine ⟨y, k', m1, hk.ge m3.toGe m2, m3, BT.mk v t1 t2, m4, ?_, fun σ => by rw [BT.eval_mk, hF, e1, e2]⟩
  rw [m3.varnum]
  refine BT.Ord.mk (Nat.zero_le _) hv ?_ ?_
  · exact .of_ind (hk.den_red d1) o1 fun σ τ h => by show t1.eval σ = t1.eval τ; rw [e1, e1]; exact i1 σ τ h
  · exact .of_ind (hk.den_red d2) o2 fun σ τ h => by show t2.eval σ = t2.eval τ; rw [e2, e2]; exact i2 σ τ h

/-! ### Cache updates -/

theorem tabEq_apply (k : Kernel V) (c : Cache) : TabEq k { k with applyc := c } := ⟨rfl, rfl, rfl, rfl, rfl, rfl, rfl, rfl, rfl, rfl, rfl, rfl⟩

theorem setApply_inv {k : Kernel V} (h : KInv k) {hh l r c x : Nat} (he : ∀ bd, ApplyOk k.varnum k ⟨some l, r, c, bd, x⟩) :
    KInv { k with applyc := k.applyc.setRes hh l r c x } := by
  refine h.tab (tabEq_apply k _) h.stk (fun i => ?_) h.qc h.mc h.qs
  show ApplyOk _ _ (upd k.applyc.tab (hh % k.applyc.size) _ i)
  by_cases hi : i = hh % k.applyc.size
  · rw [hi, upd_same]; exact he _
  · rw [upd_ne hi]; exact h.ac i

theorem keep_of_eq {k k' : Kernel V} (h0 : k'.varnum = k.varnum) (h1 : k'.cap = k.cap) (h2 : k'.vars = k.vars) (h3 : k'.idx = k.idx) (h4 : k'.qset = k.qset) (h5 : k'.qid = k.qid) (h6 : k'.qlast = k.qlast) (h7 : k'.ref = k.ref)
    (h8 : k'.level = k.level) (h9 : k'.low = k.low) (h10 : k'.high = k.high) (h11 : k'.stack = k.stack) : Keep k k' := by
  have hs : ∀ n, Prot k n → k'.level n = k.level n ∧ k'.low n = k.low n ∧ k'.high n = k.high n := fun n _ => by rw [h8, h9, h10]; exact ⟨rfl, rfl, rfl⟩
  exact ⟨⟨h0, h1, h2, h3, h4, h5, h6, h7, hs, prot_of_same h7 (fun n hn => by rw [h11]; exact hn) hs⟩, h11⟩

/-! ### `apply_rec` -/

theorem Opr.code_inj : ∀ {a b : Opr}, a.code = b.code → a = b
  | .and, .and, _ | .or, .or, _ | .imp, .imp, _ | .equiv, .equiv, _ => rfl
  | .and, .or, h | .and, .imp, h | .and, .equiv, h | .or, .and, h | .or, .imp, h | .or, .equiv, h | .imp, .and, h | .imp, .or, h | .imp, .equiv, h | .equiv, .and, h | .equiv, .or, h | .equiv, .imp, h => by revert h; decide

theorem Opr.code_ne_not (a : Opr) : a.code ≠ opNot := by cases a <;> decide

theorem den_zero {k : Kernel V} {t : BT} (h : Den k 0 t) : t = .leaf false := den_fun h .zero
theorem den_one {k : Kernel V} {t : BT} (h : Den k 1 t) : t = .leaf true := den_fun h .one

theorem is_false {nv : Nat} {k : Kernel V} {F : (Nat → Bool) → Bool} (h : ∀ σ, F σ = false) : Sem nv k 0 F := ⟨.leaf false, .zero, trivial, fun σ => (h σ).symm⟩
theorem is_true {nv : Nat} {k : Kernel V} {F : (Nat → Bool) → Bool} (h : ∀ σ, F σ = true) : Sem nv k 1 F := ⟨.leaf true, .one, trivial, fun σ => (h σ).symm⟩

theorem short_ok {nv : Nat} {k : Kernel V} {op : Opr} {l r x : Nat} {F G : (Nat → Bool) → Bool} (h : Kernel.short op l r = some x) (hl : Sem nv k l F) (hr : Sem nv k r G) : Sem nv k x fun σ => op.fn (F σ) (G σ) := by
  have z : ∀ {H : (Nat → Bool) → Bool}, Sem nv k 0 H → ∀ σ, H σ = false := fun h σ => sem_fun h (is_false fun _ => rfl) σ
  have o : ∀ {H : (Nat → Bool) → Bool}, Sem nv k 1 H → ∀ σ, H σ = true := fun h σ => sem_fun h (is_true fun _ => rfl) σ
  have e : l = r → ∀ σ, F σ = G σ := fun he σ => by subst he; exact sem_fun hl hr σ
  cases op <;> simp only [Kernel.short] at h
  · split at h
    · rename_i he; cases h
      exact hl.congr fun σ => by simp [Opr.fn, ← e he σ]
    split at h
    · rename_i he; cases h
      refine is_false fun σ => ?_
      rcases he with he | he
      · subst he; simp [Opr.fn, z hl]
      · subst he; simp [Opr.fn, z hr]
    split at h
    · rename_i he; cases h; subst he
      exact hr.congr fun σ => by simp [Opr.fn, o hl]
    split at h
    · rename_i he; cases h; subst he
      exact hl.congr fun σ => by simp [Opr.fn, o hr]
    cases h
  · split at h
    · rename_i he; cases h
      exact hl.congr fun σ => by simp [Opr.fn, ← e he σ]
    split at h
    · rename_i he; cases h
      refine is_true fun σ => ?_
      rcases he with he | he
      · subst he; simp [Opr.fn, o hl]
      · subst he; simp [Opr.fn, o hr]
    split at h
    · rename_i he; cases h; subst he
      exact hr.congr fun σ => by simp [Opr.fn, z hl]
    split at h
    · rename_i he; cases h; subst he
      exact hl.congr fun σ => by simp [Opr.fn, z hr]
    cases h
  · split at h
    · rename_i he; cases h; subst he
      exact is_true fun σ => by simp [Opr.fn, z hl]
    split at h
    · rename_i he; cases h; subst he
      exact hr.congr fun σ => by simp [Opr.fn, o hl]
    split at h
    · rename_i he; cases h; subst he
      exact is_true fun σ => by simp [Opr.fn, o hr]
    cases h
  · cases h

theorem table_ok {nv : Nat} {k : Kernel V} {op : Opr} {l r : Nat} {F G : (Nat → Bool) → Bool} (h1 : l < 2) (h2 : r < 2) (hl : Sem nv k l F) (hr : Sem nv k r G) :
    ∃ x, op.table[l * 2 + r]? = some x ∧ Sem nv k x fun σ => op.fn (F σ) (G σ) := by
  have z : ∀ {H : (Nat → Bool) → Bool}, Sem nv k 0 H → ∀ σ, H σ = false := fun h σ => sem_fun h (is_false fun _ => rfl) σ
  have o : ∀ {H : (Nat → Bool) → Bool}, Sem nv k 1 H → ∀ σ, H σ = true := fun h σ => sem_fun h (is_true fun _ => rfl) σ
  have hl2 : (l = 0 ∧ ∀ σ, F σ = false) ∨ (l = 1 ∧ ∀ σ, F σ = true) := by
    have : l = 0 ∨ l = 1 := by omega
    rcases this with rfl | rfl
    · exact .inl ⟨rfl, z hl⟩
    · exact .inr ⟨rfl, o hl⟩
  have hr2 : (r = 0 ∧ ∀ σ, G σ = false) ∨ (r = 1 ∧ ∀ σ, G σ = true) := by
    have : r = 0 ∨ r = 1 := by omega
    rcases this with rfl | rfl
    · exact .inl ⟨rfl, z hr⟩
    · exact .inr ⟨rfl, o hr⟩
  rcases hl2 with ⟨rfl, el⟩ | ⟨rfl, el⟩ <;> rcases hr2 with ⟨rfl, er⟩ | ⟨rfl, er⟩ <;> cases op <;>
    first
      | exact ⟨0, rfl, is_false fun σ => by rw [el, er]; rfl⟩
      | exact ⟨1, rfl, is_true fun σ => by rw [el, er]; rfl⟩

/-- Both cofactors of a tree. -/
def BT.cof (v : Nat) (b : Bool) : BT → BT
  | .leaf x => .leaf x
  | .node w lo hi => if w = v then (if b then hi else lo) else .node w lo hi

theorem BT.cof_eval {nv b v : Nat} {t : BT} (_ : Ord nv b t) (σ : Nat → Bool) : t.eval σ = if σ v then (t.cof v true).eval σ else (t.cof v false).eval σ := by
  cases t with
  | leaf x => simp [cof, eval]
  | node w lo hi =>
    simp only [cof]
    by_cases h : w = v
    · subst h; simp [eval]
    · simp [h]

theorem BT.cof_ord {nv b v : Nat} {t : BT} (h : Ord nv b t) (hv : v ≤ t.level nv) (x : Bool) : Ord nv (v + 1) (t.cof v x) := by
  cases t with
  | leaf x => trivial
  | node w lo hi =>
    obtain ⟨h1, h2, h3, h4⟩ := h
    simp only [level] at hv
    simp only [cof]
    by_cases hw : w = v
    · subst hw; rw [if_pos rfl]; cases x
      · exact h3
      · exact h4
    · rw [if_neg hw]; exact ⟨by omega, h2, h3, h4⟩

theorem BT.cof_depth {v : Nat} {t : BT} (x : Bool) : (t.cof v x).depth ≤ t.depth := by
  cases t with
  | leaf x => exact Nat.le_refl _
  | node w lo hi =>
    simp only [cof]
    split
    · cases x <;> simp only [depth, if_true, Bool.false_eq_true, if_false] <;> omega
    · exact Nat.le_refl _

theorem BT.cof_depth_lt {v : Nat} {lo hi : BT} (x : Bool) : ((BT.node v lo hi).cof v x).depth < (BT.node v lo hi).depth := by
  simp only [cof, if_true]
  cases x <;> simp only [depth, if_true, Bool.false_eq_true, if_false] <;> omega

theorem BT.cof_ne {nv v : Nat} {t : BT} (h : v < t.level nv) (x : Bool) : t.cof v x = t := by
  cases t with
  | leaf x => rfl
  | node w lo hi => simp only [level] at h; simp only [cof]; rw [if_neg (by omega)]

theorem cofactors_ok {k : Kernel V} (hk : KInv k) {l r b : Nat} {tl tr : BT} (dl : Den k l tl) (dr : Den k r tr) (ol : BT.Ord k.varnum b tl) (or' : BT.Ord k.varnum b tr) (pl : Prot k l) (pr : Prot k r) (hc : ¬ (l < 2 ∧ r < 2)) :
    ∃ n a1 b1 a2 b2 v, k.cofactors l r = some (n, (a1, b1), (a2, b2)) ∧ k.level n = v ∧ Prot k n ∧ b ≤ v ∧ v < k.varnum ∧
      v ≤ tl.level k.varnum ∧ v ≤ tr.level k.varnum ∧ (∀ x, (tl.cof v x).depth + (tr.cof v x).depth < tl.depth + tr.depth) ∧
      (Den k a1 (tl.cof v false) ∧ Prot k a1) ∧ (Den k b1 (tr.cof v false) ∧ Prot k b1) ∧ (Den k a2 (tl.cof v true) ∧ Prot k a2) ∧ (Den k b2 (tr.cof v true) ∧ Prot k b2) := by
  unfold Kernel.cofactors
  have ll := hk.level dl
  have lr := hk.level dr
  -- a node's children
  have kids : ∀ {n : Nat} {t : BT}, Den k n t → BT.Ord k.varnum b t → Prot k n → t.level k.varnum < k.varnum → ∃ lo, k.low n = some lo ∧ b ≤ t.level k.varnum ∧
      (Den k lo (t.cof (t.level k.varnum) false) ∧ Prot k lo) ∧ (Den k (k.high n) (t.cof (t.level k.varnum) true) ∧ Prot k (k.high n)) ∧ ∀ x, (t.cof (t.level k.varnum) x).depth < t.depth := by
    intro n t hd ho hp hlt
    cases hd with
    | zero => exact absurd hlt (Nat.lt_irrefl _)
    | one => exact absurd hlt (Nat.lt_irrefl _)
    | @node _ lo tl th h2 hl a c =>
      refine ⟨lo, hl, ho.1, ⟨?_, .low hp h2 hl⟩, ⟨?_, .high hp h2 hl⟩, fun x => BT.cof_depth_lt x⟩
      · simp only [BT.cof, BT.level, if_true, Bool.false_eq_true, if_false]; exact a
      · simp only [BT.cof, BT.level, if_true]; exact c
  have lev_lt : ∀ {n : Nat} {t : BT}, Den k n t → BT.Ord k.varnum b t → ¬ n < 2 → t.level k.varnum < k.varnum := by
    intro n t hd ho hn
    cases hd with
    | zero => omega
    | one => omega
    | node => exact ho.2.1
  have lev_le : ∀ {t : BT}, BT.Ord k.varnum b t → t.level k.varnum ≤ k.varnum := by
    intro t ho
    cases t with
    | leaf x => exact Nat.le_refl _
    | node v lo hi => exact Nat.le_of_lt ho.2.1
  by_cases h1 : k.level l = k.level r
  · rw [if_pos h1]
    have hlt : tl.level k.varnum < k.varnum ∧ tr.level k.varnum < k.varnum := by
      have : tl.level k.varnum = tr.level k.varnum := by rw [← ll, ← lr]; exact h1
      rw [this]
      refine ⟨?_, ?_⟩ <;>
      · by_cases hr2 : r < 2
        · rw [← this]; exact lev_lt dl ol fun h => hc ⟨h, hr2⟩
        · exact lev_lt dr or' hr2
    have hv : tl.level k.varnum = tr.level k.varnum := by rw [← ll, ← lr]; exact h1
    obtain ⟨a, ea, ba, a1, a2, a3⟩ := kids dl ol pl hlt.1
    obtain ⟨c, ec, bc, c1, c2, c3⟩ := kids dr or' pr hlt.2
    rw [← hv] at c1 c2 c3
    refine ⟨l, a, c, k.high l, k.high r, tl.level k.varnum, by rw [ea, ec]; rfl, ll, pl, ba, hlt.1, Nat.le_refl _, Nat.le_of_eq hv, fun x => ?_, a1, c1, a2, c2⟩
    have := a3 x; have := c3 x; omega
  · rw [if_neg h1]
    by_cases h2 : k.level l < k.level r
    · rw [if_pos h2]
      rw [ll, lr] at h2
      have hlt : tl.level k.varnum < k.varnum := Nat.lt_of_lt_of_le h2 (lev_le or')
      obtain ⟨a, ea, ba, a1, a2, a3⟩ := kids dl ol pl hlt
      refine ⟨l, a, r, k.high l, r, tl.level k.varnum, by rw [ea]; rfl, ll, pl, ba, hlt, Nat.le_refl _, Nat.le_of_lt h2, fun x => ?_, a1, ⟨by rw [BT.cof_ne h2]; exact dr, pr⟩, a2, ⟨by rw [BT.cof_ne h2]; exact dr, pr⟩⟩
      have := a3 x; rw [BT.cof_ne h2]; omega
    · rw [if_neg h2]
      have h3 : tr.level k.varnum < tl.level k.varnum := by rw [← ll, ← lr]; omega
      have hlt : tr.level k.varnum < k.varnum := Nat.lt_of_lt_of_le h3 (lev_le ol)
      obtain ⟨a, ea, ba, a1, a2, a3⟩ := kids dr or' pr hlt
      refine ⟨r, l, a, l, k.high r, tr.level k.varnum, by rw [ea]; rfl, lr, pr, ba, hlt, Nat.le_of_lt h3, Nat.le_refl _, fun x => ?_, ⟨by rw [BT.cof_ne h3]; exact dl, pl⟩, a1, ⟨by rw [BT.cof_ne h3]; exact dl, pl⟩, a2⟩
      have := a3 x; rw [BT.cof_ne h3]; omega

theorem applyRec_ok (op : Opr) : ∀ (f : Nat) (k : Kernel V) (l r b : Nat) (tl tr : BT), KInv k → Den k l tl → Den k r tr → BT.Ord k.varnum b tl → BT.Ord k.varnum b tr → Prot k l → Prot k r →
    tl.depth + tr.depth < f → k.stack.length + (k.varnum - b) + 1 ≤ k.cap →
    ∃ x k', Kernel.applyRec op f l r k = some (x, k') ∧ KInv k' ∧ Keep k k' ∧ Is k' x fun σ => op.fn (tl.eval σ) (tr.eval σ) := by
  intro f
  induction f with
  | zero => intro k l r b tl tr _ _ _ _ _ _ _ h; omega
  | succ f ih =>
    intro k l r b tl tr hk dl dr ol or' pl pr hf hcap
    have Sl : Is k l fun σ => tl.eval σ := ⟨tl, dl, ol.mono (Nat.zero_le _), fun _ => rfl⟩
    have Sr : Is k r fun σ => tr.eval σ := ⟨tr, dr, or'.mono (Nat.zero_le _), fun _ => rfl⟩
    unfold Kernel.applyRec
    cases hsh : Kernel.short op l r with
    | some x => exact ⟨x, k, rfl, hk, .rfl, short_ok hsh Sl Sr⟩
    | none =>
    simp only
    by_cases hc : l < 2 ∧ r < 2
    · rw [if_pos hc]
      obtain ⟨x, hx, hs⟩ := table_ok (op := op) hc.1 hc.2 Sl Sr
      exact ⟨x, k, by rw [hx]; rfl, hk, .rfl, hs⟩
    rw [if_neg hc]
    by_cases he : (k.applyc.get (triple l r op.code)).a = some l ∧ (k.applyc.get (triple l r op.code)).b = r ∧ (k.applyc.get (triple l r op.code)).c = op.code
    · rw [if_pos he]
      refine ⟨_, k, rfl, hk, .rfl, ?_⟩
      rcases hk.ac (triple l r op.code % k.applyc.size) l he.1 with ⟨op', F, G, a, b, c, d⟩ | ⟨a, _⟩
      · have : op' = op := Opr.code_inj (a.symm.trans he.2.2)
        subst this
        have c : Is k r G := by
          have e : (k.applyc.tab (triple l r op'.code % k.applyc.size)).b = r := he.2.1
          rw [e] at c; exact c
        exact Sem.congr d fun σ => by rw [sem_fun b Sl σ, sem_fun c Sr σ]
      · exact (Opr.code_ne_not op (he.2.2.symm.trans a)).elim
    rw [if_neg he]
    obtain ⟨n, a1, b1, a2, b2, v, e1, hn, pn, hbv, hv, vl, vr, hdep, ⟨A1, P1⟩, ⟨B1, Q1⟩, ⟨A2, P2⟩, ⟨B2, Q2⟩⟩ := cofactors_ok hk dl dr ol or' pl pr hc
    have O1 : ∀ x, BT.Ord k.varnum (v + 1) (tl.cof v x) := BT.cof_ord ol vl
    have O2 : ∀ x, BT.Ord k.varnum (v + 1) (tr.cof v x) := BT.cof_ord or' vr
    have hind : ∀ x, Ind (v + 1) fun σ => op.fn ((tl.cof v x).eval σ) ((tr.cof v x).eval σ) := fun x σ τ h => by
      show op.fn _ _ = op.fn _ _
      rw [(O1 x).cg σ τ h, (O2 x).cg σ τ h]
    obtain ⟨y, k', r1, r2, r3, r4⟩ := two_ok (k := k) (c1 := fun k => Kernel.applyRec op f a1 b1 k) (c2 := fun k => Kernel.applyRec op f a2 b2 k) (fin := fun a b k => k.makeNode (k.level n) a b)
      (F1 := fun σ => op.fn ((tl.cof v false).eval σ) ((tr.cof v false).eval σ)) (F2 := fun σ => op.fn ((tl.cof v true).eval σ) ((tr.cof v true).eval σ)) (F := fun σ => op.fn (tl.eval σ) (tr.eval σ))
      (by omega)
      (ih k a1 b1 (v + 1) _ _ hk A1 B1 (O1 _) (O2 _) P1 Q1 (by have := hdep false; omega) (by omega))
      (fun x1 k2 I2 G2 s2 => by
        refine ih k2 a2 b2 (v + 1) _ _ I2 (A2.ge G2 P2) (B2.ge G2 Q2) (by rw [G2.varnum]; exact O1 _) (by rw [G2.varnum]; exact O2 _) (G2.prot _ P2) (G2.prot _ Q2) (by have := hdep true; omega) ?_
        rw [s2, G2.varnum, G2.cap, List.length_cons]; omega)
      (fun x1 x2 k4 I4 G4 s4 S1 S2 => by
        have hlev : k4.level n = v := (G4.same n pn).1.trans hn
        simp only [hlev]
        refine fin_make I4 (by rw [G4.varnum]; exact hv) (.stk (by rw [s4]; simp)) (.stk (by rw [s4]; simp)) S1 S2 (hind _) (hind _) fun σ => ?_
        rw [BT.cof_eval ol σ (v := v), BT.cof_eval or' σ (v := v)]
        split <;> rfl)
    simp only [bind, Option.bind, e1, r1, pure]
    refine ⟨y, _, rfl, setApply_inv r2 fun bd => ?_, r3.trans (keep_of_eq rfl rfl rfl rfl rfl rfl rfl rfl rfl rfl rfl rfl), r4.dext (tabEq_apply k' _).dext⟩
    intro l' hl'
    cases hl'
    refine .inl ⟨op, _, _, rfl, ?_, ?_, r4⟩
    · rw [r3.varnum]; exact Sl.ge r3.toGe pl
    · rw [r3.varnum]; exact Sr.ge r3.toGe pr

/-! ### Negation -/

theorem notRec_ok : ∀ (f : Nat) (k : Kernel V) (r b : Nat) (t : BT), KInv k → Den k r t → BT.Ord k.varnum b t → Prot k r → t.depth < f → k.stack.length + (k.varnum - b) + 1 ≤ k.cap →
    ∃ x k', Kernel.notRec f r k = some (x, k') ∧ KInv k' ∧ Keep k k' ∧ Is k' x fun σ => !t.eval σ := by
  intro f
  induction f with
  | zero => intro k r b t _ _ _ _ h; omega
  | succ f ih =>
    intro k r b t hk dr or' pr hf hcap
    have Sr : Is k r fun σ => t.eval σ := ⟨t, dr, or'.mono (Nat.zero_le _), fun _ => rfl⟩
    unfold Kernel.notRec
    cases dr with
    | zero => exact ⟨1, k, by simp, hk, .rfl, is_true fun _ => rfl⟩
    | one => exact ⟨0, k, by simp, hk, .rfl, is_false fun _ => rfl⟩
    | @node _ lo tl th h2 hl dl dh =>
    rw [if_neg (by omega), if_neg (by omega)]
    simp only
    by_cases he : (k.applyc.get r).a = some r ∧ (k.applyc.get r).c = opNot
    · rw [if_pos he]
      refine ⟨_, k, rfl, hk, .rfl, ?_⟩
      rcases hk.ac (r % k.applyc.size) r he.1 with ⟨op', F, G, a, _⟩ | ⟨_, F, b, c⟩
      · exact (Opr.code_ne_not op' (a.symm.trans he.2)).elim
      · exact Sem.congr c fun σ => by rw [sem_fun b Sr σ]
    rw [if_neg he]
    obtain ⟨ob, ov', ol, oh⟩ := or'
    have plo : Prot k lo := .low pr h2 hl
    have phi : Prot k (k.high r) := .high pr h2 hl
    simp only [BT.depth] at hf
    obtain ⟨y, k', r1, r2, r3, r4⟩ := two_ok (k := k) (c1 := fun k => Kernel.notRec f lo k) (c2 := fun k => Kernel.notRec f (k.high r) k) (fin := fun a b k => k.makeNode (k.level r) a b)
      (F1 := fun σ => !tl.eval σ) (F2 := fun σ => !th.eval σ) (F := fun σ => !(BT.node (k.level r) tl th).eval σ) (by omega)
      (ih k lo (k.level r + 1) tl hk dl ol plo (by omega) (by omega))
      (fun x1 k2 I2 G2 s2 => by
        show ∃ x2 k3, Kernel.notRec f (k2.high r) k2 = _ ∧ _
        rw [(G2.same r pr).2.2]
        refine ih k2 (k.high r) (k.level r + 1) th I2 (dh.ge G2 phi) (by rw [G2.varnum]; exact oh) (G2.prot _ phi) (by omega) ?_
        rw [s2, G2.varnum, G2.cap, List.length_cons]; omega)
      (fun x1 x2 k4 I4 G4 s4 S1 S2 => by
        have hlev : k4.level r = k.level r := (G4.same r pr).1
        simp only [hlev]
        refine fin_make I4 (by rw [G4.varnum]; exact ov') (.stk (by rw [s4]; simp)) (.stk (by rw [s4]; simp)) S1 S2 (fun σ τ h => by show (!_) = !_; rw [ol.cg σ τ h]) (fun σ τ h => by show (!_) = !_; rw [oh.cg σ τ h]) fun σ => ?_
        simp only [BT.eval]; split <;> rfl)
    simp only [bind, Option.bind, hl, r1, pure]
    refine ⟨y, _, rfl, setApply_inv r2 fun bd => ?_, r3.trans (keep_of_eq rfl rfl rfl rfl rfl rfl rfl rfl rfl rfl rfl rfl), r4.dext (tabEq_apply k' _).dext⟩
    intro l' hl'
    cases hl'
    refine .inr ⟨rfl, _, ?_, r4⟩
    rw [r3.varnum]; exact Sr.ge r3.toGe pr

end Bdd
end Verif
