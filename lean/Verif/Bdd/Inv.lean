import Verif.Bdd.Links
/-
The kernel invariant, the meaning of node indices, and the node table
operations: garbage collection, resizing, node creation.
-/
namespace Verif
namespace Bdd

variable {V : Type}

/-- Constant or allocated node. -/
def Ok (k : Kernel V) (n : Nat) : Prop := n < 2 ∨ Alloc k n

/-- The decision tree below a node index. -/
inductive Den (k : Kernel V) : Nat → BT → Prop
  | zero : Den k 0 (.leaf false)
  | one : Den k 1 (.leaf true)
  | node {n l : Nat} {tl th : BT} : 2 ≤ n → k.low n = some l → Den k l tl → Den k (k.high n) th → Den k n (.node (k.level n) tl th)

/-- Node `n` stands for the function `F` of the first `nv` variables. -/
def Sem (nv : Nat) (k : Kernel V) (n : Nat) (F : (Nat → Bool) → Bool) : Prop := ∃ t, Den k n t ∧ BT.Ord nv 0 t ∧ ∀ σ, t.eval σ = F σ

/-- Meaning of an operator. -/
def Opr.fn : Opr → Bool → Bool → Bool
  | .and, a, b => a && b
  | .or, a, b => a || b
  | .imp, a, b => !a || b
  | .equiv, a, b => a == b

/-- The variables on the high chain of a tree. -/
def BT.hiLevels : BT → List Nat
  | .leaf _ => []
  | .node v _ hi => v :: hi.hiLevels

/-- The literals read off a tree by `varset2svartable`. -/
def BT.slits : BT → List (Nat × Bool)
  | .leaf _ => []
  | .node v lo hi => if lo = .leaf false then (v, true) :: hi.slits else (v, false) :: lo.slits

open Classical in
/-- Existential quantification over a set of variables. -/
noncomputable def exF (S : List Nat) (F : (Nat → Bool) → Bool) : (Nat → Bool) → Bool :=
  fun σ => decide (∃ τ : Nat → Bool, (∀ v, v ∉ S → τ v = σ v) ∧ F τ = true)

open Classical in
/-- Universal quantification over a set of variables. -/
noncomputable def faF (S : List Nat) (F : (Nat → Bool) → Bool) : (Nat → Bool) → Bool :=
  fun σ => decide (∀ τ : Nat → Bool, (∀ v, v ∉ S → τ v = σ v) → F τ = true)

/-- Override an assignment by literals. -/
def ov (L : List (Nat × Bool)) (σ : Nat → Bool) : Nat → Bool := fun v => (L.lookup v).getD (σ v)

/-- Number of models over the variables from the root's level on. -/
def BT.satc (nv : Nat) : BT → Nat
  | .leaf b => b.toNat
  | .node v lo hi => 2 ^ (lo.level nv - v - 1) * lo.satc nv + 2 ^ (hi.level nv - v - 1) * hi.satc nv

/-- Number of paths to the leaf `b`. -/
def BT.pathc (b : Bool) : BT → Nat
  | .leaf x => if x = b then 1 else 0
  | .node _ lo hi => lo.pathc b + hi.pathc b

/-- Validity of cache entries. -/
def ApplyOk (nv : Nat) (k : Kernel V) (e : Entry) : Prop := ∀ l, e.a = some l →
  (∃ op F G, e.c = Opr.code op ∧ Sem nv k l F ∧ Sem nv k e.b G ∧ Sem nv k e.res (fun σ => op.fn (F σ) (G σ))) ∨
  (e.c = opNot ∧ ∃ F, Sem nv k l F ∧ Sem nv k e.res (fun σ => !F σ))

def QuantOk (nv : Nat) (k : Kernel V) (e : Entry) : Prop := ∀ r, e.a = some r → ∃ var tv F, Den k var tv ∧ Sem nv k r F ∧
  ((e.c = var * 8 ∧ Sem nv k e.res (exF tv.hiLevels F)) ∨ (e.c = var * 8 + 1 ∧ Sem nv k e.res (faF tv.hiLevels F)))

def MiscOk (nv : Nat) (k : Kernel V) (e : Entry) : Prop := ∀ r, e.a = some r →
  (∃ var tv F, Den k var tv ∧ Sem nv k r F ∧ e.c = var * 8 + 1 ∧ Sem nv k e.res (fun σ => F (ov tv.slits σ))) ∨
  (∃ t, Den k r t ∧ ((e.c = 2 ∧ e.bdres = t.satc nv) ∨ (e.c = 4 ∧ e.bdres = t.pathc true) ∨ (e.c = 8 ∧ e.bdres = t.pathc false)))

/-- The invariant of the node table and the caches; `nv` bounds the levels. -/
structure Inv (nv : Nat) (k : Kernel V) : Prop where
  sz : 2 ≤ k.size
  links : Links k
  out : ∀ n, k.size ≤ n → k.low n = none
  kid : ∀ n l, 2 ≤ n → k.low n = some l → Ok k l ∧ Ok k (k.high n) ∧ l ≠ k.high n ∧ k.level n < nv
  uniq : ∀ n m, 2 ≤ n → 2 ≤ m → (k.low n).isSome → k.level n = k.level m → k.low n = k.low m → k.high n = k.high m → n = m
  refs : ∀ n, 0 < k.ref n → Ok k n
  stk : ∀ n ∈ k.stack, Ok k n
  ac : ∀ i, ApplyOk nv k (k.applyc.tab i)
  qc : ∀ i, QuantOk nv k (k.quantc.tab i)
  mc : ∀ i, MiscOk nv k (k.miscc.tab i)
  gr : ∀ g n, n < k.grow g n

/-- Constants, referenced nodes, stacked nodes and everything below them. -/
inductive Prot (k : Kernel V) : Nat → Prop
  | const {n : Nat} : n < 2 → Prot k n
  | ref {n : Nat} : 0 < k.ref n → Prot k n
  | stk {n : Nat} : n ∈ k.stack → Prot k n
  | low {n l : Nat} : Prot k n → 2 ≤ n → k.low n = some l → Prot k l
  | high {n l : Nat} : Prot k n → 2 ≤ n → k.low n = some l → Prot k (k.high n)

/-- `k'` preserves everything protected in `k`. -/
structure Ge (k k' : Kernel V) : Prop where
  varnum : k'.varnum = k.varnum
  cap : k'.cap = k.cap
  vars : k'.vars = k.vars
  idx : k'.idx = k.idx
  qset : k'.qset = k.qset
  qid : k'.qid = k.qid
  qlast : k'.qlast = k.qlast
  ref : k'.ref = k.ref
  same : ∀ n, Prot k n → k'.level n = k.level n ∧ k'.low n = k.low n ∧ k'.high n = k.high n
  prot : ∀ n, Prot k n → Prot k' n

structure Keep (k k' : Kernel V) : Prop extends Ge k k' where
  stack : k'.stack = k.stack

theorem Ge.rfl {k : Kernel V} : Ge k k := ⟨.refl _, .refl _, .refl _, .refl _, .refl _, .refl _, .refl _, .refl _, fun _ _ => ⟨.refl _, .refl _, .refl _⟩, fun _ h => h⟩
theorem Keep.rfl {k : Kernel V} : Keep k k := ⟨Ge.rfl, .refl _⟩

theorem Ge.trans {a b c : Kernel V} (h1 : Ge a b) (h2 : Ge b c) : Ge a c where
  varnum := h2.varnum.trans h1.varnum
  cap := h2.cap.trans h1.cap
  vars := h2.vars.trans h1.vars
  idx := h2.idx.trans h1.idx
  qset := h2.qset.trans h1.qset
  qid := h2.qid.trans h1.qid
  qlast := h2.qlast.trans h1.qlast
  ref := h2.ref.trans h1.ref
  same n hn := by
    obtain ⟨a1, a2, a3⟩ := h1.same n hn
    obtain ⟨b1, b2, b3⟩ := h2.same n (h1.prot n hn)
    exact ⟨b1.trans a1, b2.trans a2, b3.trans a3⟩
  prot n hn := h2.prot n (h1.prot n hn)

theorem Keep.trans {a b c : Kernel V} (h1 : Keep a b) (h2 : Keep b c) : Keep a c := ⟨h1.toGe.trans h2.toGe, h2.stack.trans h1.stack⟩

theorem prot_of_same {k k' : Kernel V} (href : k'.ref = k.ref) (hst : ∀ n ∈ k.stack, n ∈ k'.stack) (hs : ∀ n, Prot k n → k'.level n = k.level n ∧ k'.low n = k.low n ∧ k'.high n = k.high n) :
    ∀ n, Prot k n → Prot k' n := by
  intro n h
  induction h with
  | const h => exact .const h
  | ref h => exact .ref (by rw [href]; exact h)
  | stk h => exact .stk (hst _ h)
  | low h1 h2 h3 ih => exact .low ih h2 (by rw [(hs _ h1).2.1]; exact h3)
  | high h1 h2 h3 ih => rw [← (hs _ h1).2.2]; exact .high ih h2 (by rw [(hs _ h1).2.1]; exact h3)

theorem Den.ge {k k' : Kernel V} (hg : Ge k k') {n : Nat} {t : BT} (h : Den k n t) : Prot k n → Den k' n t := by
  induction h with
  | zero => exact fun _ => .zero
  | one => exact fun _ => .one
  | node h2 hl _ _ ih1 ih2 =>
    intro hp
    obtain ⟨a, b, c⟩ := hg.same _ hp
    rw [← a]
    exact .node h2 (by rw [b]; exact hl) (ih1 (.low hp h2 hl)) (by rw [c]; exact ih2 (.high hp h2 hl))

/-- All denotations carry over. -/
def Dext (k k' : Kernel V) : Prop := ∀ n t, Den k n t → Den k' n t

theorem dext_of {k k' : Kernel V} (h : ∀ n l, 2 ≤ n → k.low n = some l → k'.level n = k.level n ∧ k'.low n = some l ∧ k'.high n = k.high n) : Dext k k' := by
  intro n t hd
  induction hd with
  | zero => exact .zero
  | one => exact .one
  | node h2 hl _ _ ih1 ih2 =>
    obtain ⟨a, b, c⟩ := h _ _ h2 hl
    rw [← a]
    exact .node h2 b ih1 (by rw [c]; exact ih2)

theorem Sem.dext {nv : Nat} {k k' : Kernel V} (h : Dext k k') {n : Nat} {F : (Nat → Bool) → Bool} (hs : Sem nv k n F) : Sem nv k' n F := by
  obtain ⟨t, a, b⟩ := hs; exact ⟨t, h _ _ a, b⟩

theorem Sem.ge {nv : Nat} {k k' : Kernel V} (h : Ge k k') {n : Nat} {F : (Nat → Bool) → Bool} (hs : Sem nv k n F) (hp : Prot k n) : Sem nv k' n F := by
  obtain ⟨t, a, b⟩ := hs; exact ⟨t, a.ge h hp, b⟩

theorem ApplyOk.dext {nv : Nat} {k k' : Kernel V} (h : Dext k k') {e : Entry} (hs : ApplyOk nv k e) : ApplyOk nv k' e := by
  intro l hl
  rcases hs l hl with ⟨op, F, G, a, b, c, d⟩ | ⟨a, F, b, c⟩
  · exact .inl ⟨op, F, G, a, b.dext h, c.dext h, d.dext h⟩
  · exact .inr ⟨a, F, b.dext h, c.dext h⟩

theorem QuantOk.dext {nv : Nat} {k k' : Kernel V} (h : Dext k k') {e : Entry} (hs : QuantOk nv k e) : QuantOk nv k' e := by
  intro l hl
  obtain ⟨var, tv, F, a, b, c⟩ := hs l hl
  refine ⟨var, tv, F, h _ _ a, b.dext h, ?_⟩
  rcases c with ⟨c, d⟩ | ⟨c, d⟩
  · exact .inl ⟨c, d.dext h⟩
  · exact .inr ⟨c, d.dext h⟩

theorem MiscOk.dext {nv : Nat} {k k' : Kernel V} (h : Dext k k') {e : Entry} (hs : MiscOk nv k e) : MiscOk nv k' e := by
  intro l hl
  rcases hs l hl with ⟨var, tv, F, a, b, c, d⟩ | ⟨t, a, b⟩
  · exact .inl ⟨var, tv, F, h _ _ a, b.dext h, c, d.dext h⟩
  · exact .inr ⟨t, h _ _ a, b⟩

theorem den_fun {k : Kernel V} {n : Nat} {t : BT} (h : Den k n t) : ∀ {t' : BT}, Den k n t' → t = t' := by
  induction h with
  | zero => intro t' h'; cases h' with
    | zero => rfl
    | node h2 => omega
  | one => intro t' h'; cases h' with
    | one => rfl
    | node h2 => omega
  | node h2 hl _ _ ih1 ih2 =>
    intro t' h'
    cases h' with
    | zero => omega
    | one => omega
    | node _ hl' a b =>
      rw [hl] at hl'; cases hl'
      rw [ih1 a, ih2 b]

theorem den_leaf {k : Kernel V} {n : Nat} {b : Bool} (h : Den k n (.leaf b)) : n = b.toNat := by
  cases h <;> rfl

theorem Inv.den_inj {nv : Nat} {k : Kernel V} (hi : Inv nv k) {n : Nat} {t : BT} (h : Den k n t) : ∀ {m : Nat}, Den k m t → n = m := by
  induction h with
  | zero => intro m h'; exact (den_leaf h').symm
  | one => intro m h'; exact (den_leaf h').symm
  | @node n l tl th h2 hl _ _ ih1 ih2 =>
    intro m h'
    generalize ht : BT.node (k.level n) tl th = t at h'
    cases h' with
    | zero => cases ht
    | one => cases ht
    | node h2' hl' a b =>
      injection ht with e1 e2 e3
      subst e2; subst e3
      have := ih1 a
      have e4 := ih2 b
      subst this
      exact hi.uniq _ _ h2 h2' (by rw [hl]; rfl) e1 (hl.trans hl'.symm) e4

theorem Inv.den_red {nv : Nat} {k : Kernel V} (hi : Inv nv k) {n : Nat} {t : BT} (h : Den k n t) : t.Red := by
  induction h with
  | zero => trivial
  | one => trivial
  | node h2 hl a b ih1 ih2 =>
    refine ⟨fun e => ?_, ih1, ih2⟩
    subst e
    exact (hi.kid _ _ h2 hl).2.2.1 (hi.den_inj a b)

theorem Inv.den_ok {nv : Nat} {k : Kernel V} (hi : Inv nv k) {n : Nat} {t : BT} (h : Den k n t) : Ok k n := by
  cases h with
  | zero => exact .inl (by omega)
  | one => exact .inl (by omega)
  | node h2 hl a b =>
    refine .inr ⟨h2, ?_, by rw [hl]; rfl⟩
    rcases Nat.lt_or_ge n k.size with h | h
    · exact h
    · rw [hi.out n h] at hl; cases hl

/-- Canonicity at the level of node indices. -/
theorem Inv.sem_inj {nv : Nat} {k : Kernel V} (hi : Inv nv k) {n m : Nat} {F G : (Nat → Bool) → Bool} (h1 : Sem nv k n F) (h2 : Sem nv k m G) (he : ∀ σ, F σ = G σ) : n = m := by
  obtain ⟨t, a, b, c⟩ := h1
  obtain ⟨t', a', b', c'⟩ := h2
  have := BT.canonical nv (Nat.sub_le _ _) b b' (hi.den_red a) (hi.den_red a') fun σ => by rw [c, c', he]
  subst this
  exact hi.den_inj a a'

theorem sem_fun {nv : Nat} {k : Kernel V} {n : Nat} {F G : (Nat → Bool) → Bool} (h1 : Sem nv k n F) (h2 : Sem nv k n G) (σ : Nat → Bool) : F σ = G σ := by
  obtain ⟨t, a, b, c⟩ := h1
  obtain ⟨t', a', b', c'⟩ := h2
  rw [den_fun a a'] at c
  rw [← c, ← c']

theorem Sem.congr {nv : Nat} {k : Kernel V} {n : Nat} {F G : (Nat → Bool) → Bool} (h1 : Sem nv k n F) (h : ∀ σ, F σ = G σ) : Sem nv k n G := by
  obtain ⟨t, a, b, c⟩ := h1
  exact ⟨t, a, b, fun σ => by rw [c, h]⟩

/-! ### Marking -/

theorem countP_lt {p q : Nat → Bool} (hpq : ∀ x, p x = true → q x = true) {i : Nat} (hp : p i = false) (hq : q i = true) : ∀ {l : List Nat}, i ∈ l → l.countP p < l.countP q
  | [], h => by cases h
  | x :: l, h => by
    have hle : l.countP p ≤ l.countP q := List.countP_mono_left fun x _ => hpq x
    rw [List.countP_cons, List.countP_cons]
    rcases List.mem_cons.1 h with rfl | h
    · simp only [hp, hq, if_true]; simp only [Bool.false_eq_true, if_false]; omega
    · have := countP_lt hpq hp hq h
      cases hx : p x with
      | false => simp only [Bool.false_eq_true, if_false]; split <;> omega
      | true => rw [hpq x hx]; simp only [if_true]; omega

/-- Unmarked indices. -/
def unm (k : Kernel V) (m : Nat → Bool) : Nat := (List.range k.size).countP fun x => !m x

/-- Children of `x` are constants or marked. -/
def Cl (k : Kernel V) (m : Nat → Bool) (x : Nat) : Prop := ∀ l, k.low x = some l → (l < 2 ∨ m l = true) ∧ (k.high x < 2 ∨ m (k.high x) = true)

theorem Cl.mono {k : Kernel V} {m m' : Nat → Bool} (h : ∀ x, m x = true → m' x = true) {x : Nat} (hc : Cl k m x) : Cl k m' x := fun l hl =>
  ⟨(hc l hl).1.imp id (h _), (hc l hl).2.imp id (h _)⟩

/-- Specification of marking: `P` is any set closed under children. -/
structure Marked (k : Kernel V) (P : Nat → Prop) (m m' : Nat → Bool) : Prop where
  mono : ∀ x, m x = true → m' x = true
  cl : ∀ x, m' x = true → m x = false → Cl k m' x ∧ Alloc k x ∧ P x

theorem Marked.trans {k : Kernel V} {P : Nat → Prop} {a b c : Nat → Bool} (h1 : Marked k P a b) (h2 : Marked k P b c) : Marked k P a c := by
  refine ⟨fun x hx => h2.mono x (h1.mono x hx), fun x hx hn => ?_⟩
  cases hb : b x with
  | true => obtain ⟨p, q⟩ := h1.cl x hb hn; exact ⟨p.mono h2.mono, q⟩
  | false => exact h2.cl x hx hb

theorem unm_le {k : Kernel V} {m m' : Nat → Bool} (h : ∀ x, m x = true → m' x = true) : unm k m' ≤ unm k m := by
  refine List.countP_mono_left fun x _ hx => ?_
  cases hm : m x with
  | false => rfl
  | true => rw [h x hm] at hx; simp at hx

theorem mark_ok {nv : Nat} {k : Kernel V} (hi : Inv nv k) {P : Nat → Prop} (hP : ∀ n l, 2 ≤ n → k.low n = some l → P n → P l ∧ P (k.high n)) :
    ∀ (f : Nat) (m : Nat → Bool) (i : Nat), unm k m < f → Ok k i → P i → ∃ m', k.mark f m i = some m' ∧ Marked k P m m' ∧ (i < 2 ∨ m' i = true) := by
  intro f
  induction f with
  | zero => intro m i h; omega
  | succ f ih =>
    intro m i hf hok hp
    unfold Kernel.mark
    by_cases h2 : i < 2
    · rw [if_pos h2]; exact ⟨m, rfl, ⟨fun _ h => h, fun x h h' => by rw [h] at h'; cases h'⟩, .inl h2⟩
    rw [if_neg h2]
    cases hm : m i with
    | true => rw [if_pos rfl]; exact ⟨m, rfl, ⟨fun _ h => h, fun x h h' => by rw [h] at h'; cases h'⟩, .inr hm⟩
    | false =>
      rw [if_neg (by simp)]
      rcases hok with hok | hok
      · omega
      obtain ⟨_, hsz, hsome⟩ := hok
      obtain ⟨l, hl⟩ := Option.isSome_iff_exists.1 hsome
      rw [hl]
      obtain ⟨k1, k2, _, _⟩ := hi.kid i l (by omega) hl
      obtain ⟨p1, p2⟩ := hP i l (by omega) hl hp
      have hmono : ∀ x, m x = true → upd m i true x = true := fun x hx => by
        unfold upd; split
        · rfl
        · exact hx
      have hlt : unm k (upd m i true) < unm k m := by
        refine countP_lt (i := i) (fun x hx => ?_) (by simp) (by simp [hm]) (List.mem_range.2 hsz)
        cases hmx : m x with
        | false => rfl
        | true => rw [hmono x hmx] at hx; simp at hx
      obtain ⟨m1, e1, M1, c1⟩ := ih (upd m i true) l (by omega) k1 p1
      obtain ⟨m2, e2, M2, c2⟩ := ih m1 (k.high i) (by have := unm_le (k := k) M1.mono; omega) k2 p2
      have hi2 : m2 i = true := M2.mono _ (M1.mono _ (by simp))
      refine ⟨m2, ?_, ⟨fun x hx => M2.mono _ (M1.mono _ (hmono x hx)), fun x hx hn => ?_⟩, .inr hi2⟩
      · simp only [bind, Option.bind, e1, e2]
      · by_cases hxi : x = i
        · subst hxi
          refine ⟨fun l' hl' => ?_, ⟨by omega, hsz, hsome⟩, hp⟩
          rw [hl] at hl'; cases hl'
          exact ⟨c1.imp id (M2.mono _), c2⟩
        · exact (M1.trans M2).cl x hx (by rw [upd_ne hxi]; exact hn)

theorem markAll_ok {nv : Nat} {k : Kernel V} (hi : Inv nv k) {P : Nat → Prop} (hP : ∀ n l, 2 ≤ n → k.low n = some l → P n → P l ∧ P (k.high n)) :
    ∀ (is : List Nat) (m : Nat → Bool), (∀ i ∈ is, Ok k i ∧ P i) → ∃ m', k.markAll m is = some m' ∧ Marked k P m m' ∧ ∀ i ∈ is, i < 2 ∨ m' i = true
  | [], m, _ => ⟨m, rfl, ⟨fun _ h => h, fun x h h' => by rw [h] at h'; cases h'⟩, by simp⟩
  | i :: is, m, h => by
    have hle : unm k m < k.size + 1 := by
      have := List.countP_le_length (p := fun x => !m x) (l := List.range k.size)
      rw [List.length_range] at this
      unfold unm; omega
    obtain ⟨m1, e1, M1, c1⟩ := mark_ok hi hP (k.size + 1) m i hle (h i (by simp)).1 (h i (by simp)).2
    obtain ⟨m2, e2, M2, c2⟩ := markAll_ok hi hP is m1 fun j hj => h j (by simp [hj])
    refine ⟨m2, ?_, M1.trans M2, fun j hj => ?_⟩
    · simp only [Kernel.markAll, bind, Option.bind, e1, e2]
    · rcases List.mem_cons.1 hj with rfl | hj
      · exact c1.imp id (M2.mono _)
      · exact c2 j hj

theorem Inv.prot_ok {nv : Nat} {k : Kernel V} (hi : Inv nv k) {n : Nat} (h : Prot k n) : Ok k n := by
  induction h with
  | const h => exact .inl h
  | ref h => exact hi.refs _ h
  | stk h => exact hi.stk _ h
  | low _ h2 h3 _ => exact (hi.kid _ _ h2 h3).1
  | high _ h2 h3 _ => exact (hi.kid _ _ h2 h3).2.1

/-! ### Garbage collection -/

/-- After a collection: the invariant, everything protected unchanged, exactly
the unprotected nodes freed, caches empty. -/
theorem gbc_ok {nv : Nat} {k : Kernel V} (hi : Inv nv k) : ∃ k', k.gbc = some k' ∧ Inv nv k' ∧ Keep k k' ∧ k'.size = k.size ∧ (∀ n, 2 ≤ n → (Alloc k' n ↔ Prot k n)) := by
  have hP : ∀ n l, 2 ≤ n → k.low n = some l → Prot k n → Prot k l ∧ Prot k (k.high n) := fun n l h2 hl hp => ⟨.low hp h2 hl, .high hp h2 hl⟩
  obtain ⟨m1, e1, M1, c1⟩ := markAll_ok hi hP k.stack.reverse (fun _ => false) fun i hx => by
    have hx := List.mem_reverse.1 hx
    exact ⟨hi.stk i hx, .stk hx⟩
  obtain ⟨m, e2, M2, c2⟩ := markAll_ok hi hP ((List.range k.size).filter fun n => 0 < k.ref n) m1 fun i hx => by
    have hx := (List.mem_filter.1 hx).2
    simp only [decide_eq_true_eq] at hx
    exact ⟨hi.refs i hx, .ref hx⟩
  have M := M1.trans M2
  have hroot : ∀ n, Prot k n → n < 2 ∨ m n = true := by
    intro n hn
    induction hn with
    | const h => exact .inl h
    | @ref n h =>
      rcases hi.refs _ h with h' | h'
      · exact .inl h'
      · exact c2 _ (List.mem_filter.2 ⟨List.mem_range.2 h'.2.1, by simpa using h⟩)
    | stk h => exact (c1 _ (List.mem_reverse.2 h)).imp id (M2.mono _)
    | low _ h2 hl ih => exact ((M.cl _ (ih.resolve_left (by omega)) rfl).1 _ hl).1
    | high _ h2 hl ih => exact ((M.cl _ (ih.resolve_left (by omega)) rfl).1 _ hl).2
  let k0 : Kernel V := { k with hash := fun _ => 0, free := 0, freenum := 0 }
  have hlink : Links (Kernel.relink m (k0.size - 1) k0) := Kernel.relink_links m (k0.size - 1) k0 (by have := hi.sz; show k.size - 1 < k.size; omega) (Kernel.linksFrom_start (fun _ => rfl) rfl rfl)
  have hreq := Kernel.relink_eq m (k0.size - 1) k0
  let k1 := Kernel.relink m (k0.size - 1) k0
  change Links k1 at hlink
  change Kernel.RelinkEq m (k0.size - 1) k0 k1 at hreq
  obtain ⟨q1, q2⟩ := hreq
  have fsize : k1.size = k.size := by rw [q1]
  have flevel : k1.level = k.level := by rw [q1]
  have fhigh : k1.high = k.high := by rw [q1]
  have fref : k1.ref = k.ref := by rw [q1]
  have fstack : k1.stack = k.stack := by rw [q1]
  have flow : ∀ i, 2 ≤ i → k1.low i = if m i = true then k.low i else none := by
    intro i h2
    rw [q2]
    cases hm : m i with
    | true => rw [if_neg (by simp), if_pos rfl]
    | false =>
      rw [if_neg (show ¬ (false = true) by simp)]
      rcases Nat.lt_or_ge i k.size with h | h
      · rw [if_pos ⟨h2, by show i ≤ k.size - 1; omega, rfl⟩]
      · rw [if_neg (by rintro ⟨_, a, _⟩; have : i ≤ k.size - 1 := a; omega)]; exact hi.out i h
  have flow0 : ∀ i, i < 2 → k1.low i = k.low i := fun i h => by rw [q2, if_neg (by omega)]
  let k' : Kernel V := { k1.resetCaches with gbcs := k1.gbcs + 1 }
  have hsome : ∀ n l, 2 ≤ n → k1.low n = some l → m n = true ∧ k.low n = some l := fun n l h2 hl => by
    rw [flow n h2] at hl; split at hl
    · rename_i h; exact ⟨h, hl⟩
    · cases hl
  have okk : ∀ n, n < 2 ∨ m n = true → Ok k1 n := by
    rintro n (h | h)
    · exact .inl h
    · obtain ⟨_, ⟨a, b, c⟩, _⟩ := M.cl n h rfl
      exact .inr ⟨a, by rw [fsize]; exact b, by rw [flow n a, if_pos h]; exact c⟩
  have hsame : ∀ n, Prot k n → k1.level n = k.level n ∧ k1.low n = k.low n ∧ k1.high n = k.high n := fun n hn => by
    rw [flevel, fhigh]
    refine ⟨rfl, ?_, rfl⟩
    rcases hroot n hn with h | h
    · exact flow0 n h
    · rw [flow n (M.cl n h rfl).2.1.1, if_pos h]
  refine ⟨k', ?_, ?_, ?_, fsize, fun n h2 => ?_⟩
  · simp only [Kernel.gbc, bind, Option.bind, e1, e2]; rfl
  · exact
    { sz := by show 2 ≤ k1.size; rw [fsize]; exact hi.sz
      links := ⟨hlink.bucket, hlink.freel⟩
      out := fun n hn => by
        show k1.low n = none
        have hn : k.size ≤ n := by rw [← fsize]; exact hn
        rw [flow n (by have := hi.sz; omega), hi.out n hn, ite_self]
      kid := fun n l h2 hl => by
        obtain ⟨hm, hl⟩ := hsome n l h2 hl
        obtain ⟨a, b, c, d⟩ := hi.kid n l h2 hl
        obtain ⟨p, q⟩ := (M.cl n hm rfl).1 l hl
        show Ok k1 l ∧ Ok k1 (k1.high n) ∧ l ≠ k1.high n ∧ k1.level n < nv
        rw [fhigh, flevel]
        exact ⟨okk _ p, okk _ q, c, d⟩
      uniq := fun n n' h2 h2' hs a b c => by
        obtain ⟨l, hl⟩ := Option.isSome_iff_exists.1 hs
        have hl' : k1.low n' = some l := b.symm.trans hl
        obtain ⟨_, r1⟩ := hsome n l h2 hl
        obtain ⟨_, r2⟩ := hsome n' l h2' hl'
        have a : k1.level n = k1.level n' := a
        have c : k1.high n = k1.high n' := c
        rw [flevel] at a; rw [fhigh] at c
        exact hi.uniq n n' h2 h2' (by rw [r1]; rfl) a (r1.trans r2.symm) c
      refs := fun n hn => okk n (hroot n (.ref (by have hn : 0 < k1.ref n := hn; rw [fref] at hn; exact hn)))
      stk := fun n hn => okk n (hroot n (.stk (by have hn : n ∈ k1.stack := hn; rw [fstack] at hn; exact hn)))
      ac := fun i l hl => by cases hl
      qc := fun i l hl => by cases hl
      mc := fun i l hl => by cases hl
      gr := fun g n => by show n < k1.grow g n; rw [q1]; exact hi.gr g n }
  · refine ⟨⟨by show k1.varnum = _; rw [q1], by show k1.cap = _; rw [q1], by show k1.vars = _; rw [q1], by show k1.idx = _; rw [q1], by show k1.qset = _; rw [q1], by show k1.qid = _; rw [q1], by show k1.qlast = _; rw [q1], fref, hsame, ?_⟩, fstack⟩
    exact prot_of_same (k' := k') fref (fun n hn => by show n ∈ k1.stack; rw [fstack]; exact hn) hsame
  · constructor
    · rintro ⟨a, b, c⟩
      obtain ⟨l, hl⟩ := Option.isSome_iff_exists.1 c
      exact (M.cl n (hsome n l a hl).1 rfl).2.2
    · intro hn
      have := okk n (hroot n hn)
      exact this.resolve_left (by omega)

/-! ### Resizing -/

theorem resize_ok {nv : Nat} {k : Kernel V} (hi : Inv nv k) : ∃ k', k.resize = some k' ∧ Inv nv k' ∧ Keep k k' ∧ k'.free ≠ 0 ∧ (∀ n, k'.level n = (if k.size ≤ n then 0 else k.level n) ∧ k'.low n = k.low n ∧ k'.high n = (if k.size ≤ n then 0 else k.high n)) := by
  have hg := hi.gr k.gbcs k.size
  generalize hn : k.grow k.gbcs k.size = N at hg
  let k0 : Kernel V := { k with size := N, ref := fun i => if k.size ≤ i then 0 else k.ref i, level := fun i => if k.size ≤ i then 0 else k.level i, low := fun i => if k.size ≤ i then none else k.low i, high := fun i => if k.size ≤ i then 0 else k.high i, hash := fun _ => 0, free := 0, freenum := 0 }
  let live : Nat → Bool := fun i => (k0.low i).isSome
  have hlink := Kernel.relink_links live (N - 1) k0 (by show N - 1 < N; omega) (Kernel.linksFrom_start (k := k0) (fun _ => rfl) rfl rfl)
  have hreq := Kernel.relink_eq live (N - 1) k0
  have heq : k.resize = some (Kernel.relink live (N - 1) k0) := by
    unfold Kernel.resize; rw [hn]; simp only; rw [if_neg (by omega)]
  rw [heq]
  generalize Kernel.relink live (N - 1) k0 = k1 at hlink hreq
  obtain ⟨q1, q2⟩ := hreq
  have fsize : k1.size = N := by rw [q1]
  have fref : k1.ref = k.ref := by
    rw [q1]; funext i; show (if k.size ≤ i then 0 else k.ref i) = _
    split
    · rename_i h
      rcases Nat.eq_zero_or_pos (k.ref i) with h0 | h0
      · exact h0.symm
      · have := hi.refs i h0
        rcases this with h1 | h1
        · have := hi.sz; omega
        · have := h1.2.1; omega
    · rfl
  have flow : ∀ i, k1.low i = k.low i := by
    intro i
    rw [q2]
    have e : k0.low i = k.low i := by
      show (if k.size ≤ i then none else k.low i) = _
      split
      · rename_i h; exact (hi.out i h).symm
      · rfl
    split
    · rename_i h
      have h := h.2.2
      change (k0.low i).isSome = false at h
      rw [e] at h
      rw [Option.isSome_eq_false_iff] at h
      have h : k.low i = none := by simpa using h
      exact h.symm
    · exact e
  have flevel : ∀ i, k1.level i = if k.size ≤ i then 0 else k.level i := fun i => by rw [q1]
  have fhigh : ∀ i, k1.high i = if k.size ≤ i then 0 else k.high i := fun i => by rw [q1]
  have fstack : k1.stack = k.stack := by rw [q1]
  have hlt : ∀ n l, 2 ≤ n → k.low n = some l → n < k.size := fun n l h2 hl => by
    rcases Nat.lt_or_ge n k.size with h | h
    · exact h
    · rw [hi.out n h] at hl; cases hl
  have hin : ∀ n, n < k.size → k1.level n = k.level n ∧ k1.high n = k.high n := fun n h => by
    rw [flevel, fhigh, if_neg (by omega), if_neg (by omega)]; exact ⟨rfl, rfl⟩
  have okk : ∀ n, Ok k n → Ok k1 n := by
    rintro n (h | ⟨a, b, c⟩)
    · exact .inl h
    · exact .inr ⟨a, by rw [fsize]; omega, by rw [flow]; exact c⟩
  have hdext : Dext k k1 := dext_of fun n l h2 hl => by
    obtain ⟨a, b⟩ := hin n (hlt n l h2 hl)
    exact ⟨a, by rw [flow]; exact hl, b⟩
  have hsame : ∀ n, Prot k n → k1.level n = k.level n ∧ k1.low n = k.low n ∧ k1.high n = k.high n := fun n hp => by
    have hs : n < k.size := by
      rcases hi.prot_ok hp with h | h
      · have := hi.sz; omega
      · exact h.2.1
    obtain ⟨a, b⟩ := hin n hs
    exact ⟨a, flow n, b⟩
  refine ⟨k1, rfl, ?_, ?_, ?_, fun n => ⟨flevel n, flow n, fhigh n⟩⟩
  · exact
    { sz := by rw [fsize]; have := hi.sz; omega
      links := hlink
      out := fun n hn => by rw [flow]; exact hi.out n (by rw [fsize] at hn; omega)
      kid := fun n l h2 hl => by
        rw [flow] at hl
        obtain ⟨a, b, c, d⟩ := hi.kid n l h2 hl
        obtain ⟨p, q⟩ := hin n (hlt n l h2 hl)
        rw [p, q]
        exact ⟨okk _ a, okk _ b, c, d⟩
      uniq := fun n n' h2 h2' hs a b c => by
        obtain ⟨l, hl⟩ := Option.isSome_iff_exists.1 hs
        have hl' : k1.low n' = some l := b.symm.trans hl
        rw [flow] at hl hl'
        obtain ⟨p, q⟩ := hin n (hlt n l h2 hl)
        obtain ⟨p', q'⟩ := hin n' (hlt n' l h2' hl')
        rw [p, p'] at a; rw [q, q'] at c
        exact hi.uniq n n' h2 h2' (by rw [hl]; rfl) a (hl.trans hl'.symm) c
      refs := fun n hn => okk n (hi.refs n (by rw [fref] at hn; exact hn))
      stk := fun n hn => okk n (hi.stk n (by rw [fstack] at hn; exact hn))
      ac := fun i => by
        have := (hi.ac i).dext hdext
        rw [q1] at this ⊢; exact this
      qc := fun i => by
        have := (hi.qc i).dext hdext
        rw [q1] at this ⊢; exact this
      mc := fun i => by
        have := (hi.mc i).dext hdext
        rw [q1] at this ⊢; exact this
      gr := fun g n => by rw [q1]; exact hi.gr g n }
  · refine ⟨⟨by rw [q1], by rw [q1], by rw [q1], by rw [q1], by rw [q1], by rw [q1], by rw [q1], fref, hsame, ?_⟩, fstack⟩
    exact prot_of_same fref (fun n hn => by rw [fstack]; exact hn) hsame
  · obtain ⟨c, h1, _, h3, _⟩ := hlink.freel
    have : k.size ∈ c := (h3 k.size).2 ⟨hi.sz, by rw [fsize]; omega, by rw [flow]; exact hi.out _ (Nat.le_refl _)⟩
    intro h0
    rw [h0] at h1
    cases h1 with
    | nil => cases this
    | cons ha _ => exact ha rfl

/-! ### Allocation and node creation -/

theorem alloc_ok {nv : Nat} {k : Kernel V} (hi : Inv nv k) {lvl lo hi' : Nat} (hf : k.free ≠ 0) (hlo : Ok k lo) (hhi : Ok k hi') (hne : lo ≠ hi') (hlv : lvl < nv)
    (hno : ∀ r, 2 ≤ r → ¬ (k.level r = lvl ∧ k.low r = some lo ∧ k.high r = hi')) :
    ∃ res k', k.alloc lvl lo hi' = some (res, k') ∧ Inv nv k' ∧ Keep k k' ∧ Dext k k' ∧ 2 ≤ res ∧ k'.low res = some lo ∧ k'.high res = hi' ∧ k'.level res = lvl := by
  obtain ⟨c, hc, hd, hm, hnum⟩ := hi.links.freel
  generalize hfr : k.free = res at hc hf
  cases hc with
  | nil => exact (hf rfl).elim
  | @cons _ c' ha hc' =>
  obtain ⟨r2, rs, rn⟩ := (hm res).1 List.mem_cons_self
  have hrc : res ∉ c' := (List.nodup_cons.1 hd).1
  let h := k.nodehash lvl lo hi'
  have hh : h < k.size := Kernel.nodehash_lt (by have := hi.sz; omega) _ _ _
  let k' : Kernel V := { k with free := k.next res, freenum := k.freenum - 1, level := upd k.level res lvl, low := upd k.low res (some lo), high := upd k.high res hi', next := upd k.next res (k.hash h), hash := upd k.hash h res }
  have hother : ∀ n, n ≠ res → k'.level n = k.level n ∧ k'.low n = k.low n ∧ k'.high n = k.high n := fun n hn => ⟨upd_ne hn, upd_ne hn, upd_ne hn⟩
  have hal : ∀ n, Ok k n → n ≠ res := by
    rintro n (hn | hn) rfl
    · omega
    · have := hn.2.2; rw [rn] at this; cases this
  have okk : ∀ n, Ok k n → Ok k' n := by
    intro n hn
    have hne := hal n hn
    rcases hn with hn | ⟨a, b, c⟩
    · exact .inl hn
    · exact .inr ⟨a, b, by rw [(hother n hne).2.1]; exact c⟩
  have hdext : Dext k k' := dext_of fun n l h2 hl => by
    have hn : n ≠ res := fun e => by rw [e, rn] at hl; cases hl
    obtain ⟨a, b, c⟩ := hother n hn
    exact ⟨a, b.trans hl, c⟩
  have hsame : ∀ n, Prot k n → k'.level n = k.level n ∧ k'.low n = k.low n ∧ k'.high n = k.high n := fun n hp => hother n (hal n (hi.prot_ok hp))
  refine ⟨res, k', ?_, ?_, ?_, hdext, r2, upd_same .., upd_same .., upd_same ..⟩
  · unfold Kernel.alloc; rw [hfr, if_neg hf]
  · exact
    { sz := hi.sz
      links := by
        refine ⟨fun b hb => ?_, ?_⟩
        · obtain ⟨cb, e1, e2, e3⟩ := hi.links.bucket b hb
          have hnb : res ∉ cb := fun hx => by have := ((e3 res).1 hx).1.2.2; rw [rn] at this; cases this
          have hbk : ∀ n, n ≠ res → ((Alloc k' n ∧ InBucket k' b n) ↔ (Alloc k n ∧ InBucket k b n)) := fun n hn => by
            obtain ⟨p, q, r⟩ := hother n hn
            unfold Alloc InBucket
            rw [p, q, r]; rfl
          by_cases hbh : b = h
          · refine ⟨res :: cb, ?_, List.nodup_cons.2 ⟨hnb, e2⟩, fun n => ?_⟩
            · show Chain (upd k.next res (k.hash h)) (upd k.hash h res b) _
              rw [hbh, upd_same]
              refine .cons (by omega) ?_
              rw [upd_same]; rw [hbh] at e1
              exact e1.upd hnb
            · rw [List.mem_cons]
              by_cases hn : n = res
              · subst hn
                simp only [true_or, true_iff]
                refine ⟨⟨r2, rs, ?_⟩, lo, upd_same .., ?_⟩
                · show (upd k.low n (some lo) n).isSome = true
                  rw [upd_same]; rfl
                · rw [hbh]
                  show k.nodehash (upd k.level n lvl n) lo (upd k.high n hi' n) = h
                  rw [upd_same, upd_same]
              · rw [hbk n hn, ← e3]
                exact ⟨fun x => x.resolve_left hn, .inr⟩
          · refine ⟨cb, ?_, e2, fun n => ?_⟩
            · show Chain (upd k.next res (k.hash h)) (upd k.hash h res b) _
              rw [upd_ne hbh]; exact e1.upd hnb
            · by_cases hn : n = res
              · subst hn
                refine ⟨fun x => (hnb x).elim, ?_⟩
                rintro ⟨_, l, hl, he⟩
                exfalso
                have hl : upd k.low n (some lo) n = some l := hl
                rw [upd_same] at hl; cases hl
                have he : k.nodehash (upd k.level n lvl n) lo (upd k.high n hi' n) = b := he
                rw [upd_same, upd_same] at he
                exact hbh he.symm
              · rw [hbk n hn]; exact e3 n
        · refine ⟨c', hc'.upd hrc, (List.nodup_cons.1 hd).2, fun n => ?_, ?_⟩
          · by_cases hn : n = res
            · subst hn
              refine ⟨fun x => (hrc x).elim, fun x => ?_⟩
              have hx : upd k.low n (some lo) n = none := x.2.2
              rw [upd_same] at hx; cases hx
            · rw [(hother n hn).2.1]
              have := hm n
              rw [List.mem_cons] at this
              exact ⟨fun x => this.1 (.inr x), fun x => (this.2 x).resolve_left hn⟩
          · show k.freenum - 1 = _
            rw [hnum]; simp
      out := fun n hn => by
        have hn : k.size ≤ n := hn
        rw [(hother n (by omega)).2.1]; exact hi.out n hn
      kid := fun n l h2 hl => by
        by_cases hn : n = res
        · subst hn
          have hl : upd k.low n (some lo) n = some l := hl
          rw [upd_same] at hl; cases hl
          show Ok k' lo ∧ Ok k' (upd k.high n hi' n) ∧ lo ≠ upd k.high n hi' n ∧ upd k.level n lvl n < nv
          rw [upd_same, upd_same]
          exact ⟨okk _ hlo, okk _ hhi, hne, hlv⟩
        · obtain ⟨p, q, r⟩ := hother n hn
          rw [q] at hl; rw [p, r]
          obtain ⟨a, b, c, d⟩ := hi.kid n l h2 hl
          exact ⟨okk _ a, okk _ b, c, d⟩
      uniq := fun n n' h2 h2' hs a b c => by
        by_cases hn : n = res
        · by_cases hn' : n' = res
          · rw [hn, hn']
          · exfalso
            obtain ⟨p, q, r⟩ := hother n' hn'
            rw [hn, p] at a; rw [hn, q] at b; rw [hn, r] at c
            have a : upd k.level res lvl res = _ := a
            have b : upd k.low res (some lo) res = _ := b
            have c : upd k.high res hi' res = _ := c
            rw [upd_same] at a b c
            exact hno n' h2' ⟨a.symm, b.symm, c.symm⟩
        · obtain ⟨p, q, r⟩ := hother n hn
          by_cases hn' : n' = res
          · exfalso
            rw [hn', p] at a; rw [hn', q] at b; rw [hn', r] at c
            have a : _ = upd k.level res lvl res := a
            have b : _ = upd k.low res (some lo) res := b
            have c : _ = upd k.high res hi' res := c
            rw [upd_same] at a b c
            exact hno n h2 ⟨a, b, c⟩
          · obtain ⟨p', q', r'⟩ := hother n' hn'
            rw [q] at hs
            rw [p, p'] at a; rw [q, q'] at b; rw [r, r'] at c
            exact hi.uniq n n' h2 h2' hs a b c
      refs := fun n hn => okk n (hi.refs n hn)
      stk := fun n hn => okk n (hi.stk n hn)
      ac := fun i => (hi.ac i).dext hdext
      qc := fun i => (hi.qc i).dext hdext
      mc := fun i => (hi.mc i).dext hdext
      gr := hi.gr }
  · exact ⟨⟨rfl, rfl, rfl, rfl, rfl, rfl, rfl, rfl, hsame, prot_of_same (k' := k') rfl (fun n hn => hn) hsame⟩, rfl⟩

/-- `make_node`: never fails, returns the reduced node. -/
theorem makeNode_ok {nv : Nat} {k : Kernel V} (hi : Inv nv k) {lvl lo hi' : Nat} {tl th : BT} (hlv : lvl < nv) (hlo : Den k lo tl) (hhi : Den k hi' th) (plo : Prot k lo) (phi : Prot k hi') :
    ∃ res k', k.makeNode lvl lo hi' = some (res, k') ∧ Inv nv k' ∧ Keep k k' ∧ Den k' res (BT.mk lvl tl th) := by
  unfold Kernel.makeNode
  by_cases he : lo = hi'
  · subst he
    have := den_fun hlo hhi
    subst this
    exact ⟨lo, k, by rw [if_pos rfl], hi, .rfl, by unfold BT.mk; rw [if_pos rfl]; exact hlo⟩
  rw [if_neg he]
  have hne : tl ≠ th := fun e => he (hi.den_inj hlo (e ▸ hhi))
  obtain ⟨c, hc, hd, hm⟩ := hi.links.bucket (k.nodehash lvl lo hi') (Kernel.nodehash_lt (by have := hi.sz; omega) _ _ _)
  have hlen : c.length ≤ k.size := length_le_of_lt hd fun x hx => ((hm x).1 hx).1.2.1
  rcases Kernel.find_chain (lvl := lvl) (lo := lo) (hi := hi') hc hlen with ⟨r, e, hr, a1, a2, a3⟩ | ⟨e, hno⟩
  · refine ⟨r, k, by rw [e]; rfl, hi, .rfl, ?_⟩
    unfold BT.mk; rw [if_neg hne, ← a1]
    exact .node ((hm r).1 hr).1.1 a2 hlo (by rw [a3]; exact hhi)
  · have hno' : ∀ r, 2 ≤ r → ¬ (k.level r = lvl ∧ k.low r = some lo ∧ k.high r = hi') := fun r h2 hx => by
      refine hno r ((hm r).2 ⟨⟨h2, ?_, by rw [hx.2.1]; rfl⟩, lo, hx.2.1, by rw [hx.1, hx.2.2]⟩) hx
      rcases Nat.lt_or_ge r k.size with h | h
      · exact h
      · rw [hi.out r h] at hx; cases hx.2.1
    rw [e]
    -- the allocation step in a state that keeps `k`
    have fin : ∀ k1 : Kernel V, Inv nv k1 → Keep k k1 → k1.free ≠ 0 → (∀ r, 2 ≤ r → ¬ (k1.level r = lvl ∧ k1.low r = some lo ∧ k1.high r = hi')) →
        ∃ res k', k1.alloc lvl lo hi' = some (res, k') ∧ Inv nv k' ∧ Keep k k' ∧ Den k' res (BT.mk lvl tl th) := by
      intro k1 i1 K1 f1 no1
      have d1 := hlo.ge K1.toGe plo
      have d2 := hhi.ge K1.toGe phi
      obtain ⟨res, k', p1, p2, p3, p4, p5, p6, p7, p8⟩ := alloc_ok i1 f1 (i1.den_ok d1) (i1.den_ok d2) he hlv no1
      refine ⟨res, k', p1, p2, K1.trans p3, ?_⟩
      unfold BT.mk; rw [if_neg hne, ← p8]
      exact .node p5 p6 (p4 _ _ d1) (by rw [p7]; exact p4 _ _ d2)
    by_cases hf : k.free = 0
    · obtain ⟨k1, g1, i1, K1, s1, al1⟩ := gbc_ok hi
      have no1 : ∀ r, 2 ≤ r → ¬ (k1.level r = lvl ∧ k1.low r = some lo ∧ k1.high r = hi') := fun r h2 hx => by
        have hp : Prot k r := (al1 r h2).1 ((i1.den_ok (n := r) (t := .node (k1.level r) tl th) (.node h2 hx.2.1 (hlo.ge K1.toGe plo) (by rw [hx.2.2]; exact hhi.ge K1.toGe phi))).resolve_left (by omega))
        obtain ⟨p, q, s⟩ := K1.same r hp
        exact hno' r h2 ⟨p ▸ hx.1, q ▸ hx.2.1, s ▸ hx.2.2⟩
      simp only [bind, Option.bind, hf, if_true, g1]
      by_cases hfn : k1.freenum * 100 / k1.size ≤ 20
      · obtain ⟨k2, g2, i2, K2, f2, fl⟩ := resize_ok i1
        rw [if_pos hfn, g2]
        refine fin k2 i2 (K1.trans K2) f2 fun r h2 hx => ?_
        obtain ⟨p, q, s⟩ := fl r
        have hlt : r < k1.size := by
          rcases Nat.lt_or_ge r k1.size with h | h
          · exact h
          · rw [q, i1.out r h] at hx; cases hx.2.1
        rw [if_neg (by omega)] at p s
        exact no1 r h2 ⟨p ▸ hx.1, q ▸ hx.2.1, s ▸ hx.2.2⟩
      · rw [if_neg hfn]
        refine fin k1 i1 K1 ?_ no1
        intro h0
        obtain ⟨c, c1, _, _, c4⟩ := i1.links.freel
        rw [h0] at c1
        cases c1 with
        | nil => rw [c4] at hfn; simp at hfn
        | cons ha _ => exact ha rfl
    · simp only [bind, Option.bind, hf, if_false]
      exact fin k hi .rfl hf hno'

end Bdd
end Verif
