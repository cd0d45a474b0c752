import Verif.Bdd.Quant
/-
A new kernel, and reference counting.
-/
namespace Verif
namespace Bdd

variable {V : Type}

/-- The invariant only looks at the table above the constants. -/
theorem Inv.change {nv : Nat} {k k' : Kernel V} (h : Inv nv k) (size : k'.size = k.size) (hash : k'.hash = k.hash) (next : k'.next = k.next) (free : k'.free = k.free) (freenum : k'.freenum = k.freenum) (grow : k'.grow = k.grow)
    (tab : ∀ n, 2 ≤ n → k'.level n = k.level n ∧ k'.low n = k.low n ∧ k'.high n = k.high n) (refs : ∀ n, 0 < k'.ref n → Ok k n) (stk : ∀ n ∈ k'.stack, Ok k n)
    (ac : k'.applyc = k.applyc) (qc : k'.quantc = k.quantc) (mc : k'.miscc = k.miscc) : Inv nv k' := by
  have hal : ∀ n, Alloc k' n ↔ Alloc k n := fun n => by
    unfold Alloc; rw [size]
    constructor
    · rintro ⟨a, b, c⟩; rw [(tab n a).2.1] at c; exact ⟨a, b, c⟩
    · rintro ⟨a, b, c⟩; rw [← (tab n a).2.1] at c; exact ⟨a, b, c⟩
  have hok : ∀ n, Ok k n → Ok k' n := fun n hn => hn.imp id (hal n).2
  have hx : Dext k k' := dext_of fun n l h2 hl => by obtain ⟨a, b, c⟩ := tab n h2; exact ⟨a, b.trans hl, c⟩
  constructor
  · rw [size]; exact h.sz
  · have hib : ∀ b n, 2 ≤ n → (InBucket k' b n ↔ InBucket k b n) := fun b n h2 => by
      unfold InBucket Kernel.nodehash; obtain ⟨a, b, c⟩ := tab n h2; rw [a, b, c, size]
    refine ⟨fun b hb => ?_, ?_⟩
    · rw [size] at hb
      obtain ⟨c, h1, h2, h3⟩ := h.links.bucket b hb
      refine ⟨c, by rw [next, hash]; exact h1, h2, fun n => ?_⟩
      rw [h3]
      constructor
      · rintro ⟨a, b⟩; exact ⟨(hal n).2 a, (hib _ n a.1).2 b⟩
      · rintro ⟨a, b⟩; exact ⟨(hal n).1 a, (hib _ n a.1).1 b⟩
    · obtain ⟨c, h1, h2, h3, h4⟩ := h.links.freel
      refine ⟨c, by rw [next, free]; exact h1, h2, fun n => ?_, by rw [freenum]; exact h4⟩
      rw [h3, size]
      constructor
      · rintro ⟨a, b, c⟩; exact ⟨a, b, (tab n a).2.1.trans c⟩
      · rintro ⟨a, b, c⟩; exact ⟨a, b, (tab n a).2.1.symm.trans c⟩
  · intro n hn
    rw [size] at hn
    rw [(tab n (by have := h.sz; omega)).2.1]; exact h.out n hn
  · intro n l h2 hl
    obtain ⟨a, b, c⟩ := tab n h2
    rw [b] at hl
    rw [a, c]
    obtain ⟨p, q, r, s⟩ := h.kid n l h2 hl
    exact ⟨hok _ p, hok _ q, r, s⟩
  · intro n m hn hm h0 h1 h2 h3
    obtain ⟨a, b, c⟩ := tab n hn
    obtain ⟨a', b', c'⟩ := tab m hm
    rw [a, a'] at h1; rw [b, b'] at h2; rw [c, c'] at h3; rw [b] at h0
    exact h.uniq n m hn hm h0 h1 h2 h3
  · exact fun n hn => hok n (refs n hn)
  · exact fun n hn => hok n (stk n hn)
  · intro i; rw [ac]; exact (h.ac i).dext hx
  · intro i; rw [qc]; exact (h.qc i).dext hx
  · intro i; rw [mc]; exact (h.mc i).dext hx
  · rw [grow]; exact h.gr

/-! ### A new kernel -/

theorem free_chain {size : Nat} : ∀ (m n : Nat), n + m = size → 1 ≤ n → Chain (fun n => if n + 1 = size then 0 else n + 1) (if n = size then 0 else n) (List.range' n m)
  | 0, n, h, _ => by simp at h; subst h; simpa using Chain.nil
  | m + 1, n, h, h1 => by
    rw [if_neg (by omega), List.range'_succ]
    exact .cons (by omega) (free_chain m (n + 1) (by omega) (by omega))

theorem blank_inv {numVars size csize : Nat} {grow : Nat → Nat → Nat} (hs : 3 ≤ size) (hg : ∀ g n, n < grow g n) : Inv numVars (Kernel.blank numVars size csize grow : Kernel V) := by
  have hlow : ∀ n, 2 ≤ n → (Kernel.blank numVars size csize grow : Kernel V).low n = none := fun n hn => by simp only [Kernel.blank]; rw [if_neg (by omega)]
  constructor
  · show 2 ≤ size; omega
  · refine ⟨fun b _ => ⟨[], .nil, by simp, fun n => ?_⟩, ⟨List.range' 2 (size - 2), ?_, List.nodup_range', fun n => ?_, by simp [Kernel.blank]⟩⟩
    · simp only [List.not_mem_nil, false_iff]
      rintro ⟨⟨a, _, c⟩, _⟩
      rw [hlow n a] at c; simp at c
    · have := free_chain (size := size) (size - 2) 2 (by omega) (by omega)
      rw [if_neg (by omega)] at this
      exact this
    · rw [List.mem_range'_1]
      constructor
      · intro ⟨a, b⟩; exact ⟨a, by show n < size; omega, hlow n a⟩
      · intro ⟨a, b, _⟩; have : n < size := b; omega
  · exact fun n hn => hlow n (by have : size ≤ n := hn; omega)
  · intro n l h2 hl; rw [hlow n h2] at hl; cases hl
  · intro n m h2 _ h; rw [hlow n h2] at h; simp at h
  · intro n hn
    refine .inl ?_
    by_contra h
    have : (Kernel.blank numVars size csize grow : Kernel V).ref n = 0 := by simp only [Kernel.blank]; rw [if_neg h]
    omega
  · intro n hn; simp [Kernel.blank] at hn
  · intro i l hl; simp [Kernel.blank, Cache.new] at hl
  · intro i l hl; simp [Kernel.blank, Cache.new] at hl
  · intro i l hl; simp [Kernel.blank, Cache.new] at hl
  · exact hg

/-- The invariant of the loop in `new_with_num_vars`. -/
structure NewInv (nv i : Nat) (k : Kernel V) : Prop where
  inv : Inv nv k
  varnum : k.varnum = i
  stack : k.stack = []
  cap : k.cap = 2 * nv + 4
  idx : k.idx = []
  qset : ∀ i, k.qset i = 0
  rmax : ∀ n, k.ref n ≤ maxRef
  vr : ∀ i, i < k.varnum → (Den k (k.vars (2 * i)) (.node i (.leaf false) (.leaf true)) ∧ k.ref (k.vars (2 * i)) = maxRef) ∧
    (Den k (k.vars (2 * i + 1)) (.node i (.leaf true) (.leaf false)) ∧ k.ref (k.vars (2 * i + 1)) = maxRef)

theorem addVar_ok {nv i : Nat} {k : Kernel V} (h : NewInv nv i k) (hi : i < nv) : ∃ k', k.addVar i = some k' ∧ NewInv nv (i + 1) k' := by
  obtain ⟨p, k1, e1, i1, g1, d1⟩ := makeNode_ok h.inv (lvl := i) hi .zero .one (.const (by omega)) (.const (by omega))
  have hpush : k1.push p = some { k1 with stack := p :: k1.stack } := push_eq (by rw [g1.stack, h.stack, g1.cap, h.cap]; simp)
  have hx1 : Dext k1 { k1 with stack := p :: k1.stack } := (tabEq_stack k1 _).dext
  have i2 : Inv nv { k1 with stack := p :: k1.stack } := i1.change rfl rfl rfl rfl rfl rfl (fun _ _ => ⟨rfl, rfl, rfl⟩) i1.refs (fun n hn => by
    rcases List.mem_cons.1 hn with rfl | hn
    · exact i1.den_ok d1
    · exact i1.stk n hn) rfl rfl rfl
  obtain ⟨n, k3, e3, i3, g3, d3⟩ := makeNode_ok i2 (lvl := i) hi .one .zero (.const (by omega)) (.const (by omega))
  have dp3 : Den k3 p (BT.mk i (.leaf false) (.leaf true)) := (hx1 _ _ d1).ge g3.toGe (.stk (by simp))
  have hst : k3.stack = p :: [] := by rw [g3.stack]; show p :: k1.stack = _; rw [g1.stack, h.stack]
  have hpop : k3.pop 1 = some { k3 with stack := [] } := by
    unfold Kernel.pop; rw [hst]; simp
  unfold Kernel.addVar
  simp only [bind, Option.bind, e1, hpush, e3, hpop, pure]
  refine ⟨_, rfl, ?_⟩
  have hmk : BT.mk i (.leaf false) (.leaf true) = .node i (.leaf false) (.leaf true) := rfl
  have hmk' : BT.mk i (.leaf true) (.leaf false) = .node i (.leaf true) (.leaf false) := rfl
  rw [hmk] at dp3
  rw [hmk'] at d3
  have href3 : k3.ref = k.ref := by rw [g3.ref]; exact g1.ref
  have hvars3 : k3.vars = k.vars := by rw [g3.vars]; exact g1.vars
  have old : ∀ {m t}, k.ref m = maxRef → Den k m t → Den k3 m t := fun hm hd => by
    have d' := hd.ge g1.toGe (.ref (by rw [hm]; decide))
    exact (hx1 _ _ d').ge g3.toGe (.ref (by show 0 < k1.ref _; rw [g1.ref, hm]; decide))
  have hx : ∀ {m t} {k4 : Kernel V}, k4.level = k3.level → k4.low = k3.low → k4.high = k3.high → Den k3 m t → Den k4 m t := fun e1 e2 e3 hd =>
    dext_of (fun n l _ hl => by rw [e1, e2, e3]; exact ⟨rfl, hl, rfl⟩) _ _ hd
  have hrefm : ∀ m, k.ref m = maxRef → upd (upd k3.ref p maxRef) n maxRef m = maxRef := fun m hm => by
    by_cases h1 : m = n
    · rw [h1, upd_same]
    · rw [upd_ne h1]
      by_cases h2 : m = p
      · rw [h2, upd_same]
      · rw [upd_ne h2, href3]; exact hm
  refine ⟨i3.change rfl rfl rfl rfl rfl rfl (fun _ _ => ⟨rfl, rfl, rfl⟩) (fun m hm => ?_) (fun _ hn => by simp at hn) rfl rfl rfl, rfl, rfl, ?_, ?_, ?_, ?_, ?_⟩
  · have hm : 0 < upd (upd k3.ref p maxRef) n maxRef m := hm
    by_cases h1 : m = n
    · rw [h1]; exact i3.den_ok d3
    · rw [upd_ne h1] at hm
      by_cases h2 : m = p
      · rw [h2]; exact i3.den_ok dp3
      · rw [upd_ne h2] at hm; exact i3.refs m hm
  · show k3.cap = _; rw [g3.cap]; show k1.cap = _; rw [g1.cap, h.cap]
  · show k3.idx = _; rw [g3.idx]; show k1.idx = _; rw [g1.idx, h.idx]
  · intro j; show k3.qset j = _; rw [g3.qset]; show k1.qset j = _; rw [g1.qset, h.qset]
  · intro m
    show upd (upd k3.ref p maxRef) n maxRef m ≤ maxRef
    by_cases h1 : m = n
    · rw [h1, upd_same]; exact Nat.le_refl _
    · rw [upd_ne h1]
      by_cases h2 : m = p
      · rw [h2, upd_same]; exact Nat.le_refl _
      · rw [upd_ne h2, href3]; exact h.rmax m
  · intro j hj
    have hj : j < i + 1 := hj
    simp only
    by_cases hji : j = i
    · subst hji
      rw [upd_ne (by omega : 2 * j ≠ 2 * j + 1), upd_same, upd_same]
      refine ⟨⟨hx rfl rfl rfl dp3, ?_⟩, hx rfl rfl rfl d3, upd_same _ _ _⟩
      by_cases h1 : p = n
      · rw [h1, upd_same]
      · rw [upd_ne h1, upd_same]
    · have q1 : ∀ (a : Nat), a < 2 * i → upd (upd k3.vars (2 * i) p) (2 * i + 1) n a = k.vars a := fun a ha => by
        rw [upd_ne (by omega), upd_ne (by omega), hvars3]
      rw [q1 (2 * j) (by omega), q1 (2 * j + 1) (by omega)]
      obtain ⟨⟨a, b⟩, c, d⟩ := h.vr j (by rw [h.varnum]; omega)
      exact ⟨⟨hx rfl rfl rfl (old b a), hrefm _ b⟩, hx rfl rfl rfl (old d c), hrefm _ d⟩

theorem addVars_ok {nv : Nat} : ∀ (m i : Nat) (k : Kernel V), NewInv nv i k → i + m = nv → ∃ k', (List.range' i m).foldlM Kernel.addVar k = some k' ∧ NewInv nv nv k'
  | 0, i, k, h, e => by simp at e; subst e; exact ⟨k, rfl, h⟩
  | m + 1, i, k, h, e => by
    obtain ⟨k1, e1, h1⟩ := addVar_ok h (by omega)
    obtain ⟨k2, e2, h2⟩ := addVars_ok m (i + 1) k1 h1 (by omega)
    refine ⟨k2, ?_, h2⟩
    rw [List.range'_succ, List.foldlM_cons, e1]
    exact e2

/-- Handles in `H` are protected by as many references as they occur. -/
structure Pub (k : Kernel V) (H : List Nat) : Prop extends KInv k where
  capEq : k.cap = 2 * k.varnum + 4
  stkLen : k.stack.length ≤ k.varnum
  rc : ∀ n ∈ H, 2 ≤ n → k.ref n = maxRef ∨ H.count n ≤ k.ref n
  rmax : ∀ n, k.ref n ≤ maxRef
  idxNd : k.idx.Nodup
  idxLen : k.idx.length ≤ k.varnum

theorem new_ok {nv size csize : Nat} {grow : Nat → Nat → Nat} (hs : 3 ≤ size) (hg : ∀ g n, n < grow g n) : ∃ k : Kernel V, Kernel.new nv size csize grow = some k ∧ Pub k [] ∧ k.varnum = nv ∧ k.idx = [] := by
  obtain ⟨k, e, h⟩ := addVars_ok (V := V) (nv := nv) nv 0 (Kernel.blank nv size csize grow) ⟨blank_inv hs hg, rfl, rfl, rfl, rfl, fun _ => rfl, fun n => by simp only [Kernel.blank]; split <;> simp, fun i hi => by simp [Kernel.blank] at hi⟩ (by omega)
  rw [← List.range_eq_range'] at e
  unfold Kernel.new
  rw [e]
  refine ⟨{ k with level := upd (upd k.level 0 nv) 1 nv }, rfl, ?_, h.varnum, h.idx⟩
  have ht : ∀ n, 2 ≤ n → upd (upd k.level 0 nv) 1 nv n = k.level n := fun n hn => by rw [upd_ne (by omega), upd_ne (by omega)]
  have hx : Dext k { k with level := upd (upd k.level 0 nv) 1 nv } := dext_of fun n l h2 hl => ⟨ht n h2, hl, rfl⟩
  refine { toInv := ?_, l0 := ?_, l1 := ?_, vr := ?_, qs := ?_, capEq := ?_, stkLen := ?_, rc := ?_, rmax := ?_, idxNd := ?_, idxLen := ?_ }
  · show Inv k.varnum _
    rw [h.varnum]
    exact h.inv.change rfl rfl rfl rfl rfl rfl (fun n hn => ⟨ht n hn, rfl, rfl⟩) h.inv.refs h.inv.stk rfl rfl rfl
  · show upd (upd k.level 0 nv) 1 nv 0 = k.varnum
    rw [upd_ne (by omega), upd_same, h.varnum]
  · show upd (upd k.level 0 nv) 1 nv 1 = k.varnum
    rw [upd_same, h.varnum]
  · intro i hi
    obtain ⟨⟨a, b⟩, c, d⟩ := h.vr i hi
    exact ⟨⟨hx _ _ a, b⟩, hx _ _ c, d⟩
  · intro i; show (k.qset i).natAbs ≤ _; rw [h.qset]; simp
  · show k.cap = 2 * k.varnum + 4; rw [h.cap, h.varnum]
  · show k.stack.length ≤ _; rw [h.stack]; simp
  · intro n hn; simp at hn
  · exact h.rmax
  · show k.idx.Nodup; rw [h.idx]; simp
  · show k.idx.length ≤ _; rw [h.idx]; simp

/-! ### References -/

/-- What one public operation preserves: the handles keep their trees. -/
structure Adv (H : List Nat) (k k' : Kernel V) : Prop where
  varnum : k'.varnum = k.varnum
  idx : k.idx <+: k'.idx
  den : ∀ n, n < 2 ∨ n ∈ H → ∀ t, Den k n t → Den k' n t

theorem Adv.rfl {H : List Nat} {k : Kernel V} : Adv H k k := ⟨.refl _, List.prefix_rfl, fun _ _ _ h => h⟩
theorem Adv.trans {H : List Nat} {a b c : Kernel V} (h1 : Adv H a b) (h2 : Adv H b c) : Adv H a c :=
  ⟨h2.varnum.trans h1.varnum, h1.idx.trans h2.idx, fun n hn t h => h2.den n hn t (h1.den n hn t h)⟩
theorem Adv.sub {H H' : List Nat} {a b : Kernel V} (h : Adv H a b) (hs : ∀ n ∈ H', n ∈ H) : Adv H' a b := ⟨h.varnum, h.idx, fun n hn t => h.den n (hn.imp id (hs n)) t⟩

theorem Pub.prot {k : Kernel V} {H : List Nat} (h : Pub k H) {n : Nat} (hn : n < 2 ∨ n ∈ H) : Prot k n := by
  rcases hn with hn | hn
  · exact .const hn
  · rcases Nat.lt_or_ge n 2 with h2 | h2
    · exact .const h2
    · rcases h.rc n hn h2 with e | e
      · exact .ref (by rw [e]; decide)
      · have := List.count_pos_iff.2 hn
        exact .ref (by omega)

theorem Pub.adv {k k' : Kernel V} {H : List Nat} (h : Pub k H) (hk : KInv k') (hg : Ge k k') (hs : k'.stack.length ≤ k.varnum) : Pub k' H ∧ Adv H k k' :=
  ⟨{ toKInv := hk, capEq := by rw [hg.cap, hg.varnum]; exact h.capEq, stkLen := by rw [hg.varnum]; exact hs, rc := fun n hn h2 => by rw [hg.ref]; exact h.rc n hn h2, rmax := by rw [hg.ref]; exact h.rmax, idxNd := by rw [hg.idx]; exact h.idxNd, idxLen := by rw [hg.idx, hg.varnum]; exact h.idxLen },
   ⟨hg.varnum, by rw [hg.idx]; exact List.prefix_rfl, fun n hn t hd => hd.ge hg (h.prot hn)⟩⟩

theorem Pub.keep {k k' : Kernel V} {H : List Nat} (h : Pub k H) (hk : KInv k') (hg : Keep k k') : Pub k' H ∧ Adv H k k' := h.adv hk hg.toGe (by rw [hg.stack]; exact h.stkLen)

theorem Pub.initRef {k : Kernel V} {H : List Nat} (h : Pub k H) : Pub k.initRef H ∧ Adv H k k.initRef := by
  have hk : KInv k.initRef := stack_inv h.toKInv (s := []) (fun n hn => by simp at hn)
  exact ⟨{ toKInv := hk, capEq := h.capEq, stkLen := Nat.zero_le _, rc := h.rc, rmax := h.rmax, idxNd := h.idxNd, idxLen := h.idxLen }, ⟨rfl, List.prefix_rfl, fun _ _ _ hd => (tabEq_stack k []).dext _ _ hd⟩⟩

theorem dext_ref {k : Kernel V} (r : Nat → Nat) : Dext k { k with ref := r } := dext_of fun _ _ _ hl => ⟨rfl, hl, rfl⟩

theorem ref_kinv {k : Kernel V} (h : KInv k) {r : Nat → Nat} (h1 : ∀ n, 0 < r n → Ok k n) (h2 : ∀ n, k.ref n = maxRef → r n = maxRef) : KInv { k with ref := r } where
  toInv := h.toInv.change rfl rfl rfl rfl rfl rfl (fun _ _ => ⟨rfl, rfl, rfl⟩) h1 h.stk rfl rfl rfl
  l0 := h.l0
  l1 := h.l1
  vr i hi := by
    obtain ⟨⟨a, b⟩, c, d⟩ := h.vr i hi
    exact ⟨⟨dext_ref r _ _ a, h2 _ b⟩, dext_ref r _ _ c, h2 _ d⟩
  qs := h.qs

theorem addRef_ok {k : Kernel V} {H : List Nat} (h : Pub k H) {n : Nat} {t : BT} (hd : Den k n t) : ∃ k', k.addRef n = some k' ∧ Pub k' (n :: H) ∧ (∀ m t, Den k m t → Den k' m t) ∧ k'.varnum = k.varnum ∧ k'.idx = k.idx := by
  unfold Kernel.addRef
  by_cases hn : n < 2
  · rw [if_pos hn]
    refine ⟨k, rfl, { h with rc := fun m hm h2 => ?_ }, fun _ _ h => h, rfl, rfl⟩
    rcases List.mem_cons.1 hm with rfl | hm
    · omega
    · rw [List.count_cons_of_ne (by omega)]; exact h.rc m hm h2
  · have hok := h.den_ok hd
    obtain ⟨a, b, c⟩ : Alloc k n := hok.resolve_left hn
    rw [if_neg hn, if_pos ⟨b, c⟩]
    refine ⟨k.incRef n, rfl, ?_⟩
    unfold Kernel.incRef
    by_cases hlt : k.ref n < maxRef
    · rw [if_pos hlt]
      have hk : KInv { k with ref := upd k.ref n (k.ref n + 1) } := by
        refine ref_kinv h.toKInv (fun m hm => ?_) fun m hm => ?_
        · by_cases e : m = n
          · rw [e]; exact hok
          · rw [upd_ne e] at hm; exact h.refs m hm
        · by_cases e : m = n
          · rw [e] at hm; omega
          · rw [upd_ne e]; exact hm
      refine ⟨{ toKInv := hk, capEq := h.capEq, stkLen := h.stkLen, rc := fun m hm h2 => ?_, rmax := fun m => ?_, idxNd := h.idxNd, idxLen := h.idxLen }, dext_ref _, rfl, rfl⟩
      rotate_left
      · show upd k.ref n (k.ref n + 1) m ≤ _
        by_cases e : m = n
        · rw [e, upd_same]; omega
        · rw [upd_ne e]; exact h.rmax m
      show upd k.ref n (k.ref n + 1) m = maxRef ∨ _ ≤ upd k.ref n (k.ref n + 1) m
      by_cases e : m = n
      · subst e
        rw [upd_same, List.count_cons_self]
        by_cases hmem : m ∈ H
        · rcases h.rc m hmem h2 with h3 | h3 <;> omega
        · rw [List.count_eq_zero_of_not_mem hmem]; omega
      · rw [upd_ne e, List.count_cons_of_ne (Ne.symm e)]
        exact h.rc m ((List.mem_cons.1 hm).resolve_left e) h2
    · rw [if_neg hlt]
      -- references never exceed the maximum
      refine ⟨{ h with rc := fun m hm h2 => ?_ }, fun _ _ h => h, rfl, rfl⟩
      by_cases e : m = n
      · subst e
        have := h.rmax m
        exact .inl (by omega)
      · rw [List.count_cons_of_ne (Ne.symm e)]
        exact h.rc m ((List.mem_cons.1 hm).resolve_left e) h2

theorem delRef_ok {k : Kernel V} {H : List Nat} (h : Pub k H) {n : Nat} {t : BT} (hn : n ∈ H) (hd : Den k n t) : ∃ k', k.delRef n = some k' ∧ Pub k' (H.erase n) ∧ (∀ m t, Den k m t → Den k' m t) ∧ k'.varnum = k.varnum ∧ k'.idx = k.idx := by
  have hsub : ∀ m, m ∈ H.erase n → m ∈ H := fun m hm => List.mem_of_mem_erase hm
  have hle : ∀ m, (H.erase n).count m ≤ H.count m := fun m => (List.erase_sublist).count_le m
  unfold Kernel.delRef
  by_cases h2 : n < 2
  · rw [if_pos h2]
    refine ⟨k, rfl, { h with rc := fun m hm h2 => (h.rc m (hsub m hm) h2).imp id fun h => Nat.le_trans (hle m) h }, fun _ _ h => h, rfl, rfl⟩
  · have hok := h.den_ok hd
    obtain ⟨a, b, c⟩ : Alloc k n := hok.resolve_left h2
    have hpos : 0 < k.ref n := by
      rcases h.rc n hn a with e | e
      · rw [e]; decide
      · have := List.count_pos_iff.2 hn; omega
    rw [if_neg h2, if_pos ⟨b, c, hpos⟩]
    refine ⟨k.decRef n, rfl, ?_⟩
    unfold Kernel.decRef
    by_cases hlt : k.ref n ≠ maxRef ∧ k.ref n > 0
    · rw [if_pos hlt]
      have hk : KInv { k with ref := upd k.ref n (k.ref n - 1) } := by
        refine ref_kinv h.toKInv (fun m hm => ?_) fun m hm => ?_
        · by_cases e : m = n
          · rw [e]; exact hok
          · rw [upd_ne e] at hm; exact h.refs m hm
        · by_cases e : m = n
          · rw [e] at hm; exact (hlt.1 hm).elim
          · rw [upd_ne e]; exact hm
      refine ⟨{ toKInv := hk, capEq := h.capEq, stkLen := h.stkLen, rc := fun m hm h2 => ?_, rmax := fun m => ?_, idxNd := h.idxNd, idxLen := h.idxLen }, dext_ref _, rfl, rfl⟩
      · show upd k.ref n (k.ref n - 1) m = maxRef ∨ _ ≤ upd k.ref n (k.ref n - 1) m
        by_cases e : m = n
        · subst e
          rw [upd_same, List.count_erase_self]
          rcases h.rc m hn (by omega) with h3 | h3
          · exact (hlt.1 h3).elim
          · omega
        · rw [upd_ne e]
          exact (h.rc m (hsub m hm) h2).imp id fun h => Nat.le_trans (hle m) h
      · show upd k.ref n (k.ref n - 1) m ≤ _
        have := h.rmax n
        by_cases e : m = n
        · rw [e, upd_same]; omega
        · rw [upd_ne e]; exact h.rmax m
    · rw [if_neg hlt]
      exact ⟨{ h with rc := fun m hm h2 => (h.rc m (hsub m hm) h2).imp id fun h => Nat.le_trans (hle m) h }, fun _ _ h => h, rfl, rfl⟩

end Bdd
end Verif
