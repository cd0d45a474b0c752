import Verif.F.Factory

namespace Verif

/-! ### Caches -/

/-- The reverse map lists exactly the entries with their positions, and no two entries have
the same key. -/
structure CInv {α : Type} (same : α → α → Bool) (ty : FTy) (large : Bool) (c : Cache α) : Prop where
  map_eq : c.map = c.vec.zipIdx.map fun p => (p.1, (⟨ty, p.2, large⟩ : H))
  uniq : c.vec.Pairwise fun a b => same a b = false

structure IsEqv {α : Type} (same : α → α → Bool) : Prop where
  refl : ∀ a, same a a = true
  symm : ∀ a b, same a b = true → same b a = true
  trans : ∀ a b c, same a b = true → same b c = true → same a c = true

theorem isEqv_beq {α} [BEq α] [LawfulBEq α] : IsEqv (fun a b : α => a == b) :=
  ⟨fun a => by simp, fun a b h => by simp_all, fun a b c h h' => by simp_all⟩

theorem setEq_iff (a b : List H) : setEq a b = true ↔ ∀ x, x ∈ a ↔ x ∈ b := by
  simp only [setEq, Bool.and_eq_true, List.all_eq_true, decide_eq_true_eq]
  exact ⟨fun h x => ⟨h.1 x, h.2 x⟩, fun h => ⟨fun x => (h x).1, fun x => (h x).2⟩⟩

theorem isEqv_setEq : IsEqv setEq :=
  ⟨fun a => (setEq_iff a a).2 fun _ => Iff.rfl,
   fun a b h => (setEq_iff b a).2 fun x => ((setEq_iff a b).1 h x).symm,
   fun a b c h h' => (setEq_iff a c).2 fun x => ((setEq_iff a b).1 h x).trans ((setEq_iff b c).1 h' x)⟩

theorem isEqv_sameEquiv : IsEqv sameEquiv :=
  ⟨fun a => by simp [sameEquiv], fun a b h => by simp_all [sameEquiv], fun a b c h h' => by simp_all [sameEquiv]⟩

namespace CInv
variable {α : Type} {same : α → α → Bool} {ty : FTy} {large : Bool} {c : Cache α}

theorem empty : CInv same ty large (⟨[], []⟩ : Cache α) := ⟨rfl, .nil⟩

theorem mem_map (h : CInv same ty large c) (p : α × H) :
    p ∈ c.map ↔ ∃ i, c.vec[i]? = some p.1 ∧ p.2 = ⟨ty, i, large⟩ := by
  rw [h.map_eq, List.mem_map]
  constructor
  · rintro ⟨q, hq, rfl⟩
    exact ⟨q.2, by simpa using (List.mk_mem_zipIdx_iff_getElem?.1 (show (q.1, q.2) ∈ _ from hq)), rfl⟩
  · rintro ⟨i, hi, e⟩
    exact ⟨(p.1, i), List.mk_mem_zipIdx_iff_getElem?.2 hi, by rw [← e]⟩

theorem uniq' (h : CInv same ty large c) (E : IsEqv same) {i j : Nat} {a b : α} (hi : c.vec[i]? = some a)
    (hj : c.vec[j]? = some b) (hs : same a b = true) : i = j := by
  have hp := List.pairwise_iff_getElem.1 h.uniq
  obtain ⟨hi1, hi2⟩ := List.getElem?_eq_some_iff.1 hi
  obtain ⟨hj1, hj2⟩ := List.getElem?_eq_some_iff.1 hj
  rcases Nat.lt_trichotomy i j with hlt | rfl | hlt
  · have := hp i j hi1 hj1 hlt; rw [hi2, hj2, hs] at this; simp at this
  · rfl
  · have := hp j i hj1 hi1 hlt; rw [hi2, hj2, E.symm _ _ hs] at this; simp at this

theorem find_some (h : CInv same ty large c) (E : IsEqv same) {e : α} {i : Nat} {a : α} (hi : c.vec[i]? = some a)
    (hs : same a e = true) : c.find same e = some ⟨ty, i, large⟩ := by
  unfold Cache.find
  have hex : ∃ p ∈ c.map, same p.1 e = true := ⟨(a, ⟨ty, i, large⟩), (h.mem_map _).2 ⟨i, hi, rfl⟩, hs⟩
  obtain ⟨q, hq⟩ := Option.isSome_iff_exists.1 ((List.find?_isSome (p := fun p : α × H => same p.1 e)).2 hex)
  have h1 := List.find?_some hq
  obtain ⟨j, hj, ej⟩ := (h.mem_map q).1 (List.mem_of_find?_eq_some hq)
  have : j = i := h.uniq' E hj hi (E.trans _ _ _ h1 (E.symm _ _ hs))
  rw [hq, ← this]; simp [ej]

theorem find_iff (h : CInv same ty large c) (E : IsEqv same) (e : α) (x : H) :
    c.find same e = some x ↔ ∃ i a, c.vec[i]? = some a ∧ same a e = true ∧ x = ⟨ty, i, large⟩ := by
  constructor
  · intro hf
    unfold Cache.find at hf
    obtain ⟨q, hq, rfl⟩ := Option.map_eq_some_iff.1 hf
    have h1 := List.find?_some hq
    obtain ⟨j, hj, ej⟩ := (h.mem_map q).1 (List.mem_of_find?_eq_some hq)
    exact ⟨j, q.1, hj, h1, ej⟩
  · rintro ⟨i, a, hi, hs, rfl⟩
    exact h.find_some E hi hs

/-- `get_or_insert` returns the position of an entry with the wanted key. -/
theorem getOrInsert (h : CInv same ty large c) (E : IsEqv same) (e : α) :
    ∃ i a, (c.getOrInsert same ty large e).1 = ⟨ty, i, large⟩ ∧
      (c.getOrInsert same ty large e).2.vec[i]? = some a ∧ same a e = true ∧
      CInv same ty large (c.getOrInsert same ty large e).2 ∧
      ((c.getOrInsert same ty large e).2.vec = c.vec ∨
       ((c.getOrInsert same ty large e).2.vec = c.vec ++ [e] ∧ i = c.vec.length ∧ a = e)) := by
  unfold Cache.getOrInsert
  cases hf : c.find same e with
  | some x =>
    obtain ⟨i, a, hi, hs, rfl⟩ := (h.find_iff E e x).1 hf
    exact ⟨i, a, rfl, hi, hs, h, .inl rfl⟩
  | none =>
    refine ⟨c.vec.length, e, rfl, by simp, E.refl e, ⟨?_, ?_⟩, .inr ⟨rfl, rfl, rfl⟩⟩
    · simp only [h.map_eq, List.zipIdx_append, List.map_append]; simp
    · simp only
      rw [List.pairwise_append]
      refine ⟨h.uniq, by simp, ?_⟩
      intro a ha b hb
      rw [List.mem_singleton.1 hb]
      cases hs : same a e with
      | false => rfl
      | true =>
        obtain ⟨i, hi⟩ := List.mem_iff_getElem?.1 ha
        rw [h.find_some E hi hs] at hf; simp at hf

end CInv

theorem Cache.vec_prefix {α : Type} (same : α → α → Bool) (ty : FTy) (large : Bool) (e : α) (c : Cache α) :
    c.vec <+: (c.getOrInsert same ty large e).2.vec := by
  unfold Cache.getOrInsert
  split
  · exact List.prefix_rfl
  · exact List.prefix_append ..

/-! ### Extension of states -/

/-- All entry vectors are extended at the end only. -/
structure Ext (s s' : FF) : Prop where
  vars : s.vars.vec <+: s'.vars.vec
  ands : ∀ b, FF.sel s.ands b <+: FF.sel s'.ands b
  ors : ∀ b, FF.sel s.ors b <+: FF.sel s'.ors b
  nots : ∀ b, FF.sel s.nots b <+: FF.sel s'.nots b
  impls : ∀ b, FF.sel s.impls b <+: FF.sel s'.impls b
  equivs : ∀ b, FF.sel s.equivs b <+: FF.sel s'.equivs b
  ccs : s.ccs.vec <+: s'.ccs.vec
  pbcs : s.pbcs.vec <+: s'.pbcs.vec
  cnt : ∀ t, s.cnt t ≤ s'.cnt t

theorem Ext.refl (s : FF) : Ext s s :=
  ⟨List.prefix_rfl, fun _ => List.prefix_rfl, fun _ => List.prefix_rfl, fun _ => List.prefix_rfl,
   fun _ => List.prefix_rfl, fun _ => List.prefix_rfl, List.prefix_rfl, List.prefix_rfl, fun _ => Nat.le_refl _⟩

theorem Ext.trans {a b c : FF} (h : Ext a b) (h' : Ext b c) : Ext a c :=
  ⟨h.vars.trans h'.vars, fun x => (h.ands x).trans (h'.ands x), fun x => (h.ors x).trans (h'.ors x),
   fun x => (h.nots x).trans (h'.nots x), fun x => (h.impls x).trans (h'.impls x),
   fun x => (h.equivs x).trans (h'.equivs x), h.ccs.trans h'.ccs, h.pbcs.trans h'.pbcs,
   fun t => Nat.le_trans (h.cnt t) (h'.cnt t)⟩

theorem prefix_getElem? {α} {l l' : List α} (h : l <+: l') {i : Nat} {a : α} (hi : l[i]? = some a) : l'[i]? = some a := by
  obtain ⟨t, rfl⟩ := h
  have := (List.getElem?_eq_some_iff.1 hi).1
  rw [List.getElem?_append_left this, hi]

theorem Ext.unpack {s s' : FF} (h : Ext s s') {x : H} {n : Node} (hn : s.unpack x = some n) : s'.unpack x = some n := by
  unfold FF.unpack at hn ⊢
  split at hn <;> try exact hn
  · obtain ⟨a, ha, rfl⟩ := Option.map_eq_some_iff.1 hn; rw [prefix_getElem? (h.ands _) ha]; rfl
  · obtain ⟨a, ha, rfl⟩ := Option.map_eq_some_iff.1 hn; rw [prefix_getElem? (h.ors _) ha]; rfl
  · obtain ⟨a, ha, rfl⟩ := Option.map_eq_some_iff.1 hn; rw [prefix_getElem? (h.nots _) ha]; rfl
  · obtain ⟨a, ha, rfl⟩ := Option.map_eq_some_iff.1 hn; rw [prefix_getElem? (h.impls _) ha]; rfl
  · obtain ⟨a, ha, rfl⟩ := Option.map_eq_some_iff.1 hn; rw [prefix_getElem? (h.equivs _) ha]; rfl
  · split at hn
    · rename_i hl
      obtain ⟨a, ha, rfl⟩ := Option.map_eq_some_iff.1 hn; rw [if_pos hl, prefix_getElem? h.ccs ha]; rfl
    · simp at hn
  · split at hn
    · rename_i hl
      obtain ⟨a, ha, rfl⟩ := Option.map_eq_some_iff.1 hn; rw [if_pos hl, prefix_getElem? h.pbcs ha]; rfl
    · simp at hn

theorem dens_mono_of {s s' : FF} {fs : List Formula} (ih : ∀ f ∈ fs, ∀ h, Den s h f → Den s' h f) :
    ∀ hs, Dens s hs fs → Dens s' hs fs := by
  induction fs with
  | nil => intro hs h; cases hs <;> simp_all [Dens]
  | cons f fs ihs =>
    intro hs h
    cases hs with
    | nil => simp [Dens] at h
    | cons x hs =>
      simp only [Dens] at h ⊢
      exact ⟨ih f (by simp) x h.1, ihs (fun g hg => ih g (by simp [hg])) hs h.2⟩

theorem Ext.den {s s' : FF} (h : Ext s s') {f : Formula} : ∀ {x : H}, Den s x f → Den s' x f := by
  induction f using Formula.ind with
  | tru => intro x hx; simpa [Den] using hx
  | fls => intro x hx; simpa [Den] using hx
  | lit l => intro x hx; simpa [Den] using hx
  | not f ih =>
    intro x hx; simp only [Den] at hx ⊢
    obtain ⟨g, hg, hd⟩ := hx; exact ⟨g, h.unpack hg, ih hd⟩
  | impl a b iha ihb =>
    intro x hx; simp only [Den] at hx ⊢
    obtain ⟨g, k, hg, hd, hk⟩ := hx; exact ⟨g, k, h.unpack hg, iha hd, ihb hk⟩
  | equiv a b iha ihb =>
    intro x hx; simp only [Den] at hx ⊢
    obtain ⟨g, k, hg, hd, hk⟩ := hx; exact ⟨g, k, h.unpack hg, iha hd, ihb hk⟩
  | nary o fs ih =>
    intro x hx; simp only [Den] at hx ⊢
    obtain ⟨hs, hg, hd⟩ := hx
    exact ⟨hs, h.unpack hg, dens_mono_of (fun f hf y hy => ih f hf hy) hs hd⟩
  | cc c => intro x hx; simp only [Den] at hx ⊢; exact h.unpack hx
  | pbc p => intro x hx; simp only [Den] at hx ⊢; exact h.unpack hx

theorem Ext.dens {s s' : FF} (h : Ext s s') {fs : List Formula} {hs : List H} (hd : Dens s hs fs) : Dens s' hs fs :=
  dens_mono_of (fun _ _ _ hy => h.den hy) hs hd

theorem dens_length {s : FF} : ∀ {hs : List H} {fs : List Formula}, Dens s hs fs → hs.length = fs.length
  | [], [], _ => rfl
  | _ :: _, _ :: _, h => by simp only [Dens] at h; simp [dens_length h.2]
  | [], _ :: _, h => by simp [Dens] at h
  | _ :: _, [], h => by simp [Dens] at h

theorem dens_append {s : FF} : ∀ {hs : List H} {fs : List Formula} {hs' fs'}, Dens s hs fs → Dens s hs' fs' →
    Dens s (hs ++ hs') (fs ++ fs')
  | [], [], _, _, _, h' => h'
  | _ :: _, _ :: _, _, _, h, h' => by simp only [Dens] at h; exact ⟨h.1, dens_append h.2 h'⟩
  | [], _ :: _, _, _, h, _ => by simp [Dens] at h
  | _ :: _, [], _, _, h, _ => by simp [Dens] at h

theorem dens_mem {s : FF} : ∀ {hs : List H} {fs : List Formula}, Dens s hs fs → ∀ h ∈ hs, ∃ f ∈ fs, Den s h f
  | [], [], _ => by simp
  | x :: hs, f :: fs, h => by
    simp only [Dens] at h
    intro y hy
    rcases List.mem_cons.1 hy with rfl | hy
    · exact ⟨f, by simp, h.1⟩
    · obtain ⟨g, hg, hd⟩ := dens_mem h.2 y hy; exact ⟨g, by simp [hg], hd⟩
  | [], _ :: _, h => by simp [Dens] at h
  | _ :: _, [], h => by simp [Dens] at h

theorem dens_mem' {s : FF} : ∀ {hs : List H} {fs : List Formula}, Dens s hs fs → ∀ f ∈ fs, ∃ h ∈ hs, Den s h f
  | [], [], _ => by simp
  | x :: hs, f :: fs, h => by
    simp only [Dens] at h
    intro y hy
    rcases List.mem_cons.1 hy with rfl | hy
    · exact ⟨x, by simp, h.1⟩
    · obtain ⟨g, hg, hd⟩ := dens_mem' h.2 y hy; exact ⟨g, by simp [hg], hd⟩
  | [], _ :: _, h => by simp [Dens] at h
  | _ :: _, [], h => by simp [Dens] at h

/-! ### A handle denotes at most one tree -/

@[simp] theorem unpack_verum (s : FF) : s.unpack H.verum = some .tru := rfl
@[simp] theorem unpack_falsum (s : FF) : s.unpack H.falsum = some .fls := rfl
@[simp] theorem unpack_ofLit (s : FF) (l : Lit) : s.unpack (H.ofLit l) = some (.lit l) := by
  rcases l with ⟨v, p⟩; cases v <;> rfl

theorem ofLit_inj {a b : Lit} (h : H.ofLit a = H.ofLit b) : a = b := by
  have := (unpack_ofLit FF.empty a).symm.trans ((congrArg FF.empty.unpack h).trans (unpack_ofLit FF.empty b))
  simpa using this

/-- The top node of the denoted tree. -/
def headMatches : Node → Formula → Prop
  | .tru, .tru => True
  | .fls, .fls => True
  | .lit l, .lit l' => l = l'
  | .not _, .not _ => True
  | .impl _ _, .impl _ _ => True
  | .equiv _ _, .equiv _ _ => True
  | .nary o _, .nary o' _ => o = o'
  | .cc c, .cc c' => c = c'
  | .pbc c, .pbc c' => c = c'
  | _, _ => False

theorem den_unpack {s : FF} {x : H} {f : Formula} (h : Den s x f) : ∃ n, s.unpack x = some n ∧ headMatches n f := by
  cases f <;> simp only [Den] at h
  · subst h; exact ⟨_, unpack_verum s, trivial⟩
  · subst h; exact ⟨_, unpack_falsum s, trivial⟩
  · subst h; exact ⟨_, unpack_ofLit s _, rfl⟩
  · obtain ⟨g, hg, _⟩ := h; exact ⟨_, hg, trivial⟩
  · obtain ⟨g, k, hg, _⟩ := h; exact ⟨_, hg, trivial⟩
  · obtain ⟨g, k, hg, _⟩ := h; exact ⟨_, hg, trivial⟩
  · obtain ⟨g, hg, _⟩ := h; exact ⟨_, hg, rfl⟩
  · exact ⟨_, h, rfl⟩
  · exact ⟨_, h, rfl⟩

theorem dens_fun_of {s : FF} {fs : List Formula} (ih : ∀ f ∈ fs, ∀ h g, Den s h f → Den s h g → f = g) :
    ∀ hs gs, Dens s hs fs → Dens s hs gs → fs = gs := by
  induction fs with
  | nil => intro hs gs h h'; cases hs <;> cases gs <;> simp_all [Dens]
  | cons f fs ihs =>
    intro hs gs h h'
    cases hs with
    | nil => simp [Dens] at h
    | cons x hs =>
      cases gs with
      | nil => simp [Dens] at h'
      | cons g gs =>
        simp only [Dens] at h h'
        rw [ih f (by simp) x g h.1 h'.1, ihs (fun g hg => ih g (by simp [hg])) hs gs h.2 h'.2]

/-- A handle denotes at most one tree. -/
theorem den_fun {s : FF} {f : Formula} : ∀ {x : H} {g : Formula}, Den s x f → Den s x g → f = g := by
  induction f using Formula.ind with
  | not f ih =>
    intro x g h h'
    obtain ⟨n, hn, hm⟩ := den_unpack h'
    simp only [Den] at h
    obtain ⟨y, hy, hd⟩ := h
    rw [hy] at hn; cases hn
    cases g <;> simp only [headMatches] at hm
    simp only [Den] at h'
    obtain ⟨y', hy', hd'⟩ := h'
    rw [hy] at hy'; cases hy'
    rw [ih hd hd']
  | impl a b iha ihb =>
    intro x g h h'
    obtain ⟨n, hn, hm⟩ := den_unpack h'
    simp only [Den] at h
    obtain ⟨y, z, hy, hd, hz⟩ := h
    rw [hy] at hn; cases hn
    cases g <;> simp only [headMatches] at hm
    simp only [Den] at h'
    obtain ⟨y', z', hy', hd', hz'⟩ := h'
    rw [hy] at hy'; cases hy'
    rw [iha hd hd', ihb hz hz']
  | equiv a b iha ihb =>
    intro x g h h'
    obtain ⟨n, hn, hm⟩ := den_unpack h'
    simp only [Den] at h
    obtain ⟨y, z, hy, hd, hz⟩ := h
    rw [hy] at hn; cases hn
    cases g <;> simp only [headMatches] at hm
    simp only [Den] at h'
    obtain ⟨y', z', hy', hd', hz'⟩ := h'
    rw [hy] at hy'; cases hy'
    rw [iha hd hd', ihb hz hz']
  | nary o fs ih =>
    intro x g h h'
    obtain ⟨n, hn, hm⟩ := den_unpack h'
    simp only [Den] at h
    obtain ⟨hs, hy, hd⟩ := h
    rw [hy] at hn; cases hn
    cases g <;> simp only [headMatches] at hm
    subst hm
    simp only [Den] at h'
    obtain ⟨hs', hy', hd'⟩ := h'
    rw [hy] at hy'; cases hy'
    rw [dens_fun_of (fun f hf x g h h' => ih f hf h h') hs _ hd hd']
  | tru =>
    intro x g h h'
    obtain ⟨n, hn, hm⟩ := den_unpack h'
    simp only [Den] at h; subst h
    rw [unpack_verum] at hn; cases hn
    cases g <;> simp only [headMatches] at hm
    rfl
  | fls =>
    intro x g h h'
    obtain ⟨n, hn, hm⟩ := den_unpack h'
    simp only [Den] at h; subst h
    rw [unpack_falsum] at hn; cases hn
    cases g <;> simp only [headMatches] at hm
    rfl
  | lit l =>
    intro x g h h'
    obtain ⟨n, hn, hm⟩ := den_unpack h'
    simp only [Den] at h; subst h
    rw [unpack_ofLit] at hn; cases hn
    cases g <;> simp only [headMatches] at hm
    rw [hm]
  | cc c =>
    intro x g h h'
    obtain ⟨n, hn, hm⟩ := den_unpack h'
    simp only [Den] at h
    rw [h] at hn; cases hn
    cases g <;> simp only [headMatches] at hm
    rw [hm]
  | pbc c =>
    intro x g h h'
    obtain ⟨n, hn, hm⟩ := den_unpack h'
    simp only [Den] at h
    rw [h] at hn; cases hn
    cases g <;> simp only [headMatches] at hm
    rw [hm]

theorem dens_fun {s : FF} {hs : List H} {fs gs : List Formula} (h : Dens s hs fs) (h' : Dens s hs gs) : fs = gs :=
  dens_fun_of (fun _ _ _ _ h h' => den_fun h h') hs gs h h'

end Verif
