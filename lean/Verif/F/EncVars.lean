import Verif.Enc.PbClean
/-
Which variables the clauses returned by `encode` of constraints are about, through normalization and the caches.
-/
namespace Verif
open Formula

variable {V : Var → Prop}

theorem upd_vars {x : Var} {f : Int × Int → Int × Int} (hx : V x) : ∀ {m : VMap}, (∀ e ∈ m, V e.1) → ∀ e ∈ m.upd x f, V e.1
  | [], _, e, he => by rw [List.mem_singleton.1 he]; exact hx
  | (y, a) :: m, h, e, he => by
    unfold VMap.upd at he
    have hm : ∀ e ∈ m, V e.1 := fun e he => h e (List.mem_cons_of_mem _ he)
    split at he
    · rcases List.mem_cons.1 he with rfl | he
      · exact hx
      · exact hm e he
    · split at he
      · rcases List.mem_cons.1 he with rfl | he
        · exact hx
        · exact h e he
      · rcases List.mem_cons.1 he with rfl | he
        · exact h (y, a) List.mem_cons_self
        · exact upd_vars hx hm e he

theorem collect_vars : ∀ {ts : List (Lit × Int)} {m : VMap}, (∀ t ∈ ts, V t.1.v) → (∀ e ∈ m, V e.1) → ∀ e ∈ collect ts m, V e.1
  | [], _, _, h, e, he => h e he
  | t :: ts, m, ht, h, e, he =>
    collect_vars (ts := ts) (fun u hu => ht u (List.mem_cons_of_mem _ hu)) (upd_vars (ht t List.mem_cons_self) h) e he

theorem merge_vars : ∀ {m : VMap} {s : Int × List (Lit × Int)}, (∀ e ∈ m, V e.1) → (∀ t ∈ s.2, V t.1.v) → ∀ t ∈ (merge m s).2, V t.1.v
  | [], _, _, h, t, ht => h t ht
  | (x, a, b) :: m, s, h, hs, t, ht => by
    have hx : V x := h (x, a, b) List.mem_cons_self
    have hm : ∀ e ∈ m, V e.1 := fun e he => h e (List.mem_cons_of_mem _ he)
    unfold merge at ht
    split at ht
    · refine merge_vars hm (fun t ht => ?_) t ht
      rcases List.mem_append.1 ht with ht | ht
      · exact hs t ht
      · rw [List.mem_singleton.1 ht]; exact hx
    · refine merge_vars hm (fun t ht => ?_) t ht
      rcases List.mem_append.1 ht with ht | ht
      · exact hs t ht
      · rw [List.mem_singleton.1 ht]; exact hx

theorem normLoop_vars {sum : Int} : ∀ {fuel : Nat} {c : Int} {ts : List (Lit × Int)} {f : Formula}, (∀ t ∈ ts, V t.1.v) → normLoop sum fuel c ts = some f → ∀ v, Occ v f → V v
  | 0, _, _, _, _, e => by cases e
  | fuel + 1, c, ts, f, h, e => by
    unfold normLoop at e
    split at e
    · cases e; intro v hv; simp at hv
    · split at e
      · cases e; intro v hv; simp at hv
      · simp only at e
        split at e
        · refine normLoop_vars (fun t ht => ?_) e
          obtain ⟨u, hu, rfl⟩ := List.mem_map.1 ht
          exact h u hu
        · cases e
          intro v hv
          obtain ⟨t, ht, rfl⟩ := occ_mkPbc hv
          exact h t ht

theorem normalizeLe_vars {ts : List (Lit × Int)} {rhs : Int} {f : Formula} (h : ∀ t ∈ ts, V t.1.v) (e : normalizeLe ts rhs = some f) : ∀ v, Occ v f → V v := by
  unfold normalizeLe at e
  simp only at e
  refine normLoop_vars (fun t ht => ?_) e
  exact merge_vars (collect_vars (fun t ht => h t (List.mem_filter.1 ht).1) (fun e he => by cases he)) (fun t ht => by cases ht) t (List.mem_filter.1 ht).1

/-- Normalization introduces no variables. -/
theorem normalize_vars {C : Canon} {p : PBC} {f : Formula} (h : ∀ t ∈ p.terms, V t.1.v) (e : p.normalize C = some f) : ∀ v, Occ v f → V v := by
  have hn : ∀ t ∈ p.terms.map (fun t => (t.1, w64 (-t.2))), V t.1.v := by
    intro t ht
    obtain ⟨u, hu, rfl⟩ := List.mem_map.1 ht
    exact h u hu
  unfold PBC.normalize at e
  simp only at e
  split at e
  · split at e
    · rename_i f1 f2 e1 e2
      cases e
      intro v hv
      obtain ⟨g, hg, ho⟩ := occ_mkNary hv
      simp only [List.mem_cons, List.not_mem_nil, or_false] at hg
      rcases hg with rfl | rfl
      · exact normalizeLe_vars h e1 v ho
      · exact normalizeLe_vars hn e2 v ho
    · cases e
  · exact normalizeLe_vars h e
  · exact normalizeLe_vars h e
  · exact normalizeLe_vars hn e
  · exact normalizeLe_vars hn e

theorem insKeep_some {α β} [DecidableEq α] {m : α → Option β} {a : α} {b : β} {x : α} {y : β} (h : insKeep m a b x = some y) :
    m x = some y ∨ (x = a ∧ m a = none ∧ y = b) := by
  unfold insKeep at h
  split at h
  · rename_i e
    subst e
    cases hm : m x with
    | none => simp [hm] at h; exact .inr ⟨rfl, rfl, h.symm⟩
    | some z => simp [hm] at h; exact .inl (by rw [h])
  · exact .inl h

/-- An auxiliary variable of an encoding, with a number from `c0` on (or the placeholder of the model). -/
def EncAux (c0 : AuxTy → Nat) (v : Var) : Prop := (∃ k, c0 .cc ≤ k ∧ v = .aux .cc k) ∨ (∃ k, c0 .pb ≤ k ∧ v = .aux .pb k) ∨ v = .aux .tmp 0

/-- All clauses are about variables with `V` or auxiliary variables of encodings. -/
def OverV (c0 : AuxTy → Nat) (V : Var → Prop) (L : List Clause) : Prop := ∀ c ∈ L, ∀ l ∈ c, V l.v ∨ EncAux c0 l.v

/-- The encodings in the caches are about the variables of their constraints. -/
structure VarsInv (c0 : AuxTy → Nat) (w : World) : Prop where
  cnt : ∀ t, c0 t ≤ w.cnt t
  cc : ∀ c L, w.ccEnc c = some L → OverV c0 (· ∈ c.vars) L
  pbc : ∀ p L, w.pbcEnc p = some L → OverV c0 (fun v => ∃ t ∈ p.terms, t.1.v = v) L

variable {c0 : AuxTy → Nat}

theorem newPbVars (V : Var → Prop) : NewPbVars (fun v => V v ∨ EncAux c0 v) c0 where
  aux k hk := .inr (.inl ⟨k, hk, rfl⟩)
  tmp := .inr (.inr (.inr rfl))
  pb k hk := .inr (.inr (.inl ⟨k, hk, rfl⟩))

theorem cER_clean {P : Var → Prop} {c : AuxTy → Nat} (h : ∀ t, c0 t ≤ c t) : Clean P c0 (cER c) := ⟨h, fun c hc => by cases hc⟩

theorem OverV.mono {V W : Var → Prop} {L : List Clause} (h : OverV c0 V L) (hw : ∀ v, V v → W v) : OverV c0 W L := fun c hc l hl => (h c hc l hl).imp_left (hw _)

theorem encodeCc_vars {cfg : FCfg} {c : CC} {w w' : World} {L : List Clause} (h : VarsInv c0 w) (e : encodeCc cfg c w = some (L, w')) :
    VarsInv c0 w' ∧ OverV c0 (· ∈ c.vars) L := by
  unfold encodeCc at e
  split at e
  · rename_i L' hL
    cases e
    exact ⟨h, h.cc c _ hL⟩
  · split at e
    · rename_i s es
      cases e
      have k := encodeConstraint_clean (newPbVars (· ∈ c.vars)).toNewVars (cER_clean h.cnt) (fun v hv => .inl hv) es
      refine ⟨⟨k.cnt, fun d K hK => ?_, h.pbc⟩, k.cl⟩
      simp only at hK
      split at hK
      · rcases insKeep_some hK with hK | ⟨rfl, _, rfl⟩
        · exact h.cc d K hK
        · exact k.cl
      · exact h.cc d K hK
    · cases e

theorem encodeOps_vars {cfg : FCfg} {r : PBC → World → Option (List Clause × World)} {V : Var → Prop}
    (hr : ∀ p w w' L, VarsInv c0 w → r p w = some (L, w') → VarsInv c0 w' ∧ OverV c0 (fun v => ∃ t ∈ p.terms, t.1.v = v) L) :
    ∀ {fs : List Formula} {w w' : World} {L : List Clause}, VarsInv c0 w → (∀ f ∈ fs, ∀ v, Occ v f → V v) → encodeOps cfg r fs w = some (L, w') →
      VarsInv c0 w' ∧ OverV c0 V L
  | [], w, w', L, h, _, e => by
    cases e
    exact ⟨h, fun c hc => by cases hc⟩
  | f :: fs, w, w', L, h, hf, e => by
    unfold encodeOps at e
    split at e
    · cases e
    · rename_i L1 w1 e1
      have k : VarsInv c0 w1 ∧ OverV c0 V L1 := by
        split at e1
        · rename_i p
          obtain ⟨k1, k2⟩ := hr p _ _ _ h e1
          exact ⟨k1, k2.mono fun v hv => hf (.pbc p) List.mem_cons_self v ((occ_pbc ..).2 hv)⟩
        · rename_i c
          obtain ⟨k1, k2⟩ := encodeCc_vars h e1
          exact ⟨k1, k2.mono fun v hv => hf (.cc c) List.mem_cons_self v ((occ_cc ..).2 hv)⟩
        · cases e1
      split at e
      · cases e
      · rename_i L2 w2 e2
        cases e
        obtain ⟨g1, g2⟩ := encodeOps_vars hr k.1 (fun f hm => hf f (List.mem_cons_of_mem _ hm)) e2
        refine ⟨g1, fun c hc => ?_⟩
        rcases List.mem_append.1 hc with hc | hc
        · exact k.2 c hc
        · exact g2 c hc

theorem encodePb_vars {C : Canon} {cfg : FCfg} (n : Nat) : ∀ p w w' L, VarsInv c0 w → encodePb C cfg n p w = some (L, w') →
    VarsInv c0 w' ∧ OverV c0 (fun v => ∃ t ∈ p.terms, t.1.v = v) L := by
  induction n with
  | zero => intro p w w' L _ e; cases e
  | succ n ih =>
    intro p w w' L h e
    unfold encodePb at e
    have hv : ∀ t ∈ p.terms, ∃ u ∈ p.terms, u.1.v = t.1.v := fun t ht => ⟨t, ht, rfl⟩
    split at e
    · rename_i q eq
      obtain ⟨s, es, e⟩ := Option.map_eq_some_iff.1 e
      cases e
      have k := encodeInternal_clean (newPbVars fun v => ∃ t ∈ p.terms, t.1.v = v) (cER_clean h.cnt)
        (fun t ht => .inl (normalize_vars (V := fun v => ∃ u ∈ p.terms, u.1.v = v) hv eq _ ((occ_pbc ..).2 ⟨t, ht, rfl⟩))) es
      exact ⟨⟨k.cnt, h.cc, h.pbc⟩, k.cl⟩
    · rename_i c eq
      obtain ⟨k1, k2⟩ := encodeCc_vars h e
      exact ⟨k1, k2.mono fun v hv' => normalize_vars (V := fun v => ∃ u ∈ p.terms, u.1.v = v) hv eq v ((occ_cc ..).2 hv')⟩
    · rename_i fs eq
      exact encodeOps_vars ih h (fun f hf v ho => normalize_vars (V := fun v => ∃ u ∈ p.terms, u.1.v = v) hv eq v ((occ_nary ..).2 ⟨f, hf, ho⟩)) e
    · cases e
      exact ⟨h, fun c hc => by cases hc⟩
    · cases e
      exact ⟨h, fun c hc l hl => by rw [List.mem_singleton.1 hc] at hl; cases hl⟩
    · cases e

theorem encodePbc_vars {C : Canon} {cfg : FCfg} {p : PBC} {w w' : World} {L : List Clause} (h : VarsInv c0 w) (e : encodePbc C cfg p w = some (L, w')) :
    VarsInv c0 w' ∧ OverV c0 (fun v => ∃ t ∈ p.terms, t.1.v = v) L := by
  unfold encodePbc at e
  split at e
  · rename_i L' hL
    cases e
    exact ⟨h, h.pbc p _ hL⟩
  · split at e
    · cases e
    · rename_i L1 w1 e1
      cases e
      obtain ⟨k1, k2⟩ := encodePb_vars 2 p _ _ _ h e1
      refine ⟨⟨k1.cnt, k1.cc, fun d K hK => ?_⟩, k2⟩
      simp only at hK
      split at hK
      · rcases insKeep_some hK with hK | ⟨rfl, _, rfl⟩
        · exact k1.pbc d K hK
        · exact k2
      · exact k1.pbc d K hK

end Verif
