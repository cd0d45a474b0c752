import Verif.Bdd.Ops
/-
Restriction and quantification on node indices.
-/
namespace Verif
namespace Bdd

variable {V : Type}

theorem tabEq_misc (k : Kernel V) (c : Cache) : TabEq k { k with miscc := c } := ⟨rfl, rfl, rfl, rfl, rfl, rfl, rfl, rfl, rfl, rfl, rfl, rfl⟩
theorem tabEq_quant (k : Kernel V) (c : Cache) : TabEq k { k with quantc := c } := ⟨rfl, rfl, rfl, rfl, rfl, rfl, rfl, rfl, rfl, rfl, rfl, rfl⟩
theorem tabEq_q (k : Kernel V) (q : Nat → Int) (i l : Nat) : TabEq k { k with qset := q, qid := i, qlast := l } := ⟨rfl, rfl, rfl, rfl, rfl, rfl, rfl, rfl, rfl, rfl, rfl, rfl⟩

theorem setMisc_inv {k : Kernel V} (h : KInv k) {hh l r c x : Nat} (he : ∀ bd, MiscOk k.varnum k ⟨some l, r, c, bd, x⟩) :
    KInv { k with miscc := k.miscc.setRes hh l r c x } := by
  refine h.tab (tabEq_misc k _) h.stk h.ac h.qc (fun i => ?_) h.qs
  show MiscOk _ _ (upd k.miscc.tab (hh % k.miscc.size) _ i)
  by_cases hi : i = hh % k.miscc.size
  · rw [hi, upd_same]; exact he _
  · rw [upd_ne hi]; exact h.mc i

theorem setMiscBd_inv {k : Kernel V} (h : KInv k) {hh l r c bd : Nat} (he : ∀ x, MiscOk k.varnum k ⟨some l, r, c, bd, x⟩) :
    KInv { k with miscc := k.miscc.setBd hh l r c bd } := by
  refine h.tab (tabEq_misc k _) h.stk h.ac h.qc (fun i => ?_) h.qs
  show MiscOk _ _ (upd k.miscc.tab (hh % k.miscc.size) _ i)
  by_cases hi : i = hh % k.miscc.size
  · rw [hi, upd_same]; exact he _
  · rw [upd_ne hi]; exact h.mc i

theorem setQuant_inv {k : Kernel V} (h : KInv k) {hh l r c x : Nat} (he : ∀ bd, QuantOk k.varnum k ⟨some l, r, c, bd, x⟩) :
    KInv { k with quantc := k.quantc.setRes hh l r c x } := by
  refine h.tab (tabEq_quant k _) h.stk h.ac (fun i => ?_) h.mc h.qs
  show QuantOk _ _ (upd k.quantc.tab (hh % k.quantc.size) _ i)
  by_cases hi : i = hh % k.quantc.size
  · rw [hi, upd_same]; exact he _
  · rw [upd_ne hi]; exact h.qc i

/-! ### Restriction -/

/-- What `varset2svartable` writes. -/
def sval (q : Nat → Int) (id : Nat) (L : List (Nat × Bool)) : Nat → Int := fun v =>
  match L.lookup v with
  | some true => (id : Int)
  | some false => -(id : Int)
  | none => q v

theorem slits_lookup_lt {nv : Nat} : ∀ {t : BT} {b v : Nat}, BT.Ord nv b t → v < b → t.slits.lookup v = none
  | .leaf _, _, _, _, _ => rfl
  | .node w lo hi, b, v, h, hv => by
    obtain ⟨h1, h2, h3, h4⟩ := h
    simp only [BT.slits]
    have hne : (v == w) = false := by simp; omega
    split
    · rw [List.lookup_cons, hne]; exact slits_lookup_lt h4 (by omega)
    · rw [List.lookup_cons, hne]; exact slits_lookup_lt h3 (by omega)

theorem svarWalk_ok (nv : Nat) : ∀ (f : Nat) (k : Kernel V) (n b : Nat) (t : BT), Den k n t → BT.Ord nv b t → t.depth < f → k.level 0 = nv → k.level 1 = nv →
    ∃ q L, k.svarWalk f n = some { k with qset := q, qlast := L } ∧ q = sval k.qset k.qid t.slits ∧ (2 ≤ n → L = nv) := by
  intro f
  induction f with
  | zero => intro k n b t _ _ h; omega
  | succ f ih =>
    intro k n b t hd ho hf l0 l1
    unfold Kernel.svarWalk
    cases hd with
    | zero => exact ⟨k.qset, k.qlast, rfl, rfl, by omega⟩
    | one => exact ⟨k.qset, k.qlast, rfl, rfl, by omega⟩
    | @node _ lo tl th h2 hl dl dh =>
    obtain ⟨h1, h2', h3, h4⟩ := ho
    rw [if_neg (by omega)]
    simp only [bind, Option.bind, hl]
    simp only [BT.depth] at hf
    by_cases hz : lo = 0
    · rw [if_pos hz]
      subst hz
      have htl := den_zero dl
      subst htl
      obtain ⟨q, L, e, hq, hL⟩ := ih { k with qset := upd k.qset (k.level n) k.qid, qlast := k.level (k.high n) } (k.high n) (k.level n + 1) th ((tabEq_q k _ k.qid _).dext _ _ dh) h4 (by omega) l0 l1
      refine ⟨q, L, e, ?_, fun _ => ?_⟩
      · rw [hq]
        funext v
        simp only [sval, BT.slits, if_true]
        by_cases hv : v = k.level n
        · subst hv
          rw [slits_lookup_lt h4 (Nat.lt_succ_self _)]
          simp
        · have : (v == k.level n) = false := by simpa using hv
          simp only [List.lookup_cons, this, upd_ne hv]
      · rcases Nat.lt_or_ge (k.high n) 2 with h | h
        · have : L = k.level (k.high n) := by
            have e' := e
            cases f with
            | zero => simp [Kernel.svarWalk] at e'
            | succ f =>
              unfold Kernel.svarWalk at e'
              rw [if_pos h] at e'
              injection e' with e'
              exact (congrArg Kernel.qlast e').symm
          rw [this]
          have : k.high n = 0 ∨ k.high n = 1 := by omega
          rcases this with e0 | e0 <;> rw [e0]
          · exact l0
          · exact l1
        · exact hL h
    · rw [if_neg hz]
      have htl : tl ≠ .leaf false := fun e => hz (den_leaf (e ▸ dl))
      obtain ⟨q, L, e, hq, hL⟩ := ih { k with qset := upd k.qset (k.level n) (-(k.qid : Int)), qlast := k.level lo } lo (k.level n + 1) tl ((tabEq_q k _ k.qid _).dext _ _ dl) h3 (by omega) l0 l1
      refine ⟨q, L, e, ?_, fun _ => ?_⟩
      · rw [hq]
        funext v
        simp only [sval, BT.slits, if_neg htl]
        by_cases hv : v = k.level n
        · subst hv
          rw [slits_lookup_lt h3 (Nat.lt_succ_self _)]
          simp
        · have : (v == k.level n) = false := by simpa using hv
          simp only [List.lookup_cons, this, upd_ne hv]
      · rcases Nat.lt_or_ge lo 2 with h | h
        · have : L = k.level lo := by
            have e' := e
            cases f with
            | zero => simp [Kernel.svarWalk] at e'
            | succ f =>
              unfold Kernel.svarWalk at e'
              rw [if_pos h] at e'
              injection e' with e'
              exact (congrArg Kernel.qlast e').symm
          rw [this]
          have : lo = 0 ∨ lo = 1 := by omega
          rcases this with e0 | e0 <;> rw [e0]
          · exact l0
          · exact l1
        · exact hL h

/-- The quantifier state describes the literals `L`. -/
structure SV (k : Kernel V) (L : List (Nat × Bool)) : Prop where
  ins : ∀ v, k.insvarset v ↔ (L.lookup v).isSome
  pos : ∀ v b, L.lookup v = some b → (k.qset v > 0 ↔ b = true)
  last : k.qlast = k.varnum

theorem SV.ge {k k' : Kernel V} {L : List (Nat × Bool)} (h : SV k L) (hg : Ge k k') : SV k' L :=
  ⟨fun v => by unfold Kernel.insvarset; rw [hg.qset, hg.qid]; exact h.ins v, fun v b => by rw [hg.qset]; exact h.pos v b, by rw [hg.qlast, hg.varnum]; exact h.last⟩

theorem varset2svartable_ok {k : Kernel V} (hk : KInv k) {n : Nat} {t : BT} (hd : Den k n t) (ho : BT.Ord k.varnum 0 t) (h2 : 2 ≤ n) :
    ∃ q, k.varset2svartable n = some { k with qid := k.qid + 1, qset := q, qlast := k.varnum } ∧ (∀ i, (q i).natAbs ≤ k.qid + 1) ∧ SV { k with qid := k.qid + 1, qset := q, qlast := k.varnum } t.slits := by
  unfold Kernel.varset2svartable
  rw [if_neg (by omega)]
  obtain ⟨q, L, e, hq, hL⟩ := svarWalk_ok k.varnum (k.varnum + 1) { k with qid := k.qid + 1 } n 0 t ((tabEq_q k k.qset (k.qid + 1) k.qlast).dext _ _ hd) ho (by have := ho.depth_le (Nat.zero_le _); omega) hk.l0 hk.l1
  have hL := hL h2
  subst hL
  refine ⟨q, e, ?_, ⟨?_, ?_, rfl⟩⟩
  · intro i
    rw [hq]
    simp only [sval]
    split
    · simp; omega
    · simp; omega
    · have := hk.qs i; omega
  · intro v
    show (q v).natAbs = k.qid + 1 ↔ _
    rw [hq]
    simp only [sval]
    split
    · rename_i h; rw [h]; simp; omega
    · rename_i h; rw [h]; simp; omega
    · rename_i h; rw [h]
      have := hk.qs v
      simp; omega
  · intro v b hb
    show q v > 0 ↔ _
    rw [hq]
    simp only [sval, hb]
    cases b <;> simp <;> omega

theorem ov_ind {v : Nat} {L : List (Nat × Bool)} {σ τ : Nat → Bool} (h : ∀ w, v ≤ w → σ w = τ w) : ∀ w, v ≤ w → ov L σ w = ov L τ w := fun w hw => by unfold ov; rw [h w hw]

theorem restrictRec_ok {var : Nat} {tv : BT} : ∀ (f : Nat) (k : Kernel V) (r b : Nat) (t : BT), KInv k → SV k tv.slits → Den k var tv → Prot k var → Den k r t → BT.Ord k.varnum b t → Prot k r → t.depth < f → k.stack.length + (k.varnum - b) + 1 ≤ k.cap →
    ∃ x k', Kernel.restrictRec (var * 8 + 1) f r k = some (x, k') ∧ KInv k' ∧ Keep k k' ∧ Is k' x fun σ => t.eval (ov tv.slits σ) := by
  intro f
  induction f with
  | zero => intro k r b t _ _ _ _ _ _ _ h; omega
  | succ f ih =>
    intro k r b t hk hsv dv pv dr or' pr hf hcap
    have Sr : Is k r fun σ => t.eval σ := ⟨t, dr, or'.mono (Nat.zero_le _), fun _ => rfl⟩
    unfold Kernel.restrictRec
    cases dr with
    | zero => exact ⟨0, k, by simp, hk, .rfl, is_false fun _ => rfl⟩
    | one => exact ⟨1, k, by simp, hk, .rfl, is_true fun _ => rfl⟩
    | @node _ lo tl th h2 hl dl dh =>
    obtain ⟨ob, ov', ol, oh⟩ := or'
    rw [if_neg (by rintro (h | h); · omega
                   · rw [hsv.last] at h; omega)]
    simp only
    by_cases he : (k.miscc.get (pair r (var * 8 + 1))).a = some r ∧ (k.miscc.get (pair r (var * 8 + 1))).c = var * 8 + 1
    · rw [if_pos he]
      refine ⟨_, k, rfl, hk, .rfl, ?_⟩
      rcases hk.mc (pair r (var * 8 + 1) % k.miscc.size) r he.1 with ⟨var', tv', F, a, b, c, d⟩ | ⟨_, _, c⟩
      · have hvv : var' = var := by have := he.2; have : var' * 8 + 1 = var * 8 + 1 := c.symm.trans this; omega
        subst hvv
        have := den_fun a dv
        subst this
        exact Sem.congr d fun σ => by rw [sem_fun b Sr]
      · have he2 : (k.miscc.tab (pair r (var * 8 + 1) % k.miscc.size)).c = var * 8 + 1 := he.2
        omega
    rw [if_neg he]
    simp only [bind, Option.bind, hl]
    have plo : Prot k lo := .low pr h2 hl
    have phi : Prot k (k.high r) := .high pr h2 hl
    simp only [BT.depth] at hf
    -- storing a result in the cache
    have store : ∀ (o : Option (Nat × Kernel V)), (∃ x k', o = some (x, k') ∧ KInv k' ∧ Keep k k' ∧ Is k' x fun σ => (BT.node (k.level r) tl th).eval (ov tv.slits σ)) →
        ∃ x k', (o.bind fun a => pure (a.1, { a.2 with miscc := a.2.miscc.setRes (pair r (var * 8 + 1)) r 0 (var * 8 + 1) a.1 })) = some (x, k') ∧ KInv k' ∧ Keep k k' ∧ Is k' x fun σ => (BT.node (k.level r) tl th).eval (ov tv.slits σ) := by
      rintro o ⟨x, k', rfl, r2, r3, r4⟩
      refine ⟨x, _, rfl, setMisc_inv r2 fun bd => ?_, r3.trans (keep_of_eq rfl rfl rfl rfl rfl rfl rfl rfl rfl rfl rfl rfl), r4.dext (tabEq_misc k' _).dext⟩
      intro l' hl'
      cases hl'
      refine .inl ⟨var, tv, fun σ => (BT.node (k.level r) tl th).eval σ, dv.ge r3.toGe pv, ?_, rfl, r4⟩
      rw [r3.varnum]; exact Sr.ge r3.toGe pr
    by_cases hins : k.insvarset (k.level r)
    · rw [if_pos hins]
      obtain ⟨bb, hbb⟩ := Option.isSome_iff_exists.1 ((hsv.ins _).1 hins)
      have hov : ∀ σ, ov tv.slits σ (k.level r) = bb := fun σ => by simp [ov, hbb]
      have hpos := hsv.pos _ _ hbb
      cases bb with
      | true =>
        rw [if_pos (hpos.2 rfl)]
        obtain ⟨x, k', r1, r2, r3, r4⟩ := ih k (k.high r) (k.level r + 1) th hk hsv dv pv dh oh phi (by omega) (by omega)
        exact store _ ⟨x, k', r1, r2, r3, r4.congr fun σ => by simp [BT.eval, hov]⟩
      | false =>
        rw [if_neg (fun h => by simp at hpos; omega)]
        obtain ⟨x, k', r1, r2, r3, r4⟩ := ih k lo (k.level r + 1) tl hk hsv dv pv dl ol plo (by omega) (by omega)
        exact store _ ⟨x, k', r1, r2, r3, r4.congr fun σ => by simp [BT.eval, hov]⟩
    · rw [if_neg hins]
      have hnone : tv.slits.lookup (k.level r) = none := by
        have : ¬ (tv.slits.lookup (k.level r)).isSome := fun h => hins ((hsv.ins _).2 h)
        exact Option.not_isSome_iff_eq_none.1 this
      have hov : ∀ σ, ov tv.slits σ (k.level r) = σ (k.level r) := fun σ => by simp [ov, hnone]
      refine store _ ?_
      exact two_ok (k := k) (c1 := fun k => Kernel.restrictRec (var * 8 + 1) f lo k) (c2 := fun k => Kernel.restrictRec (var * 8 + 1) f (k.high r) k) (fin := fun a b k => k.makeNode (k.level r) a b)
        (F1 := fun σ => tl.eval (ov tv.slits σ)) (F2 := fun σ => th.eval (ov tv.slits σ)) (by omega)
        (ih k lo (k.level r + 1) tl hk hsv dv pv dl ol plo (by omega) (by omega))
        (fun x1 k2 I2 G2 s2 => by
          show ∃ x2 k3, Kernel.restrictRec (var * 8 + 1) f (k2.high r) k2 = _ ∧ _
          rw [(G2.same r pr).2.2]
          refine ih k2 (k.high r) (k.level r + 1) th I2 (hsv.ge G2) (dv.ge G2 pv) (G2.prot _ pv) (dh.ge G2 phi) (by rw [G2.varnum]; exact oh) (G2.prot _ phi) (by omega) ?_
          rw [s2, G2.varnum, G2.cap, List.length_cons]; omega)
        (fun x1 x2 k4 I4 G4 s4 S1 S2 => by
          have hlev : k4.level r = k.level r := (G4.same r pr).1
          simp only [hlev]
          refine fin_make I4 (by rw [G4.varnum]; exact ov') (.stk (by rw [s4]; simp)) (.stk (by rw [s4]; simp)) S1 S2 (fun σ τ h => ol.cg _ _ (ov_ind h)) (fun σ τ h => oh.cg _ _ (ov_ind h)) fun σ => ?_
          simp only [BT.eval, hov])

/-- `restrict` at the level of indices. -/
theorem restrict_ok' {k : Kernel V} (hk : KInv k) {r var : Nat} {t tv : BT} (dr : Den k r t) (ho : BT.Ord k.varnum 0 t) (pr : Prot k r) (dv : Den k var tv) (hov : BT.Ord k.varnum 0 tv) (pv : Prot k var) (hcap : k.stack.length + k.varnum + 1 ≤ k.cap) :
    ∃ x k', k.restrict r var = some (x, k') ∧ KInv k' ∧ Is k' x (fun σ => t.eval (ov tv.slits σ)) ∧ k'.stack = k.stack ∧ k'.varnum = k.varnum ∧ k'.cap = k.cap ∧ k'.idx = k.idx ∧ k'.vars = k.vars ∧ k'.ref = k.ref ∧ (∀ n t, Prot k n → Den k n t → Den k' n t) := by
  unfold Kernel.restrict
  by_cases h2 : var < 2
  · rw [if_pos h2]
    refine ⟨r, k, rfl, hk, ⟨t, dr, ho, fun σ => ?_⟩, rfl, rfl, rfl, rfl, rfl, rfl, fun n t _ h => h⟩
    have : tv.slits = [] := by
      cases dv with
      | zero => rfl
      | one => rfl
      | node h => omega
    rw [this]; rfl
  rw [if_neg h2]
  obtain ⟨q, e, hqs, hsv⟩ := varset2svartable_ok hk dv hov (by omega)
  simp only [bind, Option.bind, e]
  have te : TabEq k { k with qid := k.qid + 1, qset := q, qlast := k.varnum } := tabEq_q k q (k.qid + 1) k.varnum
  have hk1 : KInv { k with qid := k.qid + 1, qset := q, qlast := k.varnum } := hk.tab te hk.stk hk.ac hk.qc hk.mc hqs
  have hp : ∀ n, Prot k n → Prot { k with qid := k.qid + 1, qset := q, qlast := k.varnum } n := prot_of_same rfl (fun _ h => h) fun _ _ => ⟨rfl, rfl, rfl⟩
  obtain ⟨x, k', r1, r2, r3, r4⟩ := restrictRec_ok (var := var) (tv := tv) (k.varnum + 1) _ r 0 t hk1 hsv (te.dext _ _ dv) (hp _ pv) (te.dext _ _ dr) ho (hp _ pr) (by have := ho.depth_le (Nat.zero_le _); omega) (by show k.stack.length + (k.varnum - 0) + 1 ≤ k.cap; omega)
  exact ⟨x, k', r1, r2, r4, r3.stack, r3.varnum, r3.cap, r3.idx, r3.vars, r3.ref, fun n t hn hd => (te.dext _ _ hd).ge r3.toGe (hp _ hn)⟩

/-! ### Quantification -/

/-- The quantified function for `exists` (`or`) and `for_all` (`and`). -/
noncomputable def qF (op : Opr) (S : List Nat) (F : (Nat → Bool) → Bool) : (Nat → Bool) → Bool :=
  match op with
  | .or => exF S F
  | _ => faF S F

/-- The two operators used for quantification. -/
def QOp (op : Opr) : Prop := op = .or ∨ op = .and

theorem exF_iff {S : List Nat} {F : (Nat → Bool) → Bool} {σ : Nat → Bool} : exF S F σ = true ↔ ∃ τ : Nat → Bool, (∀ v, v ∉ S → τ v = σ v) ∧ F τ = true := by simp [exF]
theorem faF_iff {S : List Nat} {F : (Nat → Bool) → Bool} {σ : Nat → Bool} : faF S F σ = true ↔ ∀ τ : Nat → Bool, (∀ v, v ∉ S → τ v = σ v) → F τ = true := by simp [faF]

theorem qF_const {op : Opr} {S : List Nat} {F : (Nat → Bool) → Bool} {σ : Nat → Bool} (h : ∀ τ : Nat → Bool, (∀ v, v ∉ S → τ v = σ v) → F τ = F σ) : qF op S F σ = F σ := by
  rw [Bool.eq_iff_iff]
  cases op <;> simp only [qF]
  case or =>
    rw [exF_iff]
    exact ⟨fun ⟨τ, h1, h2⟩ => by rw [← h τ h1]; exact h2, fun h1 => ⟨σ, fun _ _ => rfl, h1⟩⟩
  all_goals
    rw [faF_iff]
    exact ⟨fun h1 => h1 σ fun _ _ => rfl, fun h1 τ h2 => by rw [h τ h2]; exact h1⟩

theorem qF_ind {op : Opr} {S : List Nat} {F : (Nat → Bool) → Bool} {b : Nat} (h : Ind b F) : Ind b (qF op S F) := by
  have key : ∀ (σ σ' τ : Nat → Bool), (∀ v, b ≤ v → σ v = σ' v) → (∀ v, v ∉ S → τ v = σ v) → ∃ τ', (∀ v, v ∉ S → τ' v = σ' v) ∧ F τ' = F τ := by
    intro σ σ' τ h1 h2
    refine ⟨fun w => if b ≤ w then τ w else σ' w, fun v hv => ?_, h _ _ fun v hv => by simp [hv]⟩
    show (if b ≤ v then τ v else σ' v) = _
    split
    · rename_i hb; rw [h2 v hv, h1 v hb]
    · rfl
  intro σ σ' hs
  rw [Bool.eq_iff_iff]
  cases op <;> simp only [qF]
  case or =>
    rw [exF_iff, exF_iff]
    constructor
    · rintro ⟨τ, h1, h2⟩
      obtain ⟨τ', h3, h4⟩ := key σ σ' τ hs h1
      exact ⟨τ', h3, h4.trans h2⟩
    · rintro ⟨τ, h1, h2⟩
      obtain ⟨τ', h3, h4⟩ := key σ' σ τ (fun v hv => (hs v hv).symm) h1
      exact ⟨τ', h3, h4.trans h2⟩
  all_goals
    rw [faF_iff, faF_iff]
    constructor
    · intro h1 τ h2
      obtain ⟨τ', h3, h4⟩ := key σ' σ τ (fun v hv => (hs v hv).symm) h2
      exact h4.symm.trans (h1 τ' h3)
    · intro h1 τ h2
      obtain ⟨τ', h3, h4⟩ := key σ σ' τ hs h2
      exact h4.symm.trans (h1 τ' h3)

theorem qF_out {op : Opr} (hop : QOp op) {S : List Nat} {v : Nat} {tl th : BT} (hv : v ∉ S) (σ : Nat → Bool) :
    qF op S (fun σ => (BT.node v tl th).eval σ) σ = if σ v then qF op S (fun σ => th.eval σ) σ else qF op S (fun σ => tl.eval σ) σ := by
  have h : ∀ τ : Nat → Bool, (∀ w, w ∉ S → τ w = σ w) → (BT.node v tl th).eval τ = if σ v then th.eval τ else tl.eval τ := fun τ h => by
    simp only [BT.eval, h v hv]
  rw [Bool.eq_iff_iff]
  rcases hop with rfl | rfl <;> simp only [qF]
  · rw [exF_iff]
    cases hs : σ v with
    | true =>
      rw [if_pos rfl, exF_iff]
      exact ⟨fun ⟨τ, a, b⟩ => ⟨τ, a, by rw [h τ a, hs] at b; exact b⟩, fun ⟨τ, a, b⟩ => ⟨τ, a, by rw [h τ a, hs]; exact b⟩⟩
    | false =>
      rw [if_neg (by simp), exF_iff]
      exact ⟨fun ⟨τ, a, b⟩ => ⟨τ, a, by rw [h τ a, hs] at b; exact b⟩, fun ⟨τ, a, b⟩ => ⟨τ, a, by rw [h τ a, hs]; exact b⟩⟩
  · rw [faF_iff]
    cases hs : σ v with
    | true =>
      rw [if_pos rfl, faF_iff]
      exact ⟨fun g τ a => by have := g τ a; rw [h τ a, hs] at this; exact this, fun g τ a => by rw [h τ a, hs]; exact g τ a⟩
    | false =>
      rw [if_neg (by simp), faF_iff]
      exact ⟨fun g τ a => by have := g τ a; rw [h τ a, hs] at this; exact this, fun g τ a => by rw [h τ a, hs]; exact g τ a⟩

theorem qF_in {op : Opr} (hop : QOp op) {nv : Nat} {S : List Nat} {v : Nat} {tl th : BT} (hl : BT.Ord nv (v + 1) tl) (hh : BT.Ord nv (v + 1) th) (hv : v ∈ S) (σ : Nat → Bool) :
    qF op S (fun σ => (BT.node v tl th).eval σ) σ = op.fn (qF op S (fun σ => tl.eval σ) σ) (qF op S (fun σ => th.eval σ) σ) := by
  have key : ∀ (τ : Nat → Bool) (b : Bool), (∀ w, w ∉ S → τ w = σ w) → (∀ w, w ∉ S → BT.set τ v b w = σ w) ∧ (BT.node v tl th).eval (BT.set τ v b) = if b then th.eval τ else tl.eval τ := by
    intro τ b h
    refine ⟨fun w hw => ?_, ?_⟩
    · unfold BT.set; rw [if_neg (fun e : w = v => hw (e ▸ hv))]; exact h w hw
    · simp only [BT.eval, BT.eval_set_lt hl (Nat.lt_succ_self v), BT.eval_set_lt hh (Nat.lt_succ_self v)]
      simp [BT.set]
  rw [Bool.eq_iff_iff]
  rcases hop with rfl | rfl <;> simp only [qF, Opr.fn]
  · rw [Bool.or_eq_true, exF_iff, exF_iff, exF_iff]
    constructor
    · rintro ⟨τ, a, b⟩
      simp only [BT.eval] at b
      split at b
      · exact .inr ⟨τ, a, b⟩
      · exact .inl ⟨τ, a, b⟩
    · rintro (⟨τ, a, b⟩ | ⟨τ, a, b⟩)
      · exact ⟨_, (key τ false a).1, by rw [(key τ false a).2]; exact b⟩
      · exact ⟨_, (key τ true a).1, by rw [(key τ true a).2]; exact b⟩
  · rw [Bool.and_eq_true, faF_iff, faF_iff, faF_iff]
    constructor
    · intro g
      refine ⟨fun τ a => ?_, fun τ a => ?_⟩
      · have := g _ (key τ false a).1; rw [(key τ false a).2] at this; exact this
      · have := g _ (key τ true a).1; rw [(key τ true a).2] at this; exact this
    · rintro ⟨g1, g2⟩ τ a
      simp only [BT.eval]
      split
      · exact g2 τ a
      · exact g1 τ a

theorem varWalk_ok (nv : Nat) : ∀ (f : Nat) (k : Kernel V) (n b : Nat) (t : BT), Den k n t → BT.Ord nv b t → t.depth < f →
    ∃ q L, k.varWalk f n = some { k with qset := q, qlast := L } ∧ (q = fun v => if v ∈ t.hiLevels then (k.qid : Int) else k.qset v) ∧ (∀ v ∈ t.hiLevels, v ≤ L) ∧ (t.hiLevels = [] → L = k.qlast) ∧ (t.hiLevels ≠ [] → b ≤ L) := by
  intro f
  induction f with
  | zero => intro k n b t _ _ h; omega
  | succ f ih =>
    intro k n b t hd ho hf
    unfold Kernel.varWalk
    cases hd with
    | zero => exact ⟨k.qset, k.qlast, rfl, by simp [BT.hiLevels], by simp [BT.hiLevels], fun _ => rfl, by simp [BT.hiLevels]⟩
    | one => exact ⟨k.qset, k.qlast, rfl, by simp [BT.hiLevels], by simp [BT.hiLevels], fun _ => rfl, by simp [BT.hiLevels]⟩
    | @node _ lo tl th h2 hl dl dh =>
    obtain ⟨h1, h2', h3, h4⟩ := ho
    rw [if_neg (by omega)]
    simp only [BT.depth] at hf
    obtain ⟨q, L, e, hq, hL, hL0, hL1⟩ := ih { k with qset := upd k.qset (k.level n) k.qid, qlast := k.level n } (k.high n) (k.level n + 1) th ((tabEq_q k _ k.qid _).dext _ _ dh) h4 (by omega)
    have hge : k.level n ≤ L := by
      by_cases hh : th.hiLevels = []
      · rw [hL0 hh]; exact Nat.le_refl _
      · have := hL1 hh; omega
    refine ⟨q, L, e, ?_, ?_, by simp [BT.hiLevels], fun _ => by omega⟩
    · rw [hq]; funext v
      simp only [BT.hiLevels, List.mem_cons]
      by_cases hv : v = k.level n
      · subst hv; simp
      · simp [hv, upd_ne hv]
    · intro v hv
      simp only [BT.hiLevels, List.mem_cons] at hv
      rcases hv with rfl | hv
      · exact hge
      · exact hL v hv

/-- The quantifier state describes the variables `S`. -/
structure QV (k : Kernel V) (S : List Nat) : Prop where
  inv : ∀ v, k.invarset v ↔ v ∈ S
  last : ∀ v ∈ S, v ≤ k.qlast

theorem QV.ge {k k' : Kernel V} {L : List Nat} (h : QV k L) (hg : Ge k k') : QV k' L :=
  ⟨fun v => by unfold Kernel.invarset; rw [hg.qset, hg.qid]; exact h.inv v, fun v => by rw [hg.qlast]; exact h.last v⟩

theorem varset2vartable_ok {k : Kernel V} (hk : KInv k) {n : Nat} {t : BT} (hd : Den k n t) (ho : BT.Ord k.varnum 0 t) (h2 : 2 ≤ n) :
    ∃ q L, k.varset2vartable n = some { k with qid := k.qid + 1, qset := q, qlast := L } ∧ (∀ i, (q i).natAbs ≤ k.qid + 1) ∧ QV { k with qid := k.qid + 1, qset := q, qlast := L } t.hiLevels := by
  unfold Kernel.varset2vartable
  rw [if_neg (by omega)]
  obtain ⟨q, L, e, hq, hL, _, _⟩ := varWalk_ok k.varnum (k.varnum + 1) { k with qid := k.qid + 1 } n 0 t ((tabEq_q k k.qset (k.qid + 1) k.qlast).dext _ _ hd) ho (by have := ho.depth_le (Nat.zero_le _); omega)
  refine ⟨q, L, e, ?_, ⟨?_, hL⟩⟩
  · intro i
    rw [hq]
    simp only
    split
    · simp; omega
    · have := hk.qs i; omega
  · intro v
    show q v = ((k.qid + 1 : Nat) : Int) ↔ _
    rw [hq]
    simp only
    split
    · rename_i h; simp [h]
    · rename_i h
      have := hk.qs v
      simp only [h, iff_false]; omega

/-- The cache ids of the two quantifiers. -/
def QId (op : Opr) (var id : Nat) : Prop := (op = .or ∧ id = var * 8) ∨ (op = .and ∧ id = var * 8 + 1)

theorem quantRec_ok {op : Opr} {var id : Nat} {tv : BT} (hid : QId op var id) : ∀ (f : Nat) (k : Kernel V) (r b : Nat) (t : BT), KInv k → QV k tv.hiLevels → Den k var tv → Prot k var → Den k r t → BT.Ord k.varnum b t → Prot k r → t.depth < f → k.stack.length + (k.varnum - b) + 2 ≤ k.cap →
    ∃ x k', Kernel.quantRec op id f r k = some (x, k') ∧ KInv k' ∧ Keep k k' ∧ Is k' x (qF op tv.hiLevels fun σ => t.eval σ) := by
  have hop : QOp op := by rcases hid with ⟨h, _⟩ | ⟨h, _⟩ <;> simp [QOp, h]
  intro f
  induction f with
  | zero => intro k r b t _ _ _ _ _ _ _ h; omega
  | succ f ih =>
    intro k r b t hk hqv dv pv dr or' pr hf hcap
    have Sr : Is k r fun σ => t.eval σ := ⟨t, dr, or'.mono (Nat.zero_le _), fun _ => rfl⟩
    unfold Kernel.quantRec
    cases dr with
    | zero => exact ⟨0, k, by simp, hk, .rfl, is_false fun σ => qF_const fun _ _ => rfl⟩
    | one => exact ⟨1, k, by simp, hk, .rfl, is_true fun σ => qF_const fun _ _ => rfl⟩
    | @node _ lo tl th h2 hl dl dh =>
    have or0 := or'
    obtain ⟨ob, ov', ol, oh⟩ := or'
    by_cases hlast : r < 2 ∨ k.level r > k.qlast
    · rw [if_pos hlast]
      refine ⟨r, k, rfl, hk, .rfl, Sr.congr fun σ => (qF_const (F := fun σ => (BT.node (k.level r) tl th).eval σ) fun τ hτ => ?_).symm⟩
      have hlv : k.level r > k.qlast := hlast.resolve_left (by omega)
      have oo : BT.Ord k.varnum (k.level r) (.node (k.level r) tl th) := ⟨Nat.le_refl _, ov', ol, oh⟩
      exact oo.cg _ _ fun v hv => hτ v fun hm => by have := hqv.last v hm; omega
    rw [if_neg hlast]
    simp only
    by_cases he : (k.quantc.get r).a = some r ∧ (k.quantc.get r).c = id
    · rw [if_pos he]
      refine ⟨_, k, rfl, hk, .rfl, ?_⟩
      obtain ⟨var', tv', F, a, b, c⟩ := hk.qc (r % k.quantc.size) r he.1
      have he2 : (k.quantc.tab (r % k.quantc.size)).c = id := he.2
      have ff : F = fun σ => BT.eval σ (.node (k.level r) tl th) := funext fun σ => sem_fun b Sr σ
      rcases hid with ⟨rfl, hid⟩ | ⟨rfl, hid⟩
      · rcases c with ⟨c, d⟩ | ⟨c, d⟩
        · have hvv : var' = var := by omega
          subst hvv
          have := den_fun a dv
          subst this
          rw [ff] at d
          exact d
        · omega
      · rcases c with ⟨c, d⟩ | ⟨c, d⟩
        · omega
        · have hvv : var' = var := by omega
          subst hvv
          have := den_fun a dv
          subst this
          rw [ff] at d
          exact d
    rw [if_neg he]
    have plo : Prot k lo := .low pr h2 hl
    have phi : Prot k (k.high r) := .high pr h2 hl
    simp only [BT.depth] at hf
    obtain ⟨x, k', r1, r2, r3, r4⟩ := two_ok (k := k) (c1 := fun k => Kernel.quantRec op id f lo k) (c2 := fun k => Kernel.quantRec op id f (k.high r) k)
      (fin := fun a b k => if k.invarset (k.level r) then Kernel.applyRec op (2 * k.varnum + 1) a b k else k.makeNode (k.level r) a b)
      (F1 := qF op tv.hiLevels fun σ => tl.eval σ) (F2 := qF op tv.hiLevels fun σ => th.eval σ) (F := qF op tv.hiLevels fun σ => (BT.node (k.level r) tl th).eval σ) (by omega)
      (ih k lo (k.level r + 1) tl hk hqv dv pv dl ol plo (by omega) (by omega))
      (fun x1 k2 I2 G2 s2 => by
        show ∃ x2 k3, Kernel.quantRec op id f (k2.high r) k2 = _ ∧ _
        rw [(G2.same r pr).2.2]
        refine ih k2 (k.high r) (k.level r + 1) th I2 (hqv.ge G2) (dv.ge G2 pv) (G2.prot _ pv) (dh.ge G2 phi) (by rw [G2.varnum]; exact oh) (G2.prot _ phi) (by omega) ?_
        rw [s2, G2.varnum, G2.cap, List.length_cons]; omega)
      (fun x1 x2 k4 I4 G4 s4 S1 S2 => by
        have hlev : k4.level r = k.level r := (G4.same r pr).1
        simp only [hlev]
        have p1 : Prot k4 x1 := .stk (by rw [s4]; simp)
        have p2 : Prot k4 x2 := .stk (by rw [s4]; simp)
        have i1 : Ind (k.level r + 1) (qF op tv.hiLevels fun σ => tl.eval σ) := qF_ind ol.ind
        have i2 : Ind (k.level r + 1) (qF op tv.hiLevels fun σ => th.eval σ) := qF_ind oh.ind
        by_cases hin : k4.invarset (k.level r)
        · rw [if_pos hin]
          have hm : k.level r ∈ tv.hiLevels := ((hqv.ge G4).inv _).1 hin
          obtain ⟨t1, d1, o1, e1⟩ := S1
          obtain ⟨t2, d2, o2, e2⟩ := S2
          have q1 : BT.Ord k4.varnum (k.level r + 1) t1 := .of_ind (I4.den_red d1) o1 fun σ τ h => by show t1.eval σ = t1.eval τ; rw [e1, e1]; exact i1 σ τ h
          have q2 : BT.Ord k4.varnum (k.level r + 1) t2 := .of_ind (I4.den_red d2) o2 fun σ τ h => by show t2.eval σ = t2.eval τ; rw [e2, e2]; exact i2 σ τ h
          obtain ⟨y, k5, a1, a2, a3, a4⟩ := applyRec_ok op (2 * k4.varnum + 1) k4 x1 x2 (k.level r + 1) t1 t2 I4 d1 d2 q1 q2 p1 p2 (by have := o1.depth_le (Nat.zero_le _); have := o2.depth_le (Nat.zero_le _); omega)
            (by rw [s4, G4.varnum, G4.cap]; simp only [List.length_cons]; omega)
          refine ⟨y, k5, a1, a2, a3, a4.congr fun σ => ?_⟩
          rw [e1, e2, qF_in hop ol oh hm]
        · rw [if_neg hin]
          have hm : k.level r ∉ tv.hiLevels := fun h => hin (((hqv.ge G4).inv _).2 h)
          exact fin_make I4 (by rw [G4.varnum]; exact ov') p1 p2 S1 S2 i1 i2 fun σ => qF_out hop hm σ)
    simp only [bind, Option.bind, hl, r1, pure]
    refine ⟨x, _, rfl, setQuant_inv r2 fun bd => ?_, r3.trans (keep_of_eq rfl rfl rfl rfl rfl rfl rfl rfl rfl rfl rfl rfl), r4.dext (tabEq_quant k' _).dext⟩
    intro l' hl'
    cases hl'
    refine ⟨var, tv, _, dv.ge r3.toGe pv, by rw [r3.varnum]; exact Sr.ge r3.toGe pr, ?_⟩
    rcases hid with ⟨rfl, hid⟩ | ⟨rfl, hid⟩
    · exact .inl ⟨hid, r4⟩
    · exact .inr ⟨hid, r4⟩

/-- Both quantifiers at the level of indices. -/
theorem quant_ok' {k : Kernel V} (hk : KInv k) {op : Opr} {id : Nat} {r var : Nat} (hid : QId op var id) {t tv : BT} (dr : Den k r t) (ho : BT.Ord k.varnum 0 t) (pr : Prot k r) (dv : Den k var tv) (hov : BT.Ord k.varnum 0 tv) (pv : Prot k var) (hcap : k.stack.length + k.varnum + 2 ≤ k.cap) :
    ∃ x k', (if var < 2 then some (r, k) else (k.varset2vartable var).bind fun k => Kernel.quantRec op id (k.varnum + 1) r k) = some (x, k') ∧ KInv k' ∧ Is k' x (qF op tv.hiLevels fun σ => t.eval σ) ∧
      k'.stack = k.stack ∧ k'.varnum = k.varnum ∧ k'.cap = k.cap ∧ k'.idx = k.idx ∧ k'.vars = k.vars ∧ k'.ref = k.ref ∧ (∀ n t, Prot k n → Den k n t → Den k' n t) := by
  by_cases h2 : var < 2
  · rw [if_pos h2]
    refine ⟨r, k, rfl, hk, ⟨t, dr, ho, fun σ => ?_⟩, rfl, rfl, rfl, rfl, rfl, rfl, fun n t _ h => h⟩
    have : tv.hiLevels = [] := by
      cases dv with
      | zero => rfl
      | one => rfl
      | node h => omega
    rw [this]
    refine (qF_const (F := fun σ => t.eval σ) fun τ hτ => ?_).symm
    have : τ = σ := funext fun v => hτ v (by simp)
    rw [this]
  rw [if_neg h2]
  obtain ⟨q, L, e, hqs, hqv⟩ := varset2vartable_ok hk dv hov (by omega)
  simp only [Option.bind, e]
  have te : TabEq k { k with qid := k.qid + 1, qset := q, qlast := L } := tabEq_q k q (k.qid + 1) L
  have hk1 : KInv { k with qid := k.qid + 1, qset := q, qlast := L } := hk.tab te hk.stk hk.ac hk.qc hk.mc hqs
  have hp : ∀ n, Prot k n → Prot { k with qid := k.qid + 1, qset := q, qlast := L } n := prot_of_same rfl (fun _ h => h) fun _ _ => ⟨rfl, rfl, rfl⟩
  obtain ⟨x, k', r1, r2, r3, r4⟩ := quantRec_ok (tv := tv) hid (k.varnum + 1) _ r 0 t hk1 hqv (te.dext _ _ dv) (hp _ pv) (te.dext _ _ dr) ho (hp _ pr) (by have := ho.depth_le (Nat.zero_le _); omega) (by show k.stack.length + (k.varnum - 0) + 2 ≤ k.cap; omega)
  exact ⟨x, k', r1, r2, r4, r3.stack, r3.varnum, r3.cap, r3.idx, r3.vars, r3.ref, fun n t hn hd => (te.dext _ _ hd).ge r3.toGe (hp _ hn)⟩

end Bdd
end Verif
