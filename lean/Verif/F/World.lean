import Verif.F.PbEncode
/-
Bookkeeping for operations that introduce auxiliary variables and keep caches: what has been
encoded so far, and that all encodings can be satisfied together.
-/
namespace Verif
open ER

/-- Something introduced earlier (ghost state): whenever `P` holds, the new variables can be
chosen such that `Q` holds; `Q` implies `P`. -/
structure Ent where
  P : Asg → Prop
  Q : Asg → Prop

/-- All clauses hold. -/
def LSat (σ : Asg) (L : List Clause) : Prop := ∀ c ∈ L, Clause.Sat σ c

/-- The auxiliary variables have been chosen as intended. -/
def EncOk (E : List Ent) (σ : Asg) : Prop := ∀ e ∈ E, e.P σ → e.Q σ

/-- The set of a property is determined by the variables existing in `c`. -/
def Dep (c : AuxTy → Nat) (P : Asg → Prop) : Prop := ∀ σ σ', (cER c).Agree σ σ' → P σ → P σ'

/-- Invariant of the ghost state: `c0` are the counters at the start, `c` the current ones. -/
structure EInv (c0 c : AuxTy → Nat) (E : List Ent) : Prop where
  le : ∀ t, c0 t ≤ c t
  depP : ∀ e ∈ E, Dep c e.P
  depQ : ∀ e ∈ E, Dep c e.Q
  sound : ∀ e ∈ E, ∀ σ, e.Q σ → e.P σ
  ext : ∀ σ, ∃ σ', (cER c0).Agree σ σ' ∧ EncOk E σ'

/-- The state has only grown. -/
structure GExt (c : AuxTy → Nat) (E : List Ent) (c' : AuxTy → Nat) (E' : List Ent) : Prop where
  le : ∀ t, c t ≤ c' t
  sub : ∀ e ∈ E, e ∈ E'

theorem GExt.refl (c E) : GExt c E c E := ⟨fun _ => Nat.le_refl _, fun _ h => h⟩
theorem GExt.trans {c E c' E' c'' E''} (h : GExt c E c' E') (h' : GExt c' E' c'' E'') : GExt c E c'' E'' :=
  ⟨fun t => Nat.le_trans (h.le t) (h'.le t), fun e he => h'.sub e (h.sub e he)⟩
theorem GExt.ok {c E c' E'} (h : GExt c E c' E') {σ} (hs : EncOk E' σ) : EncOk E σ := fun e he => hs e (h.sub e he)

theorem cER_le {c c' : AuxTy → Nat} (h : ∀ t, c t ≤ c' t) : (cER c).Le (cER c') := ⟨h, List.prefix_rfl⟩
theorem cER_wf (c : AuxTy → Nat) : (cER c).Wf := by intro cl h; simp [cER] at h
theorem cER_sat (c : AuxTy → Nat) (σ) : (cER c).Sat σ := by intro cl h; simp [cER] at h
theorem old_cER {s : ER} {v} : (cER s.cnt).Old v ↔ s.Old v := by
  cases v with
  | named n => simp [Old]
  | aux t n => cases t <;> simp [Old, cER]
theorem agree_cER {s : ER} {σ σ'} : (cER s.cnt).Agree σ σ' ↔ s.Agree σ σ' := by
  constructor <;> intro h v hv
  · exact h v (old_cER.2 hv)
  · exact h v (old_cER.1 hv)
theorem GExt.old {c E c' E'} (h : GExt c E c' E') {v} (hv : (cER c).Old v) : (cER c').Old v := (cER_le h.le).old hv

theorem Dep.mono {c c' P} (h : Dep c P) (hle : ∀ t, c t ≤ c' t) : Dep c' P :=
  fun σ σ' ag hp => h σ σ' (fun v hv => ag v ((cER_le hle).old hv)) hp

theorem Dep.lsat {c : AuxTy → Nat} {L : List Clause} (h : ∀ cl ∈ L, ∀ l ∈ cl, (cER c).Old l.v) : Dep c (fun σ => LSat σ L) :=
  fun _ _ ag hs cl hc => (ag.clause (h cl hc)).1 (hs cl hc)

theorem Dep.formula {c : AuxTy → Nat} {f : Formula} (h : ∀ v, Occ v f → (cER c).Old v) : Dep c (fun σ => f.eval σ = true) := by
  intro σ σ' ag hs
  rw [← Formula.eval_congr fun v hv => ag v (h v hv)]; exact hs

theorem EInv.mono {c0 c c' E} (h : EInv c0 c E) (hle : ∀ t, c t ≤ c' t) : EInv c0 c' E :=
  ⟨fun t => Nat.le_trans (h.le t) (hle t), fun e he => (h.depP e he).mono hle, fun e he => (h.depQ e he).mono hle, h.sound, h.ext⟩

/-- At the start. -/
theorem EInv.init (c : AuxTy → Nat) : EInv c c [] :=
  ⟨fun _ => Nat.le_refl _, by simp, by simp, by simp, fun σ => ⟨σ, Agree.refl _ _, by simp [EncOk]⟩⟩

/-- New variables with a meaning in terms of the old ones. -/
theorem EInv.add {c0 c c' E} (h : EInv c0 c E) (hle : ∀ t, c t ≤ c' t) (e : Ent) (hP : Dep c e.P) (hQ : Dep c' e.Q)
    (sound : ∀ σ, e.Q σ → e.P σ) (compl : ∀ σ, e.P σ → ∃ σ', (cER c).Agree σ σ' ∧ e.Q σ') : EInv c0 c' (E ++ [e]) where
  le t := Nat.le_trans (h.le t) (hle t)
  depP x hx := by
    rcases List.mem_append.1 hx with hx | hx
    · exact (h.depP x hx).mono hle
    · rw [List.mem_singleton.1 hx]; exact hP.mono hle
  depQ x hx := by
    rcases List.mem_append.1 hx with hx | hx
    · exact (h.depQ x hx).mono hle
    · rw [List.mem_singleton.1 hx]; exact hQ
  sound x hx := by
    rcases List.mem_append.1 hx with hx | hx
    · exact h.sound x hx
    · rw [List.mem_singleton.1 hx]; exact sound
  ext σ := by
    obtain ⟨σ1, a1, o1⟩ := h.ext σ
    have hlift : ∀ σ2, (cER c).Agree σ1 σ2 → (cER c0).Agree σ σ2 ∧ EncOk E σ2 := by
      intro σ2 a2
      refine ⟨fun v hv => (a1 v hv).trans (a2 v ((cER_le h.le).old hv)), fun x hx hp => ?_⟩
      exact h.depQ x hx _ _ a2 (o1 x hx (h.depP x hx _ _ a2.symm hp))
    by_cases hp : e.P σ1
    · obtain ⟨σ2, a2, q2⟩ := compl σ1 hp
      obtain ⟨a3, o3⟩ := hlift σ2 a2
      refine ⟨σ2, a3, fun x hx hx' => ?_⟩
      rcases List.mem_append.1 hx with hx | hx
      · exact o3 x hx hx'
      · rw [List.mem_singleton.1 hx]; exact q2
    · refine ⟨σ1, a1, fun x hx hx' => ?_⟩
      rcases List.mem_append.1 hx with hx | hx
      · exact o1 x hx hx'
      · rw [List.mem_singleton.1 hx] at hx'; exact absurd hx' hp

/-- Something following from what is there. -/
theorem EInv.comp {c0 c E} (h : EInv c0 c E) (e : Ent) (hP : Dep c e.P) (hQ : Dep c e.Q) (sound : ∀ σ, e.Q σ → e.P σ)
    (compl : ∀ σ, EncOk E σ → e.P σ → e.Q σ) : EInv c0 c (E ++ [e]) where
  le := h.le
  depP x hx := by
    rcases List.mem_append.1 hx with hx | hx
    · exact h.depP x hx
    · rw [List.mem_singleton.1 hx]; exact hP
  depQ x hx := by
    rcases List.mem_append.1 hx with hx | hx
    · exact h.depQ x hx
    · rw [List.mem_singleton.1 hx]; exact hQ
  sound x hx := by
    rcases List.mem_append.1 hx with hx | hx
    · exact h.sound x hx
    · rw [List.mem_singleton.1 hx]; exact sound
  ext σ := by
    obtain ⟨σ1, a1, o1⟩ := h.ext σ
    refine ⟨σ1, a1, fun x hx hx' => ?_⟩
    rcases List.mem_append.1 hx with hx | hx
    · exact o1 x hx hx'
    · rw [List.mem_singleton.1 hx] at hx' ⊢; exact compl σ1 o1 hx'

/-- A clause encoding of `P`. -/
theorem EInv.encode {c0 c E P} {s' : ER} (h : EInv c0 c E) (hP : Dep c P) (he : Encodes (cER c) s' P) :
    EInv c0 s'.cnt (E ++ [⟨P, fun σ => LSat σ s'.clauses⟩]) := by
  refine h.add he.le.1 _ hP (Dep.lsat fun cl hc l hl => old_cER.2 (he.wf cl hc l hl)) (fun σ hs => he.sound hs) fun σ hp => ?_
  obtain ⟨σ', a, hs⟩ := he.compl (cER_sat c σ) hp
  exact ⟨σ', a, hs⟩

/-- `g` is a correct transformation result for the property `T`: it is of shape `S`, in the
factory's normal form, over existing variables; it implies `T`, and follows from `T` if the
auxiliary variables are chosen as intended.  If `pl` holds (nothing was encoded) it is plainly
equivalent and over the variables `V`; in any case all other variables are auxiliary. -/
structure TrOk (S : Formula → Prop) (E : List Ent) (c : AuxTy → Nat) (T : Asg → Prop) (pl : Prop) (V : Var → Prop) (g : Formula) : Prop where
  sound : ∀ σ, g.eval σ = true → T σ
  compl : ∀ σ, EncOk E σ → T σ → g.eval σ = true
  plain : pl → ∀ σ, T σ → g.eval σ = true
  vars : pl → ∀ v, Occ v g → V v
  shape : S g
  norm : g.Norm
  old : ∀ v, Occ v g → (cER c).Old v
  aux : ∀ v, Occ v g → V v ∨ ∃ t k, v = .aux t k

theorem TrOk.mono {S E c E' c' T pl V g} (h : TrOk S E c T pl V g) (hx : GExt c E c' E') : TrOk S E' c' T pl V g :=
  ⟨h.sound, fun σ ho => h.compl σ (hx.ok ho), h.plain, h.vars, h.shape, h.norm, fun v hv => hx.old (h.old v hv), h.aux⟩

theorem TrOk.congr {S E c T T' pl pl' V V' g} (h : TrOk S E c T pl V g) (hT : ∀ σ, T σ ↔ T' σ) (hpl : pl' → pl)
    (hV : ∀ v, V v → V' v) : TrOk S E c T' pl' V' g :=
  ⟨fun σ hg => (hT σ).1 (h.sound σ hg), fun σ ho ht => h.compl σ ho ((hT σ).2 ht), fun hp σ ht => h.plain (hpl hp) σ ((hT σ).2 ht),
    fun hp v hv => hV v (h.vars (hpl hp) v hv), h.shape, h.norm, h.old, fun v hv => (h.aux v hv).imp_left (hV v)⟩

/-- Chaining of two transformations. -/
theorem TrOk.trans {S S' E E' c c' T pl V g h'} {V' : Var → Prop} (h : TrOk S E c T pl V g) (hx : GExt c E c' E')
    {pl' : Prop} (hpl : pl → pl') (hV : pl → ∀ v, V' v → V v) (hA : ∀ v, V' v → V v ∨ ∃ t k, v = .aux t k)
    (k : TrOk S' E' c' (fun σ => g.eval σ = true) pl' V' h') : TrOk S' E' c' T pl V h' :=
  ⟨fun σ hg => h.sound σ (k.sound σ hg), fun σ ho ht => k.compl σ ho (h.compl σ (hx.ok ho) ht),
    fun hp σ ht => k.plain (hpl hp) σ (h.plain hp σ ht), fun hp v hv => hV hp v (k.vars (hpl hp) v hv), k.shape, k.norm, k.old,
    fun v hv => (k.aux v hv).elim (hA v) .inr⟩

/-- The formula contains no cardinality or pseudo-Boolean constraint (specification). -/
def NoCon (f : Formula) : Prop := ∀ g, Sub g f → (∀ c, g ≠ .cc c) ∧ (∀ p, g ≠ .pbc p)

/-- Sizes for which the encoders are free of 64-bit overflow and 32-bit truncation: fewer than
`2^30 - 1` terms, coefficients and right-hand side adding up to less than `2^62`; cardinality
networks in addition need distinct variables. -/
structure TFit (cfg : FCfg) (ts : List (Lit × Int)) (rhs : Int) : Prop where
  len : ts.length + 1 < 2 ^ 30
  sum : absSum ts + (if rhs ≥ 0 then rhs else -rhs) < 2 ^ 62
  nodup : cfg.cc.CardNet → (ts.map fun t => t.1.v).Nodup

/-- The term list of a cardinality constraint. -/
def CC.terms (c : CC) : List (Lit × Int) := c.vars.map fun v => (v.p, (1 : Int))

/-- All constraints in the formula are of such size (specification). -/
structure Fit (cfg : FCfg) (f : Formula) : Prop where
  cc : ∀ c, Sub (.cc c) f → TFit cfg c.terms c.rhs
  pbc : ∀ p, Sub (.pbc p) f → TFit cfg p.terms p.rhs

theorem Fit.sub {cfg f g} (h : Fit cfg f) (hs : Sub g f) : Fit cfg g :=
  ⟨fun c hc => h.cc c (hc.trans hs), fun p hp => h.pbc p (hp.trans hs)⟩

theorem NoCon.sub {f g} (h : NoCon f) (hs : Sub g f) : NoCon g := fun k hk => h k (hk.trans hs)

theorem Occ.sub {v f g} (h : Occ v g) (hs : Sub g f) : Occ v f := by
  induction hs with
  | refl => exact h
  | @op o f ho _ h =>
    cases f <;> simp [Formula.operands] at ho
    all_goals first
      | (subst ho; simpa using h)
      | (rcases ho with rfl | rfl <;> simp [h])
      | (simp only [Formula.occ_nary]; exact ⟨_, ho, h⟩)

end Verif
