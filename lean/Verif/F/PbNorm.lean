import Verif.F.Restrict

/-
Normalization of pseudo-Boolean constraints.
-/
namespace Verif

/-- Declaration order of `AuxVarType`, src/formulas/variable.rs:28-37. -/
def AuxTy.rank : AuxTy → Nat
  | .cnf => 0
  | .cc => 1
  | .pb => 2
  | .tmp => 3

theorem AuxTy.rank_inj {s t : AuxTy} (h : s.rank = t.rank) : s = t := by
  cases s <;> cases t <;> simp [AuxTy.rank] at h <;> rfl

/-- The derived order of `Variable`, src/formulas/variable.rs:65-71: named variables by index,
then auxiliary variables by kind and index. -/
def Var.lt : Var → Var → Bool
  | .named a, .named b => decide (a < b)
  | .named _, .aux _ _ => true
  | .aux _ _, .named _ => false
  | .aux s a, .aux t b => decide (s.rank < t.rank) || (decide (s.rank = t.rank) && decide (a < b))

/-- `BTreeMap<Variable, (i64, i64)>` as a list sorted by key. -/
abbrev VMap := List (Var × Int × Int)

/-- `*map.get(&x).unwrap_or(&(0, 0))` followed by `insert(x, ..)` with the updated pair,
pbc_cc.rs:651-656. -/
def VMap.upd (x : Var) (f : Int × Int → Int × Int) : VMap → VMap
  | [] => [(x, f (0, 0))]
  | (y, e) :: m => if x = y then (x, f e) :: m else if x.lt y then (x, f (0, 0)) :: (y, e) :: m else (y, e) :: VMap.upd x f m

/-- The loop pbc_cc.rs:649-657. -/
def collect : List (Lit × Int) → VMap → VMap
  | [], m => m
  | t :: ts, m =>
    collect ts (m.upd t.1.v fun e => if t.1.pos then (e.1, w64 (e.2 + t.2)) else (w64 (e.1 + t.2), e.2))

/-- The loop pbc_cc.rs:659-667. -/
def merge : VMap → Int × List (Lit × Int) → Int × List (Lit × Int)
  | [], s => s
  | (x, first, second) :: m, s =>
    if first < second then merge m (w64 (s.1 - first), s.2 ++ [(x.p, w64 (second - first))])
    else merge m (w64 (s.1 - second), s.2 ++ [(x.n, w64 (first - second))])

/-- `gcd`, pbc_cc.rs:702-704 (`%` truncates towards zero). -/
def rgcd (small big : Int) : Int :=
  if h : small = 0 then big else rgcd (big.tmod small) small
termination_by small.natAbs
decreasing_by
  rw [Int.natAbs_tmod]
  exact Nat.mod_lt _ (by omega)

/-- The `while` loop pbc_cc.rs:678-699; `none`: not finished after `fuel` iterations. -/
def normLoop (sum : Int) : Nat → Int → List (Lit × Int) → Option Formula
  | 0, _, _ => none
  | fuel + 1, c, ts =>
    if c < 0 then some .fls
    else if sum ≤ c then some .tru
    else
      let div := ts.foldl (fun d t => rgcd d t.2) c
      if div ≠ 0 ∧ div ≠ 1 then normLoop sum fuel (c.tdiv div) (ts.map fun t => (t.1, t.2.tdiv div))
      else some (Formula.mkPbc .le c ts)

/-- `normalize_le`, pbc_cc.rs:636-700.  The loop is cut after two iterations (`none`);
`normalizeLe_spec` shows that it always ends before. -/
def normalizeLe (ts : List (Lit × Int)) (rhs : Int) : Option Formula :=
  let ts := ts.filter fun t => decide (t.2 ≠ 0)
  let (c, csps) := merge (collect ts []) (rhs, [])
  let ts := csps.filter fun t => decide (t.2 ≠ 0)
  let sum := ts.foldl (fun s t => w64 (s + t.2)) 0
  normLoop sum 2 c ts

/-- `PbConstraint::normalize`, pbc_cc.rs:497-536. -/
def PBC.normalize (C : Canon) (p : PBC) : Option Formula :=
  let neg := p.terms.map fun t => (t.1, w64 (-t.2))
  match p.cmp with
  | .eq =>
    match normalizeLe p.terms p.rhs, normalizeLe neg (w64 (-p.rhs)) with
    | some f1, some f2 => some (Formula.mkAnd C [f1, f2])
    | _, _ => none
  | .le => normalizeLe p.terms p.rhs
  | .lt => normalizeLe p.terms (w64 (p.rhs - 1))
  | .ge => normalizeLe neg (w64 (-p.rhs))
  | .gt => normalizeLe neg (w64 (w64 (-p.rhs) - 1))

/-! ### Without overflow -/

theorem w64_sub (a b : Int) : w64 (w64 a - b) = w64 (a - b) := by
  rw [Int.sub_eq_add_neg, w64_add, ← Int.sub_eq_add_neg]

def collect' : List (Lit × Int) → VMap → VMap
  | [], m => m
  | t :: ts, m => collect' ts (m.upd t.1.v fun e => if t.1.pos then (e.1, e.2 + t.2) else (e.1 + t.2, e.2))

def wrapM (m : VMap) : VMap := m.map fun e => (e.1, w64 e.2.1, w64 e.2.2)

theorem upd_wrap (x : Var) (f g : Int × Int → Int × Int) (h : ∀ e, f (w64 e.1, w64 e.2) = (w64 (g e).1, w64 (g e).2)) (m : VMap) :
    VMap.upd x f (wrapM m) = wrapM (VMap.upd x g m) := by
  have h0 := h (0, 0)
  simp only [w64_zero] at h0
  induction m with
  | nil => simp [wrapM, VMap.upd, h0]
  | cons e m ih =>
    obtain ⟨y, e1, e2⟩ := e
    have ih' : VMap.upd x f (m.map fun e => (e.1, w64 e.2.1, w64 e.2.2)) = wrapM (VMap.upd x g m) := ih
    simp only [wrapM, List.map_cons, VMap.upd]
    split
    · have := h (e1, e2); simp only at this; simp [this]
    · split
      · simp [h0]
      · rw [ih']; simp [wrapM]

theorem collect_wrap (ts : List (Lit × Int)) : ∀ m, collect ts (wrapM m) = wrapM (collect' ts m) := by
  induction ts with
  | nil => intro m; rfl
  | cons t ts ih =>
    intro m
    simp only [collect, collect']
    rw [upd_wrap t.1.v _ (fun e => if t.1.pos then (e.1, e.2 + t.2) else (e.1 + t.2, e.2)), ih]
    intro e
    split <;> simp [w64_add]

/-- Value and size of the map. -/
def VMap.val (σ : Asg) : VMap → Int
  | [] => 0
  | (x, a, b) :: m => (if σ x then b else a) + VMap.val σ m
def VMap.size : VMap → Int
  | [] => 0
  | (_, a, b) :: m => (if a ≥ 0 then a else -a) + (if b ≥ 0 then b else -b) + VMap.size m

theorem val_upd (σ : Asg) (t : Lit × Int) (m : VMap) :
    VMap.val σ (m.upd t.1.v fun e => if t.1.pos then (e.1, e.2 + t.2) else (e.1 + t.2, e.2)) =
      VMap.val σ m + if t.1.eval σ then t.2 else 0 := by
  have hl : t.1.eval σ = if t.1.pos then σ t.1.v else !σ t.1.v := by rfl
  generalize t.1.eval σ = ev at hl
  induction m with
  | nil => cases hp : t.1.pos <;> cases hs : σ t.1.v <;> simp_all [VMap.upd, VMap.val]
  | cons e m ih =>
    obtain ⟨y, e1, e2⟩ := e
    simp only [VMap.upd]
    split
    · rename_i h; subst h
      cases hp : t.1.pos <;> cases hs : σ t.1.v <;> simp_all [VMap.val] <;> omega
    · split
      · cases hp : t.1.pos <;> cases hs : σ t.1.v <;> simp_all [VMap.val] <;> omega
      · simp only [VMap.val, ih]; omega

theorem size_upd (t : Lit × Int) (m : VMap) :
    VMap.size (m.upd t.1.v fun e => if t.1.pos then (e.1, e.2 + t.2) else (e.1 + t.2, e.2)) ≤
      VMap.size m + if t.2 ≥ 0 then t.2 else -t.2 := by
  induction m with
  | nil => cases hp : t.1.pos <;> simp [VMap.upd, VMap.size]
  | cons e m ih =>
    obtain ⟨y, e1, e2⟩ := e
    simp only [VMap.upd]
    split
    · cases hp : t.1.pos <;> simp only [VMap.size, if_true, Bool.false_eq_true, if_false] <;>
        split <;> split <;> split <;> split <;> omega
    · split
      · cases hp : t.1.pos <;> simp [VMap.size] <;> omega
      · simp only [VMap.size]; omega

theorem upd_keys (x : Var) (f) (m : VMap) : ∀ v, v ∈ (m.upd x f).map (·.1) ↔ v = x ∨ v ∈ m.map (·.1) := by
  intro v
  induction m with
  | nil => simp [VMap.upd]
  | cons e m ih =>
    obtain ⟨y, e1⟩ := e
    simp only [VMap.upd]
    split
    · rename_i h; subst h; simp
    · split
      · simp
      · simp only [List.map_cons, List.mem_cons, ih]
        constructor
        · rintro (h | h | h) <;> simp [h]
        · rintro (h | h | h) <;> simp [h]

theorem Var.lt_trans {a b c : Var} (h : a.lt b = true) (h' : b.lt c = true) : a.lt c = true := by
  cases a <;> cases b <;> cases c <;>
    simp only [Var.lt, Bool.or_eq_true, Bool.and_eq_true, decide_eq_true_eq, Bool.false_eq_true] at h h' ⊢ <;> omega
theorem Var.lt_irrefl (a : Var) : a.lt a = false := by cases a <;> simp [Var.lt]
theorem Var.lt_total {a b : Var} (h : a ≠ b) (h' : a.lt b = false) : b.lt a = true := by
  cases a with
  | named a =>
    cases b with
    | named b =>
      have : a ≠ b := fun e => h (by rw [e])
      simp only [Var.lt, decide_eq_true_eq, decide_eq_false_iff_not] at h' ⊢; omega
    | aux t b => simp [Var.lt] at h'
  | aux s a =>
    cases b with
    | named b => simp [Var.lt]
    | aux t b =>
      simp only [Var.lt, Bool.or_eq_true, Bool.and_eq_true, decide_eq_true_eq, Bool.or_eq_false_iff, Bool.and_eq_false_iff,
        decide_eq_false_iff_not] at h' ⊢
      by_cases hr : s.rank = t.rank
      · have := AuxTy.rank_inj hr
        subst this
        have : a ≠ b := fun e => h (by rw [e])
        omega
      · omega

/-- Keys are in increasing order. -/
def VMap.Sorted (m : VMap) : Prop := (m.map (·.1)).Pairwise fun a b => a.lt b = true

theorem upd_sorted {x : Var} {f} {m : VMap} (h : m.Sorted) : (m.upd x f).Sorted := by
  unfold VMap.Sorted at *
  induction m with
  | nil => simp [VMap.upd]
  | cons e m ih =>
    obtain ⟨y, e1⟩ := e
    simp only [List.map_cons, List.pairwise_cons] at h
    simp only [VMap.upd]
    split
    · rename_i h'; subst h'; simpa using h
    · split
      · rename_i hlt
        simp only [List.map_cons, List.pairwise_cons, List.mem_cons]
        refine ⟨?_, h⟩
        rintro a (rfl | ha)
        · exact hlt
        · exact Var.lt_trans hlt (h.1 a ha)
      · rename_i hne hlt
        simp only [List.map_cons, List.pairwise_cons]
        refine ⟨fun a ha => ?_, ih h.2⟩
        rcases (upd_keys x f m a).1 ha with rfl | ha
        · exact Var.lt_total hne (by simpa using hlt)
        · exact h.1 a ha

theorem sorted_nodup {m : VMap} (h : m.Sorted) : (m.map (·.1)).Nodup := by
  refine List.Pairwise.imp ?_ h
  rintro a b hab rfl
  rw [Var.lt_irrefl] at hab; simp at hab

theorem collect'_spec (ts : List (Lit × Int)) : ∀ m : VMap, m.Sorted →
    (∀ σ, VMap.val σ (collect' ts m) = VMap.val σ m + PBC.lhs σ ts) ∧ VMap.size (collect' ts m) ≤ VMap.size m + absSum ts ∧
    (collect' ts m).Sorted ∧ (∀ v, v ∈ (collect' ts m).map (·.1) ↔ v ∈ m.map (·.1) ∨ ∃ t ∈ ts, t.1.v = v) ∧
    (collect' ts m).length ≤ m.length + ts.length := by
  induction ts with
  | nil => intro m hm; exact ⟨by simp [collect', PBC.lhs], by simp [collect', absSum], hm, by simp [collect'], by simp [collect']⟩
  | cons t ts ih =>
    intro m hm
    obtain ⟨h1, h2, h3, h4, h5⟩ := ih _ (upd_sorted hm (x := t.1.v) (f := fun e => if t.1.pos then (e.1, e.2 + t.2) else (e.1 + t.2, e.2)))
    simp only [collect']
    refine ⟨fun σ => ?_, ?_, h3, fun v => ?_, ?_⟩
    · rw [h1, val_upd]; simp only [PBC.lhs]; omega
    · have := size_upd t m
      simp only [absSum]; omega
    · rw [h4, upd_keys]
      simp only [List.mem_cons, exists_eq_or_imp]
      constructor
      · rintro ((h | h) | h)
        · exact .inr (.inl h.symm)
        · exact .inl h
        · exact .inr (.inr h)
      · rintro (h | h | h)
        · exact .inl (.inr h)
        · exact .inl (.inl h.symm)
        · exact .inr h
    · have : ∀ (m : VMap) f, (m.upd t.1.v f).length ≤ m.length + 1 := by
        intro m f
        induction m with
        | nil => simp [VMap.upd]
        | cons e m ih =>
          obtain ⟨y, e1⟩ := e
          simp only [VMap.upd]
          split
          · simp
          · split
            · simp
            · simp only [List.length_cons]; omega
      have := this m (fun e => if t.1.pos then (e.1, e.2 + t.2) else (e.1 + t.2, e.2))
      simp only [List.length_cons]; omega

theorem size_nonneg (m : VMap) : 0 ≤ VMap.size m := by
  induction m with
  | nil => simp [VMap.size]
  | cons e m ih => obtain ⟨x, a, b⟩ := e; simp only [VMap.size]; split <;> split <;> omega

theorem wrapM_id {m : VMap} (h : VMap.size m < 2 ^ 63) : wrapM m = m := by
  induction m with
  | nil => rfl
  | cons e m ih =>
    obtain ⟨x, a, b⟩ := e
    simp only [VMap.size] at h
    have := size_nonneg m
    have ha : I64 a := by constructor <;> (split at h <;> split at h <;> omega)
    have hb : I64 b := by constructor <;> (split at h <;> split at h <;> omega)
    have hm := ih (by split at h <;> split at h <;> omega)
    unfold wrapM at hm ⊢
    simp [w64_id ha, w64_id hb, hm]

theorem collect_eq {ts : List (Lit × Int)} (h : absSum ts < 2 ^ 63) : collect ts [] = collect' ts [] := by
  have h1 := (collect'_spec ts [] (by simp [VMap.Sorted])).2.1
  simp only [VMap.size, Int.zero_add] at h1
  have := collect_wrap ts []
  rw [wrapM_id (m := collect' ts []) (by omega)] at this
  exact this

/-- The merged constraint. -/
theorem merge_spec (m : VMap) : ∀ c T r, VMap.size m + (if c ≥ 0 then c else -c) < 2 ^ 63 → merge m (c, T) = r →
    ∃ T2, r.2 = T ++ T2 ∧ (∀ σ, VMap.val σ m - c = PBC.lhs σ T2 - r.1) ∧ (∀ t ∈ T2, 0 ≤ t.2) ∧
      T2.map (fun t => t.1.v) = m.map (·.1) ∧ absSum T2 ≤ VMap.size m ∧ I64 r.1 := by
  induction m with
  | nil =>
    rintro c T r hb rfl
    refine ⟨[], by simp [merge], by simp [merge, VMap.val, PBC.lhs], by simp, by simp, by simp [absSum, VMap.size], ?_⟩
    simp only [VMap.size] at hb
    constructor <;> (simp only [merge]; split at hb <;> omega)
  | cons e m ih =>
    rintro c T r hb hr
    obtain ⟨x, a, b⟩ := e
    have hn := size_nonneg m
    simp only [VMap.size] at hb
    simp only [merge] at hr
    split at hr
    · rename_i hlt
      have e1 : w64 (c - a) = c - a := w64_id (by constructor <;> (split at hb <;> split at hb <;> split at hb <;> omega))
      have e2 : w64 (b - a) = b - a := w64_id (by constructor <;> (split at hb <;> split at hb <;> split at hb <;> omega))
      rw [e1, e2] at hr
      obtain ⟨T2, h1, h2, h3, h4, h5, h6⟩ := ih _ _ _ (by split at hb <;> split at hb <;> split at hb <;> split <;> omega) hr
      refine ⟨(x.p, b - a) :: T2, by simp [h1], fun σ => ?_, ?_, by simp [h4], ?_, h6⟩
      · have := h2 σ
        simp only [VMap.val, PBC.lhs, Lit.eval_p]
        split <;> omega
      · intro t ht
        rcases List.mem_cons.1 ht with rfl | ht
        · simp only; omega
        · exact h3 t ht
      · simp only [absSum, VMap.size]
        split <;> split <;> split <;> omega
    · rename_i hlt
      have e1 : w64 (c - b) = c - b := w64_id (by constructor <;> (split at hb <;> split at hb <;> split at hb <;> omega))
      have e2 : w64 (a - b) = a - b := w64_id (by constructor <;> (split at hb <;> split at hb <;> split at hb <;> omega))
      rw [e1, e2] at hr
      obtain ⟨T2, h1, h2, h3, h4, h5, h6⟩ := ih _ _ _ (by split at hb <;> split at hb <;> split at hb <;> split <;> omega) hr
      refine ⟨(x.n, a - b) :: T2, by simp [h1], fun σ => ?_, ?_, by simp [h4], ?_, h6⟩
      · have := h2 σ
        simp only [VMap.val, PBC.lhs, Lit.eval_n]
        cases σ x <;> simp <;> omega
      · intro t ht
        rcases List.mem_cons.1 ht with rfl | ht
        · simp only; omega
        · exact h3 t ht
      · simp only [absSum, VMap.size]
        split <;> split <;> split <;> omega

theorem lhs_filter (σ : Asg) (ts : List (Lit × Int)) : PBC.lhs σ (ts.filter fun t => decide (t.2 ≠ 0)) = PBC.lhs σ ts := by
  induction ts with
  | nil => rfl
  | cons t ts ih =>
    by_cases h : t.2 = 0
    · rw [List.filter_cons_of_neg (by simp [h]), ih]; simp [PBC.lhs, h]
    · rw [List.filter_cons_of_pos (by simp [h])]; simp only [PBC.lhs, ih]

theorem absSum_filter (ts : List (Lit × Int)) : absSum (ts.filter fun t => decide (t.2 ≠ 0)) = absSum ts := by
  induction ts with
  | nil => rfl
  | cons t ts ih =>
    by_cases h : t.2 = 0
    · rw [List.filter_cons_of_neg (by simp [h]), ih]; simp [absSum, h]
    · rw [List.filter_cons_of_pos (by simp [h])]; simp only [absSum, ih]

/-- Sum of the coefficients (specification). -/
def coefSum : List (Lit × Int) → Int
  | [] => 0
  | t :: ts => t.2 + coefSum ts

theorem coefSum_nonneg {ts : List (Lit × Int)} (h : ∀ t ∈ ts, 0 ≤ t.2) : coefSum ts = absSum ts := by
  induction ts with
  | nil => rfl
  | cons t ts ih =>
    have := h t (by simp)
    simp [coefSum, absSum, ih fun u hu => h u (by simp [hu]), this]

theorem sum_fold (ts : List (Lit × Int)) : ∀ a, ts.foldl (fun s t => w64 (s + t.2)) (w64 a) = w64 (a + coefSum ts) := by
  induction ts with
  | nil => intro a; simp [coefSum]
  | cons t ts ih => intro a; simp only [List.foldl_cons, coefSum, w64_add]; rw [ih]; simp [Int.add_assoc]

theorem rgcd_eq (a b : Int) (ha : 0 ≤ a) (hb : 0 ≤ b) : rgcd a b = Int.gcd a b := by
  obtain ⟨m, rfl⟩ := Int.eq_ofNat_of_zero_le ha
  obtain ⟨n, rfl⟩ := Int.eq_ofNat_of_zero_le hb
  clear ha hb
  induction m using Nat.strongRecOn generalizing n with
  | _ m ih =>
    rw [rgcd]
    split
    · rename_i h
      have : m = 0 := by omega
      subst this; simp
    · rename_i h
      have e : (n : Int).tmod m = ((n % m : Nat) : Int) := rfl
      rw [e, ih _ (Nat.mod_lt _ (by omega))]
      simp only [Int.gcd_natCast_natCast]
      rw [Nat.gcd_rec m n]

theorem fold_gcd (ts : List (Lit × Int)) (hp : ∀ t ∈ ts, 0 ≤ t.2) : ∀ c, 0 ≤ c →
    0 ≤ ts.foldl (fun d t => rgcd d t.2) c ∧ (∀ k : Int, (k ∣ ts.foldl (fun d t => rgcd d t.2) c) ↔ k ∣ c ∧ ∀ t ∈ ts, k ∣ t.2) := by
  induction ts with
  | nil => intro c hc; simpa using hc
  | cons t ts ih =>
    intro c hc
    simp only [List.foldl_cons]
    rw [rgcd_eq _ _ hc (hp t (by simp))]
    obtain ⟨h1, h2⟩ := ih (fun u hu => hp u (by simp [hu])) (Int.gcd c t.2) (by omega)
    refine ⟨h1, fun k => ?_⟩
    rw [h2]
    have : k ∣ (Int.gcd c t.2 : Int) ↔ k ∣ c ∧ k ∣ t.2 := Int.dvd_coe_gcd_iff
    rw [this]
    simp [and_assoc]

theorem lhs_scale (σ : Asg) (d : Int) (ts us : List (Lit × Int)) (h : ts = us.map fun t => (t.1, d * t.2)) :
    PBC.lhs σ ts = d * PBC.lhs σ us := by
  subst h
  induction us with
  | nil => simp [PBC.lhs]
  | cons t us ih =>
    simp only [List.map_cons, PBC.lhs, ih, Int.mul_add]
    split <;> simp

theorem coefSum_scale (d : Int) (us : List (Lit × Int)) : coefSum (us.map fun t => (t.1, d * t.2)) = d * coefSum us := by
  induction us with
  | nil => simp [coefSum]
  | cons t us ih => simp only [List.map_cons, coefSum, ih, Int.mul_add]

/-- A normal `<=` constraint: positive coefficients over pairwise distinct variables, not
trivially true or false (specification). -/
structure NormTerms (c : Int) (ts : List (Lit × Int)) : Prop where
  pos : ∀ t ∈ ts, 0 < t.2
  nodup : (ts.map fun t => t.1.v).Nodup
  nonneg : 0 ≤ c
  lt : c < coefSum ts

/-- Results of `normalize_le` (specification). -/
def IsNormLe (f : Formula) : Prop :=
  f = .tru ∨ f = .fls ∨ (∃ c : CC, f = .cc c ∧ c.cmp = .le ∧ c.vars.Nodup ∧ c.rhs < c.vars.length) ∨
  (∃ p : PBC, f = .pbc p ∧ p.cmp = .le ∧ NormTerms p.rhs p.terms)

theorem coefSum_ones {ts : List (Lit × Int)} (h : ∀ t ∈ ts, t.2 = 1) : coefSum ts = ts.length := by
  induction ts with
  | nil => rfl
  | cons t ts ih =>
    simp only [coefSum, List.length_cons, h t (by simp), ih fun u hu => h u (by simp [hu])]
    omega

theorem coef_le_sum {ts : List (Lit × Int)} (hp : ∀ t ∈ ts, 0 ≤ t.2) {t} (h : t ∈ ts) : t.2 ≤ coefSum ts := by
  rw [coefSum_nonneg hp]; exact (coef_le_absSum h).2

theorem mkPbc_norm {c : Int} {ts : List (Lit × Int)} (h : NormTerms c ts) (hl : ts.length < 2 ^ 32) (hs : coefSum ts < 2 ^ 63) :
    IsNormLe (Formula.mkPbc .le c ts) ∧ (Formula.mkPbc .le c ts).Norm ∧
      (∀ σ, (Formula.mkPbc .le c ts).eval σ = decide (PBC.lhs σ ts ≤ c)) := by
  have hf : Formula.RhsFits c ts := by
    intro _ h1
    have := h.lt
    rw [coefSum_ones h1] at this
    omega
  have hr : I64 c := by have := h.nonneg; have := h.lt; constructor <;> omega
  refine ⟨?_, Formula.norm_mkPbc hf hr fun t ht => ?_, fun σ => by rw [Formula.eval_mkPbc _ _ _ _ hf]; rfl⟩
  · unfold Formula.mkPbc
    split
    · rename_i h0; subst h0; have := h.lt; have := h.nonneg; simp only [coefSum] at *; omega
    · rename_i h0
      split
      · rename_i h1
        simp only [Formula.isLitCc, Bool.and_eq_true, List.all_eq_true, beq_iff_eq] at h1
        have h2 := h.lt
        rw [coefSum_ones h1.1.2] at h2
        have h3 := h.nonneg
        right; right; left
        rw [Formula.constructCc, if_neg (by simpa using h0), if_pos h3]
        refine ⟨_, rfl, rfl, h.nodup, ?_⟩
        simp only [List.length_map]
        rw [Nat.mod_eq_of_lt (by omega)]; omega
      · exact .inr (.inr (.inr ⟨_, rfl, rfl, h⟩))
  · have h1 := h.pos t ht
    have h2 := coef_le_sum (fun t ht => by have := h.pos t ht; omega) ht
    constructor <;> omega

theorem normLoop_spec {c : Int} {ts : List (Lit × Int)} (hp : ∀ t ∈ ts, 0 < t.2) (hd : (ts.map fun t => t.1.v).Nodup)
    (hl : ts.length < 2 ^ 32) (hs : coefSum ts < 2 ^ 63) :
    ∃ f, normLoop (coefSum ts) 2 c ts = some f ∧ IsNormLe f ∧ f.Norm ∧ (∀ σ, f.eval σ = decide (PBC.lhs σ ts ≤ c)) := by
  have hp0 : ∀ t ∈ ts, 0 ≤ t.2 := fun t ht => by have := hp t ht; omega
  have hb : ∀ σ, 0 ≤ PBC.lhs σ ts ∧ PBC.lhs σ ts ≤ coefSum ts := by
    intro σ
    clear hd hl hs
    induction ts with
    | nil => simp [PBC.lhs, coefSum]
    | cons t ts ih =>
      have := ih (fun u hu => hp u (by simp [hu])) (fun u hu => hp0 u (by simp [hu]))
      have := hp t (by simp)
      simp only [PBC.lhs, coefSum]
      split <;> omega
  simp only [normLoop]
  split
  · rename_i hc
    exact ⟨_, rfl, .inr (.inl rfl), .fls, fun σ => by have := hb σ; simp; omega⟩
  split
  · rename_i hc
    exact ⟨_, rfl, .inl rfl, .tru, fun σ => by have := hb σ; simp; omega⟩
  rename_i hc0 hc1
  have hc0 : 0 ≤ c := by omega
  obtain ⟨g0, gdvd⟩ := fold_gcd ts hp0 c hc0
  generalize hdiv : ts.foldl (fun d t => rgcd d t.2) c = d at g0 gdvd ⊢
  split
  · rename_i hd01
    have hdpos : 0 < d := by omega
    obtain ⟨dc, dts⟩ := (gdvd d).1 (Int.dvd_refl d)
    obtain ⟨c', rfl⟩ := dc
    have hts : ∃ us : List (Lit × Int), ts = us.map fun t => (t.1, d * t.2) := by
      clear hb hd hl hs hdiv gdvd hp hp0 hc1
      induction ts with
      | nil => exact ⟨[], rfl⟩
      | cons t ts ih =>
        obtain ⟨us, e⟩ := ih fun u hu => dts u (by simp [hu])
        obtain ⟨q, hq⟩ := dts t (by simp)
        exact ⟨(t.1, q) :: us, by simp [← e, ← hq]⟩
    obtain ⟨us, rfl⟩ := hts
    have e1 : (d * c').tdiv d = c' := Int.mul_tdiv_cancel_left _ (by omega)
    have e2 : ((us.map fun t => (t.1, d * t.2)).map fun t => (t.1, t.2.tdiv d)) = us := by
      simp only [List.map_map]
      conv => rhs; rw [← List.map_id us]
      apply List.map_congr_left
      intro t _
      simp [Int.mul_tdiv_cancel_left _ (show d ≠ 0 by omega)]
    rw [e1, e2]
    have hc' : 0 ≤ c' := by
      by_contra h
      have : d * c' < 0 := Int.mul_neg_of_pos_of_neg hdpos (by omega)
      omega
    have hp' : ∀ t ∈ us, 0 < t.2 := by
      intro t ht
      have := hp (t.1, d * t.2) (List.mem_map.2 ⟨t, ht, rfl⟩)
      simp only at this
      by_contra hx
      have : d * t.2 ≤ d * 0 := Int.mul_le_mul_of_nonneg_left (by omega) (by omega)
      omega
    have hle : c' ≤ d * c' := by
      have := Int.mul_le_mul_of_nonneg_right (show (1 : Int) ≤ d by omega) hc'
      omega
    have hsum := coefSum_scale d us
    have hlt : c' < coefSum us := by
      rw [hsum] at hc1
      exact Int.lt_of_mul_lt_mul_left (by omega : d * c' < d * coefSum us) (by omega)
    have hsle : coefSum us ≤ d * coefSum us := by
      have := Int.mul_le_mul_of_nonneg_right (show (1 : Int) ≤ d by omega) (show 0 ≤ coefSum us by omega)
      omega
    obtain ⟨k0, kdvd⟩ := fold_gcd us (fun t ht => by have := hp' t ht; omega) c' hc'
    have hone : us.foldl (fun d t => rgcd d t.2) c' = 1 := by
      generalize us.foldl (fun d t => rgcd d t.2) c' = e at k0 kdvd
      have h1 := (kdvd e).1 (Int.dvd_refl e)
      have h2 : d * e ∣ d := by
        refine (gdvd (d * e)).2 ⟨Int.mul_dvd_mul (Int.dvd_refl d) h1.1, fun t ht => ?_⟩
        obtain ⟨u, hu, rfl⟩ := List.mem_map.1 ht
        exact Int.mul_dvd_mul (Int.dvd_refl d) (h1.2 u hu)
      obtain ⟨q, hq⟩ := h2
      have h3 : e * q = 1 := by
        have : d * (e * q) = d * 1 := by rw [← Int.mul_assoc, ← hq, Int.mul_one]
        exact Int.eq_of_mul_eq_mul_left (by omega) this
      have := Int.le_of_dvd (by omega) (⟨q, h3.symm⟩ : e ∣ 1)
      have : e ≠ 0 := by rintro rfl; simp at h3
      omega
    rw [if_neg (by omega), if_neg (by rw [hsum] at hc1 ⊢; omega), hone]
    simp only [ne_eq, not_true_eq_false, and_false, if_false, Option.some.injEq, exists_eq_left']
    obtain ⟨r1, r2, r3⟩ := mkPbc_norm (c := c') (ts := us)
      ⟨hp', by simpa [Function.comp_def] using hd, hc', hlt⟩ (by simpa using hl) (by omega)
    refine ⟨r1, r2, fun σ => ?_⟩
    rw [r3, lhs_scale σ d _ us rfl]
    simp only [decide_eq_decide]
    constructor
    · intro h; exact Int.mul_le_mul_of_nonneg_left h (by omega)
    · intro h; exact Int.le_of_mul_le_mul_left h hdpos
  · obtain ⟨r1, r2, r3⟩ := mkPbc_norm (c := c) (ts := ts) ⟨hp, hd, hc0, by omega⟩ hl hs
    exact ⟨_, rfl, r1, r2, r3⟩

theorem normalizeLe_spec {ts : List (Lit × Int)} {rhs : Int} (hl : ts.length < 2 ^ 32)
    (hb : absSum ts + (if rhs ≥ 0 then rhs else -rhs) < 2 ^ 63) :
    ∃ f, normalizeLe ts rhs = some f ∧ IsNormLe f ∧ f.Norm ∧ (∀ σ, f.eval σ = decide (PBC.lhs σ ts ≤ rhs)) := by
  unfold normalizeLe
  simp only
  have ha := absSum_filter ts
  have hlf := fun σ => lhs_filter σ ts
  have hlen : (ts.filter fun t => decide (t.2 ≠ 0)).length ≤ ts.length := List.length_filter_le ..
  generalize ts.filter (fun t => decide (t.2 ≠ 0)) = us at ha hlf hlen
  rw [collect_eq (by split at hb <;> omega)]
  obtain ⟨h1, h2, h3, h4, h5⟩ := collect'_spec us [] (by simp [VMap.Sorted])
  simp only [VMap.val, VMap.size, Int.zero_add, List.length_nil, Nat.zero_add] at h1 h2 h5
  generalize collect' us [] = m at h1 h2 h3 h4 h5
  obtain ⟨T2, k1, k2, k3, k4, k5, k6⟩ := merge_spec m rhs [] _ (by split at hb <;> split <;> omega) rfl
  generalize merge m (rhs, []) = r at k1 k2 k6
  obtain ⟨c, T⟩ := r
  simp only [List.nil_append] at k1 k2 k6 ⊢
  subst k1
  have q1 := absSum_filter T
  have q2 := fun σ => lhs_filter σ T
  have q3 : ∀ t ∈ T.filter (fun t => decide (t.2 ≠ 0)), 0 < t.2 := by
    intro t ht
    simp only [List.mem_filter, decide_eq_true_eq] at ht
    have := k3 t ht.1
    omega
  have q4 : ((T.filter fun t => decide (t.2 ≠ 0)).map fun t => t.1.v).Nodup := by
    have : (T.map fun t => t.1.v).Nodup := by rw [k4]; exact sorted_nodup h3
    exact this.sublist (List.Sublist.map _ List.filter_sublist)
  have q5 : (T.filter fun t => decide (t.2 ≠ 0)).length ≤ T.length := List.length_filter_le ..
  have q6 : T.length = m.length := by simpa using congrArg List.length k4
  generalize T.filter (fun t => decide (t.2 ≠ 0)) = U at q1 q2 q3 q4 q5
  have hcs := coefSum_nonneg (ts := U) fun t ht => by have := q3 t ht; omega
  have hU := absSum_nonneg U
  have hsum : U.foldl (fun s t => w64 (s + t.2)) 0 = coefSum U := by
    have := sum_fold U 0
    rw [w64_zero, Int.zero_add] at this
    rw [this, w64_id]
    constructor <;> (split at hb <;> omega)
  rw [hsum]
  obtain ⟨f, e, r1, r2, r3⟩ := normLoop_spec (c := c) q3 q4 (by omega) (by split at hb <;> omega)
  refine ⟨f, e, r1, r2, fun σ => ?_⟩
  rw [r3, decide_eq_decide]
  have := h1 σ
  have := k2 σ
  have := q2 σ
  have := hlf σ
  omega

theorem lhs_neg (σ : Asg) (ts : List (Lit × Int)) : PBC.lhs σ (ts.map fun t => (t.1, -t.2)) = - PBC.lhs σ ts := by
  induction ts with
  | nil => rfl
  | cons t ts ih => simp only [List.map_cons, PBC.lhs, ih]; split <;> omega

theorem absSum_neg (ts : List (Lit × Int)) : absSum (ts.map fun t => (t.1, -t.2)) = absSum ts := by
  induction ts with
  | nil => rfl
  | cons t ts ih => simp only [List.map_cons, absSum, ih]; split <;> split <;> omega

/-- Results of `normalize` (specification). -/
def IsPbNormal (C : Canon) (f : Formula) : Prop := IsNormLe f ∨ ∃ g h, f = Formula.mkAnd C [g, h] ∧ IsNormLe g ∧ IsNormLe h

theorem normalize_spec (C : Canon) {p : PBC} (hl : p.terms.length < 2 ^ 32)
    (hb : absSum p.terms + (if p.rhs ≥ 0 then p.rhs else -p.rhs) < 2 ^ 63 - 1) :
    ∃ f, p.normalize C = some f ∧ IsPbNormal C f ∧ (p.cmp ≠ .eq → IsNormLe f) ∧ f.Norm ∧ (∀ σ, f.eval σ = p.eval σ) := by
  have hn := absSum_nonneg p.terms
  have hneg : (p.terms.map fun t => (t.1, w64 (-t.2))) = p.terms.map fun t => (t.1, -t.2) := by
    apply List.map_congr_left
    intro t ht
    have := coef_le_absSum ht
    rw [w64_id]
    constructor <;> (split at hb <;> omega)
  have hr : w64 (-p.rhs) = -p.rhs := w64_id (by constructor <;> (split at hb <;> omega))
  have hr1 : w64 (p.rhs - 1) = p.rhs - 1 := w64_id (by constructor <;> (split at hb <;> omega))
  have hr2 : w64 (-p.rhs - 1) = -p.rhs - 1 := w64_id (by constructor <;> (split at hb <;> omega))
  unfold PBC.normalize
  simp only [hneg, hr, hr1, hr2]
  have one : ∀ {ts : List (Lit × Int)} {rhs : Int}, ts.length = p.terms.length → absSum ts = absSum p.terms →
      (if rhs ≥ 0 then rhs else -rhs) ≤ (if p.rhs ≥ 0 then p.rhs else -p.rhs) + 1 →
      ∃ f, normalizeLe ts rhs = some f ∧ IsNormLe f ∧ f.Norm ∧ (∀ σ, f.eval σ = decide (PBC.lhs σ ts ≤ rhs)) :=
    fun h1 h2 h3 => normalizeLe_spec (by omega) (by omega)
  have wrap : ∀ {x : Option Formula}, (∃ f, x = some f ∧ IsNormLe f ∧ f.Norm ∧ (∀ σ, f.eval σ = p.eval σ)) →
      ∃ f, x = some f ∧ IsPbNormal C f ∧ (p.cmp ≠ .eq → IsNormLe f) ∧ f.Norm ∧ (∀ σ, f.eval σ = p.eval σ) := by
    rintro x ⟨f, h1, h2, h3, h4⟩
    exact ⟨f, h1, .inl h2, fun _ => h2, h3, h4⟩
  cases hc : p.cmp with
  | eq =>
    obtain ⟨f, e1, r1, r2, r3⟩ := one (ts := p.terms) (rhs := p.rhs) rfl rfl (by omega)
    obtain ⟨g, e2, s1, s2, s3⟩ := one (ts := p.terms.map fun t => (t.1, -t.2)) (rhs := -p.rhs) (by simp) (absSum_neg _)
      (by split <;> split <;> omega)
    simp only [e1, e2]
    refine ⟨_, rfl, .inr ⟨f, g, rfl, r1, s1⟩, by simp, Formula.norm_mkNary C _ ?_, fun σ => ?_⟩
    · intro x hx
      simp only [List.mem_cons, List.not_mem_nil, or_false] at hx
      rcases hx with rfl | rfl
      · exact r2
      · exact s2
    · rw [Formula.eval_mkAnd]
      simp only [List.all_cons, List.all_nil, Bool.and_true, r3, s3, lhs_neg, PBC.eval, hc, Cmp.test]
      rw [Bool.eq_iff_iff]
      simp only [Bool.and_eq_true, decide_eq_true_eq]
      omega
  | le =>
    simp only
    rw [← hc]
    apply wrap
    obtain ⟨f, e1, r1, r2, r3⟩ := one (ts := p.terms) (rhs := p.rhs) rfl rfl (by omega)
    exact ⟨f, e1, r1, r2, fun σ => by rw [r3]; simp only [PBC.eval, hc, Cmp.test]⟩
  | lt =>
    simp only
    rw [← hc]
    apply wrap
    obtain ⟨f, e1, r1, r2, r3⟩ := one (ts := p.terms) (rhs := p.rhs - 1) rfl rfl (by split <;> split <;> omega)
    exact ⟨f, e1, r1, r2, fun σ => by rw [r3]; simp only [PBC.eval, hc, Cmp.test, decide_eq_decide]; omega⟩
  | ge =>
    simp only
    rw [← hc]
    apply wrap
    obtain ⟨f, e1, r1, r2, r3⟩ := one (ts := p.terms.map fun t => (t.1, -t.2)) (rhs := -p.rhs) (by simp) (absSum_neg _) (by split <;> split <;> omega)
    exact ⟨f, e1, r1, r2, fun σ => by rw [r3, lhs_neg]; simp only [PBC.eval, hc, Cmp.test, decide_eq_decide]; omega⟩
  | gt =>
    simp only
    rw [← hc]
    apply wrap
    obtain ⟨f, e1, r1, r2, r3⟩ := one (ts := p.terms.map fun t => (t.1, -t.2)) (rhs := -p.rhs - 1) (by simp) (absSum_neg _) (by split <;> split <;> omega)
    exact ⟨f, e1, r1, r2, fun σ => by rw [r3, lhs_neg]; simp only [PBC.eval, hc, Cmp.test, decide_eq_decide]; omega⟩

end Verif
