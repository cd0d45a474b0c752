import Verif.Props.Bdd
import Verif.Bdd.Profile
import Verif.F.Subsume
/-
C70: the numbers a BDD reports about itself.

`node_count` is the number of functions the BDD branches on: those that fixing
the first variables of the ordering to constants leaves, and that depend on the
next variable.  `variable_profile` tells how many of them there are for each
variable, and panics if the kernel has a variable without name.
`number_of_clauses_cnf` and `number_of_terms_dnf` are the numbers of clauses and
terms of the formulas `cnf` and `dnf` return.
-/
namespace Verif
namespace Bdd
open ER

/-- `g` is what remains of the BDD `r` after fixing the first `i` variables (specification). -/
def SubFn (k : Kernel Var) (r i : Nat) (g : Asg → Bool) : Prop :=
  ∃ σ₀ : Asg, ∀ σ : Asg, k.value r (fun v => if v ∈ k.idx.take i then σ₀ v else σ v) = some (g σ)

/-- The value of `v` matters to `g` (specification). -/
def DepOn (v : Var) (g : Asg → Bool) : Prop := ∃ σ : Asg, g (fun w => if w = v then true else σ w) ≠ g (fun w => if w = v then false else σ w)

/-- The function of a tree. -/
def fnOf (idx : List Var) (u : BT) : Asg → Bool := fun σ => u.eval (valOf idx σ fun _ => false)

theorem mem_take_iff {l : List Var} (hn : l.Nodup) {i j : Nat} {v : Var} (h : l[j]? = some v) : v ∈ l.take i ↔ j < i := by
  obtain ⟨hj, e⟩ := List.getElem?_eq_some_iff.1 h
  rw [List.mem_take_iff_getElem]
  constructor
  · rintro ⟨n, hn', e'⟩
    have : n = j := (hn.getElem_inj_iff (hi := by omega) (hj := hj)).1 (e'.trans e.symm)
    omega
  · intro hji
    exact ⟨j, by omega, e⟩

theorem agr_mix {idx : List Var} (hn : idx.Nodup) {i : Nat} {ρ₀ ρ : Nat → Bool} {σ₀ σ : Asg} (h0 : Agr idx ρ₀ σ₀) (h : Agr idx ρ σ) :
    Agr idx (mix i ρ₀ ρ) (fun v => if v ∈ idx.take i then σ₀ v else σ v) := fun j v hv => by
  show (if j < i then ρ₀ j else ρ j) = if v ∈ idx.take i then σ₀ v else σ v
  by_cases hj : j < i
  · rw [if_pos hj, if_pos ((mem_take_iff hn hv).2 hj), h0 j v hv]
  · rw [if_neg hj, if_neg (fun hm => hj ((mem_take_iff hn hv).1 hm)), h j v hv]

theorem agr_set {idx : List Var} (hn : idx.Nodup) {i : Nat} {v : Var} (hv : idx[i]? = some v) {ρ : Nat → Bool} {σ : Asg} (h : Agr idx ρ σ) (b : Bool) :
    Agr idx (BT.set ρ i b) (fun w => if w = v then b else σ w) := fun j w hw => by
  show (if j = i then b else ρ j) = if w = v then b else σ w
  by_cases hj : j = i
  · subst hj; rw [hv] at hw; cases hw; simp
  · rw [if_neg hj, if_neg (fun e => hj (nodup_fun hn (by rw [hw, e]) hv)), h j w hw]

theorem agr_eval {idx : List Var} {u : BT} {b : Nat} (ho : BT.Ord idx.length b u) {ρ ρ' : Nat → Bool} {σ : Asg} (h : Agr idx ρ σ) (h' : Agr idx ρ' σ) : u.eval ρ = u.eval ρ' :=
  BT.eval_congr ho fun j _ hj => by
    have := List.getElem?_eq_getElem hj
    rw [h j _ this, h' j _ this]

/-- What remains after fixing variables and depends on the next one: the nodes of that variable. -/
theorem subFn_iff {k : Kernel Var} {r : Nat} {t : BT} (hn : k.idx.Nodup) (ho : BT.Ord k.idx.length 0 t) (hr : t.Red)
    (hval : ∀ ρ σ, Agr k.idx ρ σ → k.value r σ = some (t.eval ρ)) {i : Nat} {v : Var} (hv : k.idx[i]? = some v) (g : Asg → Bool) :
    (SubFn k r i g ∧ DepOn v g) ↔ ∃ u ∈ t.subs, u.level k.idx.length = i ∧ fnOf k.idx u = g := by
  constructor
  · rintro ⟨⟨σ₀, h⟩, σ, hne⟩
    have ag0 := agr_valOf k.idx σ₀ fun _ => false
    have hg : ∀ ρ σ, Agr k.idx ρ σ → t.eval (mix i (valOf k.idx σ₀ fun _ => false) ρ) = g σ := fun ρ σ ha => by
      have := h σ
      rw [hval _ _ (agr_mix hn ag0 ha)] at this
      exact Option.some.inj this
    have ag := agr_valOf k.idx σ fun _ => false
    obtain ⟨u, hu, hl, he⟩ := (subs_fn ho hr i fun ρ => t.eval (mix i (valOf k.idx σ₀ fun _ => false) ρ)).1
      ⟨⟨_, fun _ => rfl⟩, valOf k.idx σ fun _ => false, by
        show t.eval _ ≠ t.eval _
        rw [hg _ _ (agr_set hn hv ag true), hg _ _ (agr_set hn hv ag false)]; exact hne⟩
    refine ⟨u, hu, hl, funext fun τ => ?_⟩
    unfold fnOf
    rw [he, hg _ _ (agr_valOf k.idx τ fun _ => false)]
  · rintro ⟨u, hu, hl, rfl⟩
    have uo := (subs_ord ho hr hu).2.2
    obtain ⟨⟨ρ₀, h⟩, ρ, hne⟩ := (subs_fn ho hr i fun ρ => u.eval ρ).2 ⟨u, hu, hl, fun _ => rfl⟩
    refine ⟨⟨asgOf k.idx ρ₀ fun _ => false, fun σ => ?_⟩, asgOf k.idx ρ fun _ => false, ?_⟩
    · rw [hval _ _ (agr_mix hn (agr_asgOf hn ρ₀ _) (agr_valOf k.idx σ fun _ => false)), h]; rfl
    · have ag := agr_asgOf hn ρ fun _ => false
      unfold fnOf
      rw [← agr_eval uo (agr_set hn hv ag true) (agr_valOf _ _ _), ← agr_eval uo (agr_set hn hv ag false) (agr_valOf _ _ _)]
      exact hne

theorem fnOf_inj {idx : List Var} (hn : idx.Nodup) {u w : BT} (ou : BT.Ord idx.length 0 u) (ow : BT.Ord idx.length 0 w) (ru : u.Red) (rw' : w.Red) (h : fnOf idx u = fnOf idx w) : u = w :=
  BT.canonical _ (Nat.le_refl _) ou ow ru rw' fun ρ => by
    have ag := agr_asgOf hn ρ fun _ => false
    have := congrFun h (asgOf idx ρ fun _ => false)
    unfold fnOf at this
    rw [agr_eval ou ag (agr_valOf idx _ fun _ => false), this, agr_eval ow ag (agr_valOf idx _ fun _ => false)]

section
variable {C : Canon} {cfg : FCfg} {c : AuxTy → Nat}

theorem fns_ok (hcfg : cfg.cc.Good) {s r} (h : Readable C cfg c s r) : ∃ gs : List (Nat × (Asg → Bool)), (gs.map Prod.snd).Nodup ∧
    s.k.nodeCount r = some (gs.length, fun _ => false) ∧ s.k.profile r = some ((fun i => gs.countP fun p => p.1 == i), fun _ => false) ∧
    ∀ i g, (i, g) ∈ gs ↔ ∃ v, s.k.idx[i]? = some v ∧ SubFn s.k r i g ∧ DepOn v g := by
  obtain ⟨⟨F, ⟨t, d, o, e⟩, b⟩, H, hp⟩ := h.inv hcfg
  have hr := hp.den_red d
  have o' : BT.Ord s.k.idx.length 0 t := ord_of_lv t 0 hr o fun ρ ρ' h => by show t.eval ρ = t.eval ρ'; rw [e, e]; exact b ρ ρ' h
  have hval : ∀ ρ σ, Agr s.k.idx ρ σ → s.k.value r σ = some (t.eval ρ) := fun ρ σ ha => by
    rw [value_ok hp.toKInv ⟨t, d, o, e⟩ b ha, e]
  obtain ⟨new, hnd, h1, h2, h3, h4⟩ := count_ok hp.toKInv d
  classical
  let T : Nat → BT := fun x => if h : ∃ u ∈ t.subs, Den s.k x u then h.choose else .leaf false
  have hT : ∀ x ∈ new, T x ∈ t.subs ∧ Den s.k x (T x) := fun x hx => by
    have := h1 x hx
    simp only [T, dif_pos this]
    exact this.choose_spec
  have hlv : ∀ x ∈ new, s.k.level x = (T x).level s.k.idx.length := fun x hx => by
    obtain ⟨a, b⟩ := hT x hx
    rw [hp.toKInv.level b]
    obtain ⟨v, lo, hi, e⟩ := subs_node a
    rw [e]; rfl
  have hT' : ∀ u ∈ t.subs, ∃ x ∈ new, T x = u := fun u hu => by
    obtain ⟨x, hx, dx⟩ := h2 u hu
    exact ⟨x, hx, den_fun (hT x hx).2 dx⟩
  refine ⟨new.map fun x => (s.k.level x, fnOf s.k.idx (T x)), ?_, by simpa using h3, ?_, fun i g => ?_⟩
  · rw [List.map_map, List.nodup_map_iff_inj_on hnd]
    intro x hx y hy he
    obtain ⟨ax, bx⟩ := hT x hx
    obtain ⟨ay, by'⟩ := hT y hy
    obtain ⟨rx, _, ox⟩ := subs_ord o' hr ax
    obtain ⟨ry, _, oy⟩ := subs_ord o' hr ay
    have := fnOf_inj hp.idxNd (ox.mono (Nat.zero_le _)) (oy.mono (Nat.zero_le _)) rx ry he
    rw [← this] at by'
    exact hp.den_inj bx by'
  · rw [h4]
    congr 2
    funext i
    rw [List.countP_map]; rfl
  · rw [List.mem_map]
    constructor
    · rintro ⟨x, hx, he⟩
      obtain ⟨ax, bx⟩ := hT x hx
      simp only [Prod.mk.injEq] at he
      obtain ⟨rfl, rfl⟩ := he
      obtain ⟨_, _, ox⟩ := subs_ord o' hr ax
      have hlt : s.k.level x < s.k.idx.length := by
        rw [hlv x hx]
        obtain ⟨v, lo, hi, e⟩ := subs_node ax
        rw [e] at ox ⊢
        exact ox.2.1
      have hv := List.getElem?_eq_getElem hlt
      exact ⟨_, hv, (subFn_iff hp.idxNd o' hr hval hv _).2 ⟨T x, ax, (hlv x hx).symm, rfl⟩⟩
    · rintro ⟨v, hv, hs⟩
      obtain ⟨u, hu, hl, rfl⟩ := (subFn_iff hp.idxNd o' hr hval hv _).1 hs
      obtain ⟨x, hx, rfl⟩ := hT' u hu
      exact ⟨x, hx, by rw [hlv x hx, hl]⟩

/-- **C70**, `node_count`: the number of functions the BDD branches on.  No node stays marked. -/
theorem C70_node_count (hcfg : cfg.cc.Good) {s r} (h : Readable C cfg c s r) :
    ∃ gs : List (Asg → Bool), gs.Nodup ∧ s.k.nodeCount r = some (gs.length, fun _ => false) ∧
      ∀ g, g ∈ gs ↔ ∃ i v, s.k.idx[i]? = some v ∧ SubFn s.k r i g ∧ DepOn v g := by
  obtain ⟨gs, h1, h2, _, h4⟩ := fns_ok hcfg h
  refine ⟨gs.map Prod.snd, h1, by simpa using h2, fun g => ?_⟩
  rw [List.mem_map]
  constructor
  · rintro ⟨⟨i, g⟩, hg, rfl⟩
    exact ⟨i, (h4 i g).1 hg⟩
  · rintro ⟨i, hi⟩
    exact ⟨(i, g), (h4 i g).2 hi, rfl⟩

/-- **C70**, `variable_profile`, if every kernel variable has a name: for each variable the number of functions the BDD
branches on with this variable. -/
theorem C70_profile (hcfg : cfg.cc.Good) {s r} (h : Readable C cfg c s r) (hfull : s.k.idx.length = s.k.varnum) :
    ∃ L, variableProfile r s.k = some (L, fun _ => false) ∧ L.map Prod.fst = s.k.idx ∧
      ∀ i v n, L[i]? = some (v, n) → ∃ gs : List (Asg → Bool), gs.Nodup ∧ gs.length = n ∧ ∀ g, g ∈ gs ↔ SubFn s.k r i g ∧ DepOn v g := by
  obtain ⟨gs, h1, _, h3, h4⟩ := fns_ok hcfg h
  let cnt : Nat → Nat := fun i => gs.countP fun p => p.1 == i
  have hm : (List.range s.k.varnum).mapM (fun i => (s.k.idx[i]?).map fun v => (v, cnt i)) = some (s.k.idx.zipIdx.map fun p => (p.1, cnt p.2)) := by
    rw [← hfull]
    generalize s.k.idx = idx
    have gen : ∀ (idx pre : List Var), (List.range' pre.length idx.length).mapM (fun i => ((pre ++ idx)[i]?).map fun v => (v, cnt i)) = some ((idx.zipIdx pre.length).map fun p => (p.1, cnt p.2)) := by
      intro idx
      induction idx with
      | nil => intro pre; rfl
      | cons v idx ih =>
        intro pre
        have := ih (pre ++ [v])
        rw [List.length_append, List.length_singleton, List.append_assoc, List.singleton_append] at this
        rw [List.length_cons, List.range'_succ, List.mapM_cons, this]
        simp
    have := gen idx []
    rw [List.range_eq_range']
    simpa using this
  refine ⟨s.k.idx.zipIdx.map fun p => (p.1, cnt p.2), ?_, ?_, fun i v n hL => ?_⟩
  · unfold variableProfile
    rw [h3, Option.bind_some]
    show ((List.range s.k.varnum).mapM (fun i => (s.k.idx[i]?).map fun v => (v, cnt i))).map _ = _
    rw [hm]; rfl
  · rw [List.map_map]
    show s.k.idx.zipIdx.map (fun p => p.1) = _
    exact List.zipIdx_map_fst 0 s.k.idx
  · rw [List.getElem?_map, List.getElem?_zipIdx] at hL
    simp only [Option.map_map, Option.map_eq_some_iff, Function.comp] at hL
    obtain ⟨w, hw, e⟩ := hL
    simp only [Nat.zero_add, Prod.mk.injEq] at e
    obtain ⟨rfl, rfl⟩ := e
    refine ⟨(gs.filter fun p => p.1 == i).map Prod.snd, h1.sublist (List.filter_sublist.map _), by rw [List.length_map, ← List.countP_eq_length_filter], fun g => ?_⟩
    rw [List.mem_map]
    constructor
    · rintro ⟨⟨j, g⟩, hg, rfl⟩
      rw [List.mem_filter] at hg
      have hj : j = i := by simpa using hg.2
      subst hj
      obtain ⟨v, hv, hs⟩ := (h4 j g).1 hg.1
      rw [hw] at hv; cases hv
      exact hs
    · intro hs
      exact ⟨(i, g), List.mem_filter.2 ⟨(h4 i g).2 ⟨w, hw, hs⟩, by simp⟩, rfl⟩

/-- **C70** fails for `variable_profile` if some kernel variable has no name: it panics. -/
theorem C70_profile_panics (hcfg : cfg.cc.Good) {s r} (h : Readable C cfg c s r) (hfull : s.k.idx.length ≠ s.k.varnum) : variableProfile r s.k = none := by
  obtain ⟨gs, _, _, h3, _⟩ := fns_ok hcfg h
  obtain ⟨_, H, hp⟩ := h.inv hcfg
  have hlt : s.k.idx.length < s.k.varnum := Nat.lt_of_le_of_ne hp.idxLen hfull
  unfold variableProfile
  rw [h3, Option.bind_some, Option.map_eq_none_iff]
  have gen : ∀ (l : List Nat) (f : Nat → Option (Var × Nat)) (j : Nat), j ∈ l → f j = none → l.mapM f = none := by
    intro l f j
    induction l with
    | nil => intro hj; simp at hj
    | cons a l ih =>
      intro hj e
      rw [List.mapM_cons]
      rcases List.mem_cons.1 hj with rfl | hj
      · rw [e]; rfl
      · rw [ih hj e]; cases f a <;> rfl
  exact gen _ _ s.k.idx.length (List.mem_range.2 hlt) (by rw [List.getElem?_eq_none (Nat.le_refl _)]; rfl)

end

/-! ### Numbers of clauses and terms -/

/-- `g` consists of `n` parts joined by `o` (specification). -/
def Parts (o : Op) (n : Nat) (g : Formula) : Prop :=
  (n = 0 ∧ g = Formula.neutral o) ∨ (n = 1 ∧ g ≠ Formula.neutral o ∧ ∀ gs, g ≠ .nary o gs) ∨ (2 ≤ n ∧ ∃ gs, g = .nary o gs ∧ gs.Nodup ∧ gs.length = n)

theorem two_le_countP {l : List Formula} {P : Formula → Bool} {a b : Formula} (ha : a ∈ l) (hb : b ∈ l) (hne : a ≠ b) (pa : P a = true) (pb : P b = true) : 2 ≤ l.countP P := by
  have hs : [a, b].Subperm l := List.subperm_of_subset (by simp [hne]) (by simp [ha, hb])
  have := hs.countP_le (p := P)
  simpa [List.countP_cons, pa, pb] using this

theorem const_tree {nv : Nat} {t : BT} (ho : BT.Ord nv 0 t) (hr : t.Red) {x : Bool} (h : ∀ ρ, t.eval ρ = x) : t = .leaf x :=
  BT.canonical (t' := .leaf x) _ (Nat.le_refl _) ho trivial hr trivial fun ρ => by rw [h]; rfl

theorem normalForm_parts (C : Canon) (cnf : Bool) {k : Kernel Var} (hk : KInv k) (hn : k.idx.Nodup) (hlen : k.idx.length = k.varnum) {r : Nat} {t : BT} (hd : Den k r t) (ho : BT.Ord k.varnum 0 t) :
    ∃ g, normalForm C cnf r k = some (g, k.initRef) ∧ Parts (if cnf then .conj else .disj) (t.pathc (!cnf)) g := by
  obtain ⟨L, e, h1, hL, _⟩ := allPaths_ok (!cnf) hk hd ho
  have e : k.allPaths (if cnf then 0 else 1) r = some (L, k.initRef) := by cases cnf <;> exact e
  have lits : ∀ p, ∃ ls, pathLits k.idx cnf p (List.range k.varnum) = some ls ∧ (∀ f ∈ ls, ∃ l, f = .lit l ∧ l.v ∈ k.idx) ∧ ∀ ρ σ, Agr k.idx ρ σ → (if cnf then (!(ls.any (Formula.eval σ))) else ls.all (Formula.eval σ)) = Mt 0 k.varnum ρ p := fun p => by
    obtain ⟨ls, e, h1, h2⟩ := pathLits_ok (idx := k.idx) (cnf := cnf) (p := p) (is := List.range k.varnum) fun i hi => by rw [hlen]; simpa using hi
    refine ⟨ls, e, h1, fun ρ σ hg => ?_⟩
    rw [h2 ρ σ hg]
    unfold Mt
    rw [List.range_eq_range', Nat.sub_zero]
  obtain ⟨ts, et, ft⟩ := mapM_some (f := fun p => (pathLits k.idx cnf p (List.range k.varnum)).map (Formula.mkNary C (if cnf then .disj else .conj))) (l := L) fun p _ => by
    obtain ⟨ls, e, _⟩ := lits p
    exact ⟨_, by rw [e]; rfl⟩
  refine ⟨Formula.mkNary C (if cnf = true then Op.conj else Op.disj) ts, by unfold normalForm; rw [e]; simp only [Option.bind_some, et, Option.map_some], ?_⟩
  rw [← hL, ft.length_eq]
  have cl : ∀ g ∈ ts, IsCl (if cnf then .disj else .conj) g := fun g hg => by
    obtain ⟨p, _, e⟩ := forall2_mem ft g hg
    obtain ⟨ls, e', h, _⟩ := lits p
    rw [e'] at e
    simp only [Option.map_some, Option.some.injEq] at e
    rw [← e]
    exact isCl_mkNary C fun f hf => by obtain ⟨l, rfl, _⟩ := h f hf; exact .lit l
  have ev : ∀ ρ σ, Agr k.idx ρ σ → ∀ g p, (pathLits k.idx cnf p (List.range k.varnum)).map (Formula.mkNary C (if cnf then .disj else .conj)) = some g → g.eval σ = (Mt 0 k.varnum ρ p != cnf) := fun ρ σ hg g p e => by
    obtain ⟨ls, e', _, h⟩ := lits p
    rw [e'] at e
    simp only [Option.map_some, Option.some.injEq] at e
    rw [← e, Formula.eval_mkNary, ← h ρ σ hg]
    cases cnf <;> simp [Op.eval]
  have hc : ∀ ρ σ, Agr k.idx ρ σ → ts.countP (fun g => g.eval σ != cnf) = if t.eval ρ = !cnf then 1 else 0 := fun ρ σ hg => by
    rw [← h1 ρ]
    exact (forall2_countP ft fun p _ g e => by rw [ev ρ σ hg g p e]; cases Mt 0 k.varnum ρ p <;> cases cnf <;> rfl).symm
  have hc1 : ∀ σ : Asg, ts.countP (fun g => g.eval σ != cnf) ≤ 1 := fun σ => by
    rw [hc _ σ (agr_valOf k.idx σ fun _ => false)]; split <;> omega
  have own : ∀ g ∈ ts, ∃ σ : Asg, (g.eval σ != cnf) = true := fun g hg => by
    obtain ⟨p, _, e⟩ := forall2_mem ft g hg
    have ag := agr_asgOf hn (fun w => (p w).getD false) fun _ => false
    have hm : Mt 0 k.varnum (fun w => (p w).getD false) p = true := mt_iff.2 fun w x _ _ hx => by rw [hx]; rfl
    exact ⟨asgOf k.idx (fun w => (p w).getD false) fun _ => false, by rw [ev _ _ ag g p e, hm]; cases cnf <;> rfl⟩
  have nd : ts.Nodup := List.nodup_iff_count_le_one.2 fun g => by
    by_cases hg : g ∈ ts
    · obtain ⟨σ, hσ⟩ := own g hg
      refine Nat.le_trans (List.countP_mono_left fun x _ hx => ?_) (hc1 σ)
      have : x = g := by simpa using hx
      rw [this]; exact hσ
    · rw [List.count_eq_zero_of_not_mem hg]; omega
  have ncompl : ∀ g ∈ ts, Formula.mkNot g ∉ ts := fun g hg hng => by
    have hne : g ≠ Formula.mkNot g := fun e => by
      have := congrArg (fun f : Formula => f.eval fun _ => false) e
      simp at this
    have ht : t = .leaf (!cnf) := const_tree ho (hk.den_red hd) fun ρ => by
      have ag := agr_asgOf hn ρ fun _ => false
      have h2 := hc ρ _ ag
      by_cases h : t.eval ρ = !cnf
      · exact h
      rw [if_neg h, List.countP_eq_zero] at h2
      have a := h2 g hg
      have b := h2 _ hng
      rw [Formula.eval_mkNot] at b
      exact absurd b (by revert a; cases g.eval _ <;> cases cnf <;> simp)
    have hl : ts.length = 1 := by rw [← ft.length_eq, hL, ht]; cases cnf <;> rfl
    obtain ⟨x, rfl⟩ := List.length_eq_one_iff.1 hl
    simp only [List.mem_singleton] at hg hng
    exact hne (hg.trans hng.symm)
  have nflat : ∀ g ∈ ts, ∀ gs, g ≠ .nary (if cnf then .conj else .disj) gs := fun g hg gs e => by
    have := cl g hg
    rw [e] at this
    cases cnf <;> cases this
  have single : ∀ g ∈ ts, g.isConst = true → ts = [g] := fun g hg hcst => by
    have all : ∀ x ∈ ts, x = g := fun x hx => by
      by_contra hne
      obtain ⟨σ, hσ⟩ := own x hx
      obtain ⟨τ, hτ⟩ := own g hg
      have : (g.eval σ != cnf) = true := by cases g <;> simp_all [Formula.isConst, Formula.eval]
      have := two_le_countP (P := fun g : Formula => g.eval σ != cnf) hx hg hne hσ this
      have := hc1 σ
      omega
    obtain ⟨a, b, rfl⟩ := List.append_of_mem hg
    have ha : a = [] := by
      rcases a with _ | ⟨x, a⟩
      · rfl
      · have := all x (by simp)
        subst this
        simp at nd
    have hb : b = [] := by
      rcases b with _ | ⟨x, b⟩
      · rfl
      · have := all x (by simp)
        subst this
        simp [ha] at nd
    rw [ha, hb]; rfl
  by_cases hcst : ∃ g ∈ ts, g.isConst = true
  · obtain ⟨g, hg, hgc⟩ := hcst
    rw [single g hg hgc]
    obtain ⟨σ, hσ⟩ := own g hg
    refine .inr (.inl ⟨rfl, ?_⟩)
    cases g <;> simp only [Formula.isConst, Bool.false_eq_true] at hgc <;> cases cnf <;> simp [Formula.eval] at hσ <;>
      simp [Formula.mkNary, Formula.flats, Formula.flat1, Formula.addOp, Formula.finish, Formula.containsComplement, Formula.neutral, Formula.absorbing]
  · have rd : Ready (if cnf then .conj else .disj) ts := ⟨nd, fun g hg => by
      cases h : g.isConst with
      | false => rfl
      | true => exact absurd ⟨g, hg, h⟩ hcst, nflat, ncompl⟩
    rcases mkNary_ready C rd with ⟨h1, h2⟩ | ⟨g, h1, h2⟩ | ⟨h1, h2⟩
    · exact .inl ⟨by rw [h1]; rfl, h2⟩
    · refine .inr (.inl ⟨by rw [h1]; rfl, ?_, ?_⟩)
      · rw [h2]
        intro e
        have := rd.notConst g (by rw [h1]; simp)
        rw [e] at this
        cases cnf <;> simp [Formula.neutral, Formula.isConst] at this
      · rw [h2]; exact nflat g (by rw [h1]; simp)
    · exact .inr (.inr ⟨h1, _, h2, (C.ord_perm _ _).nodup_iff.2 nd, (C.ord_perm _ _).length_eq⟩)

section
variable {C : Canon} {cfg : FCfg} {c : AuxTy → Nat}

/-- **C70**, `number_of_clauses_cnf` (`cnf = true`) and `number_of_terms_dnf` (`cnf = false`), if every kernel variable has a
name: the number of clauses (terms) of what `cnf` (`dnf`) returns. -/
theorem C70_terms (hcfg : cfg.cc.Good) {s r} (h : Readable C cfg c s r) (hfull : s.k.idx.length = s.k.varnum) (cnf : Bool) :
    ∃ n k' g k'', s.k.pathCount (!cnf) r = some (n, k') ∧ normalForm C cnf r s.k = some (g, k'') ∧ Parts (if cnf then .conj else .disj) n g := by
  obtain ⟨⟨F, ⟨t, d, o, e⟩, b⟩, H, hp⟩ := h.inv hcfg
  obtain ⟨k', e', _, _⟩ := pathCount_ok hp.toKInv (!cnf) d o
  obtain ⟨g, eg, hg⟩ := normalForm_parts C cnf hp.toKInv hp.idxNd hfull d o
  exact ⟨_, _, _, _, e', eg, hg⟩

end

/-! ### Witnesses -/

/-- The hypotheses are met, with four nodes, two of them of the second variable, two clauses and three terms. -/
example : ∃ s r, Readable canon0 exB (fun _ => 0) s r ∧ exB.cc.Good ∧ s.k.idx.length = s.k.varnum ∧ (∃ m, s.k.nodeCount r = some (4, m)) ∧
    (∃ m, variableProfile r s.k = some ([(.named 0, 1), (.named 1, 2), (.named 2, 1)], m)) ∧ (∃ k, s.k.pathCount false r = some (2, k)) ∧ ∃ k, s.k.pathCount true r = some (3, k) := by
  obtain ⟨s, x, hr, e⟩ := one_build (nv := 3) (size := 50) (by decide) (f := xOr [xAnd [xv 0, xv 1], xAnd [xv 0 false, xv 2], xAnd [xv 1, xv 2 false]])
    (plain_or (by
      simp only [List.mem_cons, List.not_mem_nil, or_false]
      rintro f (rfl | rfl | rfl) <;> exact plain_and (by simp [plain_lit])))
    (K := fun x (s : BSt) => (s.k.nodeCount x).bind fun n => (s.k.pathCount false x).bind fun a => (s.k.pathCount true x).bind fun b => (variableProfile x s.k).map fun p => (n.1, p.1, a.1, b.1, s.k.idx.length, s.k.varnum))
    (a := (4, [(.named 0, 1), (.named 1, 2), (.named 2, 1)], 2, 3, 3, 3)) (by decide +kernel)
  obtain ⟨n, e1, e⟩ := Option.bind_eq_some_iff.1 e
  obtain ⟨a, e2, e⟩ := Option.bind_eq_some_iff.1 e
  obtain ⟨b, e3, e⟩ := Option.bind_eq_some_iff.1 e
  obtain ⟨p, e4, e⟩ := Option.map_eq_some_iff.1 e
  simp only [Prod.mk.injEq] at e
  obtain ⟨h1, h2, h3, h4, h5, h6⟩ := e
  refine ⟨s, x, .held hr (.inr ⟨_, List.mem_singleton.2 rfl⟩), trivial, by rw [h5, h6], ⟨n.2, by rw [e1, ← h1]⟩, ⟨p.2, by rw [e4, ← h2]⟩, ⟨a.2, by rw [e2, ← h3]⟩, b.2, by rw [e3, ← h4]⟩

/-- A kernel with two variables of which only one has a name: `variable_profile` panics. -/
example : ∃ s r, Readable canon0 exB (fun _ => 0) s r ∧ exB.cc.Good ∧ s.k.idx.length ≠ s.k.varnum ∧ variableProfile r s.k = none := by
  obtain ⟨s, x, hr, e⟩ := one_build (nv := 2) (size := 50) (by decide) (plain_lit 0 true) (K := fun x (s : BSt) => some (s.k.idx.length, s.k.varnum)) (a := (1, 2)) (by decide +kernel)
  simp only [Option.some.injEq, Prod.mk.injEq] at e
  have hne : s.k.idx.length ≠ s.k.varnum := by rw [e.1, e.2]; decide
  exact ⟨s, x, .held hr (.inr ⟨_, List.mem_singleton.2 rfl⟩), trivial, hne, C70_profile_panics (cfg := exB) trivial (.held hr (.inr ⟨_, List.mem_singleton.2 rfl⟩)) hne⟩

end Bdd
end Verif
