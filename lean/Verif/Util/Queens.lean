import Verif.Props.Transform
import Verif.F.OrderOk
import Mathlib.Data.Fintype.Card
import Mathlib.Data.Fintype.EquivFin
/-
The generator for the n-queens problem, src/util/n_queens_generator.rs.
-/
namespace Verif.Queens
open ER

/-! ### Model -/

/-- `generate_vars`, n_queens_generator.rs:60-72.  Simplified: the counter `kk` is computed from row and column; `.named k` stands for the variable with name `v{k}`. -/
def vars (n : Nat) : List (List Var) := (List.range n).map fun r => (List.range n).map fun c => .named (n * r + c + 1)

/-- `var_names[r][c]`; `none` is the panic if there is no such square. -/
def at' (n r c : Nat) : Option Var := (vars n)[r]?.bind fun row => row[c]?

/-- The constraints in the order of n_queens_generator.rs:12-56: comparator and variables; the bound is 1.  Simplified: all lists of variables are made first.  For `n = 0` the
subtraction `n - 1` overflows (line 26: a panic with overflow checks; without, line 29 is reached for row 0, which does not exist). -/
def lines (n : Nat) : Option (List (Cmp × List Var)) :=
  if n = 0 then none else do
    let rows := (vars n).map fun row => (Cmp.eq, row.take n)
    let cols ← (List.range n).mapM fun i => ((vars n).mapM fun row => row[i]?).map fun l => (Cmp.eq, l)
    let d1 ← (List.range (n - 1)).mapM fun i => ((List.range (n - i)).mapM fun j => at' n j (i + j)).map fun l => (Cmp.le, l)
    let d2 ← (List.range' 1 (n - 2)).mapM fun i => ((List.range (n - i)).mapM fun j => at' n (j + i) j).map fun l => (Cmp.le, l)
    let d3 ← (List.range (n - 1)).mapM fun i => ((List.range (n - i)).mapM fun j => at' n j (n - 1 - (i + j))).map fun l => (Cmp.le, l)
    let d4 ← (List.range' 1 (n - 2)).mapM fun i => ((List.range (n - i)).mapM fun j => at' n (j + i) (n - 1 - j)).map fun l => (Cmp.le, l)
    some (rows ++ cols ++ d1 ++ d2 ++ d3 ++ d4)

/-- `f.nnf_of(f.exo(vars))` and `f.nnf_of(f.amo(vars))` for all constraints, one after the other. -/
def nnfs (C : Canon) (cfg : FCfg) : List (Cmp × List Var) → World → Option (List Formula × World)
  | [], w => some ([], w)
  | l :: ls, w =>
    match Formula.mkCc l.1 1 l.2 with
    | none => none
    | some f =>
      match nnf C cfg f w with
      | none => none
      | some (g, w) =>
        match nnfs C cfg ls w with
        | none => none
        | some (gs, w) => some (g :: gs, w)

/-- The configuration that is set in n_queens_generator.rs:8. -/
def qCfg (cfg : FCfg) : FCfg := { cfg with cc := ⟨.pure, .best, .best, .best⟩ }

/-- `generate_n_queens`, n_queens_generator.rs:7-58; `none` is a panic. -/
def generate (C : Canon) (cfg : FCfg) (n : Nat) (w : World) : Option (Formula × World) :=
  match lines n with
  | none => none
  | some ls =>
    match nnfs C (qCfg cfg) ls w with
    | none => none
    | some (gs, w) => some (Formula.mkAnd C gs, w)

/-! ### The constraints -/

/-- The variable of a square. -/
def sq (n r c : Nat) : Var := .named (n * r + c + 1)

theorem at_eq {n r c : Nat} (hr : r < n) (hc : c < n) : at' n r c = some (sq n r c) := by
  unfold at' vars
  simp [hr, hc, sq]

/-- The constraints, with the lookups done. -/
def lines' (n : Nat) : List (Cmp × List Var) :=
  ((List.range n).map fun r => (Cmp.eq, (List.range n).map fun c => sq n r c)) ++
  ((List.range n).map fun c => (Cmp.eq, (List.range n).map fun r => sq n r c)) ++
  ((List.range (n - 1)).map fun i => (Cmp.le, (List.range (n - i)).map fun j => sq n j (i + j))) ++
  ((List.range' 1 (n - 2)).map fun i => (Cmp.le, (List.range (n - i)).map fun j => sq n (j + i) j)) ++
  ((List.range (n - 1)).map fun i => (Cmp.le, (List.range (n - i)).map fun j => sq n j (n - 1 - (i + j)))) ++
  ((List.range' 1 (n - 2)).map fun i => (Cmp.le, (List.range (n - i)).map fun j => sq n (j + i) (n - 1 - j)))

theorem mem_r1 {n i : Nat} (h : i ∈ List.range' 1 (n - 2)) : 1 ≤ i ∧ i < n - 1 := by
  rw [List.mem_range'_1] at h
  omega

theorem lines_eq {n : Nat} (hn : 0 < n) : lines n = some (lines' n) := by
  have e1 : ((vars n).map fun row => (Cmp.eq, row.take n)) = (List.range n).map fun r => (Cmp.eq, (List.range n).map fun c => sq n r c) := by
    unfold vars
    rw [List.map_map]
    refine List.map_congr_left fun r _ => ?_
    simp [sq, List.take_of_length_le]
  have e2 : ((List.range n).mapM fun i => ((vars n).mapM fun row => row[i]?).map fun l => (Cmp.eq, l)) =
      some ((List.range n).map fun c => (Cmp.eq, (List.range n).map fun r => sq n r c)) := by
    refine VarOrd.mapM_map _ fun i hi => ?_
    have hi := List.mem_range.1 hi
    have : (vars n).mapM (fun row => row[i]?) = some ((List.range n).map fun r => sq n r i) := by
      unfold vars
      rw [List.mapM_map]
      exact VarOrd.mapM_map _ fun r _ => by simp [hi, sq]
    rw [this]
    rfl
  have e3 : ((List.range (n - 1)).mapM fun i => ((List.range (n - i)).mapM fun j => at' n j (i + j)).map fun l => (Cmp.le, l)) =
      some ((List.range (n - 1)).map fun i => (Cmp.le, (List.range (n - i)).map fun j => sq n j (i + j))) := by
    refine VarOrd.mapM_map _ fun i hi => ?_
    have hi := List.mem_range.1 hi
    rw [VarOrd.mapM_map (h := fun j => sq n j (i + j)) _ fun j hj => by have := List.mem_range.1 hj; exact at_eq (by omega) (by omega)]
    rfl
  have e4 : ((List.range' 1 (n - 2)).mapM fun i => ((List.range (n - i)).mapM fun j => at' n (j + i) j).map fun l => (Cmp.le, l)) =
      some ((List.range' 1 (n - 2)).map fun i => (Cmp.le, (List.range (n - i)).map fun j => sq n (j + i) j)) := by
    refine VarOrd.mapM_map _ fun i hi => ?_
    have hi := mem_r1 hi
    rw [VarOrd.mapM_map (h := fun j => sq n (j + i) j) _ fun j hj => by have := List.mem_range.1 hj; exact at_eq (by omega) (by omega)]
    rfl
  have e5 : ((List.range (n - 1)).mapM fun i => ((List.range (n - i)).mapM fun j => at' n j (n - 1 - (i + j))).map fun l => (Cmp.le, l)) =
      some ((List.range (n - 1)).map fun i => (Cmp.le, (List.range (n - i)).map fun j => sq n j (n - 1 - (i + j)))) := by
    refine VarOrd.mapM_map _ fun i hi => ?_
    have hi := List.mem_range.1 hi
    rw [VarOrd.mapM_map (h := fun j => sq n j (n - 1 - (i + j))) _ fun j hj => by have := List.mem_range.1 hj; exact at_eq (by omega) (by omega)]
    rfl
  have e6 : ((List.range' 1 (n - 2)).mapM fun i => ((List.range (n - i)).mapM fun j => at' n (j + i) (n - 1 - j)).map fun l => (Cmp.le, l)) =
      some ((List.range' 1 (n - 2)).map fun i => (Cmp.le, (List.range (n - i)).map fun j => sq n (j + i) (n - 1 - j))) := by
    refine VarOrd.mapM_map _ fun i hi => ?_
    have hi := mem_r1 hi
    rw [VarOrd.mapM_map (h := fun j => sq n (j + i) (n - 1 - j)) _ fun j hj => by have := List.mem_range.1 hj; exact at_eq (by omega) (by omega)]
    rfl
  unfold lines
  rw [if_neg (by omega)]
  simp only [e1, e2, e3, e4, e5, e6]
  rfl

theorem sq_inj {n r c r' c' : Nat} (hc : c < n) (hc' : c' < n) (h : sq n r c = sq n r' c') : r = r' ∧ c = c' := by
  have h : n * r + c + 1 = n * r' + c' + 1 := by injection h
  have h : n * r + c = n * r' + c' := by omega
  have hn : 0 < n := by omega
  have h1 : (n * r + c) / n = r := by rw [Nat.mul_add_div hn, Nat.div_eq_of_lt hc]; rfl
  have h2 : (n * r' + c') / n = r' := by rw [Nat.mul_add_div hn, Nat.div_eq_of_lt hc']; rfl
  have : r = r' := by rw [← h1, ← h2, h]
  subst this
  exact ⟨rfl, by omega⟩

/-- Conditions on a constraint for the encoders. -/
structure LineOk (n : Nat) (l : Cmp × List Var) : Prop where
  len : l.2.length ≤ n
  nodup : l.2.Nodup
  named : ∀ v ∈ l.2, ∃ k, v = .named k

theorem lineOk_map {n m : Nat} (cmp : Cmp) (hm : m ≤ n) {r c : Nat → Nat} (hc : ∀ j < m, c j < n) (hinj : ∀ j j', j < m → j' < m → r j = r j' → c j = c j' → j = j') :
    LineOk n (cmp, (List.range m).map fun j => sq n (r j) (c j)) where
  len := by simpa using hm
  nodup := by
    refine (List.nodup_range).map_on fun j hj j' hj' h => ?_
    have hj := List.mem_range.1 hj
    have hj' := List.mem_range.1 hj'
    obtain ⟨h1, h2⟩ := sq_inj (hc j hj) (hc j' hj') h
    exact hinj j j' hj hj' h1 h2
  named v hv := by
    obtain ⟨j, _, rfl⟩ := List.mem_map.1 hv
    exact ⟨_, rfl⟩

theorem lines_ok {n : Nat} : ∀ l ∈ lines' n, LineOk n l := by
  intro l hl
  unfold lines' at hl
  simp only [List.mem_append, List.mem_map] at hl
  rcases hl with ((((⟨i, hi, rfl⟩ | ⟨i, hi, rfl⟩) | ⟨i, hi, rfl⟩) | ⟨i, hi, rfl⟩) | ⟨i, hi, rfl⟩) | ⟨i, hi, rfl⟩
  · exact lineOk_map (r := fun _ => i) (c := fun j => j) _ (Nat.le_refl _) (fun j hj => hj) fun j j' _ _ _ h => h
  · exact lineOk_map (r := fun j => j) (c := fun _ => i) _ (Nat.le_refl _) (fun j hj => List.mem_range.1 hi) fun j j' _ _ h _ => h
  · exact lineOk_map (r := fun j => j) (c := fun j => i + j) _ (by omega) (fun j hj => by omega) fun j j' _ _ h _ => h
  · exact lineOk_map (r := fun j => j + i) (c := fun j => j) _ (by omega) (fun j hj => by omega) fun j j' _ _ _ h => h
  · have := List.mem_range.1 hi
    exact lineOk_map (r := fun j => j) (c := fun j => n - 1 - (i + j)) _ (by omega) (fun j hj => by omega) fun j j' _ _ h _ => h
  · have := mem_r1 hi
    exact lineOk_map (r := fun j => j + i) (c := fun j => n - 1 - j) _ (by omega) (fun j hj => by omega) fun j j' _ _ h _ => (by omega)

/-! ### Negation normal forms -/

theorem mkCc_line {l : Cmp × List Var} (hl : l.1 = .eq ∨ l.1 = .le) : ∃ f, Formula.mkCc l.1 1 l.2 = some f := by
  refine ⟨Formula.constructCc l.1 (1 : Nat) l.2, ?_⟩
  unfold Formula.mkCc
  rcases hl with h | h <;> rw [h] <;> rfl

theorem line_input {cfg : FCfg} {c : AuxTy → Nat} {n : Nat} (hn : n + 1 < 2 ^ 30) {l : Cmp × List Var} (ho : LineOk n l) {f : Formula} (hf : Formula.mkCc l.1 1 l.2 = some f) :
    Input cfg c f := by
  refine ⟨Formula.norm_mkCc (by decide) hf, ?_, fun v hv => ?_⟩
  · unfold Formula.mkCc at hf
    split at hf
    · obtain rfl := Option.some.inj hf
      have e : Formula.constructCc l.1 (1 : Nat) l.2 = Formula.const (Formula.trivialPb l.1 (1 : Nat)) ∨ Formula.constructCc l.1 (1 : Nat) l.2 = .cc ⟨l.2, l.1, 1⟩ := by
        unfold Formula.constructCc
        split
        · exact .inl rfl
        · right
          rw [if_pos (by omega)]
          rfl
      rcases e with e | e <;> rw [e]
      · refine ⟨fun d hd => ?_, fun d hd => ?_⟩ <;>
        · rcases sub_operands.1 hd with h | ⟨k, hk, _⟩
          · unfold Formula.const at h; split at h <;> cases h
          · unfold Formula.const at hk; split at hk <;> simp [Formula.operands] at hk
      · refine ⟨fun d hd => ?_, fun d hd => ?_⟩
        · rcases sub_operands.1 hd with h | ⟨k, hk, _⟩
          · injection h with h
            subst h
            have := ho.len
            refine ⟨?_, ?_, fun _ => ?_⟩
            · simp only [CC.terms, List.length_map]; omega
            · simp only [CC.terms, absSum_ones]
              rw [if_pos (by omega)]
              omega
            · simp only [CC.terms, List.map_map]
              have : (List.map ((fun t : Lit × Int => t.1.v) ∘ fun v : Var => (v.p, (1 : Int))) l.2) = l.2 := by
                conv_rhs => rw [← List.map_id l.2]
                rfl
              rw [this]
              exact ho.nodup
          · simp [Formula.operands] at hk
        · rcases sub_operands.1 hd with h | ⟨k, hk, _⟩
          · cases h
          · simp [Formula.operands] at hk
    · cases hf
  · obtain ⟨k, rfl⟩ := ho.named v (Formula.occ_mkCc hf hv)
    trivial

theorem nnfs_ok {C : Canon} {cfg : FCfg} (hcfg : cfg.cc.Good) {c0 : AuxTy → Nat} {n : Nat} (hn : n + 1 < 2 ^ 30) {ls : List (Cmp × List Var)}
    (h1 : ∀ l ∈ ls, LineOk n l) (h2 : ∀ l ∈ ls, l.1 = .eq ∨ l.1 = .le) : ∀ {w E}, WInv c0 w E → ∃ gs w' E', nnfs C cfg ls w = some (gs, w') ∧ WInv c0 w' E' ∧ GExt w.cnt E w'.cnt E' ∧
      (∀ g ∈ gs, IsNnf g ∧ g.Norm) ∧ (∀ σ, (∀ g ∈ gs, g.eval σ = true) → ∀ l ∈ ls, l.1.test (cntV σ l.2) 1 = true) ∧
      ∀ σ, EncOk E' σ → (∀ l ∈ ls, l.1.test (cntV σ l.2) 1 = true) → ∀ g ∈ gs, g.eval σ = true := by
  induction ls with
  | nil => intro w E h; exact ⟨[], w, E, rfl, h, GExt.refl _ _, by simp, by simp, by simp⟩
  | cons l ls ih =>
    intro w E h
    obtain ⟨f, hf⟩ := mkCc_line (h2 l (by simp))
    obtain ⟨g, w1, E1, e1, k1, k2, k3⟩ := nnf_ok (C := C) hcfg h (line_input (cfg := cfg) (c := w.cnt) hn (h1 l (by simp)) hf).top
    obtain ⟨gs, w2, E2, e2, j1, j2, j3, j4, j5⟩ := ih (fun l hl => h1 l (by simp [hl])) (fun l hl => h2 l (by simp [hl])) k1
    have hev : ∀ σ, f.eval σ = l.1.test (cntV σ l.2) 1 := fun σ => Formula.eval_mkCc σ _ _ _ (by decide) hf
    have k4 := k3.mono j2
    refine ⟨g :: gs, w2, E2, ?_, j1, k2.trans j2, ?_, fun σ hg => ?_, fun σ ho hl => ?_⟩
    · unfold nnfs
      rw [hf]
      simp only [e1, e2]
    · intro g' hg'
      rcases List.mem_cons.1 hg' with rfl | hg'
      · exact ⟨k3.shape, k3.norm⟩
      · exact j3 g' hg'
    · intro l' hl'
      rcases List.mem_cons.1 hl' with rfl | hl'
      · rw [← hev]; exact k4.sound σ (hg g (by simp))
      · exact j4 σ (fun g' hg' => hg g' (by simp [hg'])) l' hl'
    · intro g' hg'
      rcases List.mem_cons.1 hg' with rfl | hg'
      · exact k4.compl σ ho (by show f.eval σ = true; rw [hev]; exact hl l (by simp))
      · exact j5 σ ho (fun l' hl' => hl l' (by simp [hl'])) g' hg'

end Verif.Queens
