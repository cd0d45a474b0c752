import Verif.F.PbNorm
import Verif.F.Vars
/-
Size and variables of normalized constraints: normalization never makes a constraint larger.
-/
namespace Verif

/-- Bounds on a normalized constraint: number of terms, sum of the coefficients, variables. -/
structure SmallLe (V : Var → Prop) (n : Nat) (B : Int) (f : Formula) : Prop where
  cc : ∀ c, f = .cc c → c.vars.length ≤ n ∧ ∀ v ∈ c.vars, V v
  pbc : ∀ p, f = .pbc p → p.terms.length ≤ n ∧ coefSum p.terms ≤ B ∧ ∀ t ∈ p.terms, V t.1.v
  nary : ∀ o fs, f ≠ .nary o fs

theorem SmallLe.const {V n B} (b : Bool) : SmallLe V n B (Formula.const b) := by
  cases b <;> exact ⟨by simp [Formula.const], by simp [Formula.const], by simp [Formula.const]⟩

theorem mkPbc_small {V n B c rhs ts} (h1 : ts.length ≤ n) (h2 : coefSum ts ≤ B) (h3 : ∀ t ∈ ts, V t.1.v) :
    SmallLe V n B (Formula.mkPbc c rhs ts) := by
  unfold Formula.mkPbc
  split
  · exact SmallLe.const _
  split
  · unfold Formula.constructCc
    have hv : ∀ v ∈ ts.map (fun t => t.1.v), V v := by
      intro v hv
      obtain ⟨t, ht, rfl⟩ := List.mem_map.1 hv
      exact h3 t ht
    split
    · exact SmallLe.const _
    split
    · exact ⟨by rintro c' h; injection h with h; subst h; exact ⟨by simpa using h1, hv⟩, by simp, by simp⟩
    · exact ⟨by rintro c' h; injection h with h; subst h; exact ⟨by simpa using h1, hv⟩, by simp, by simp⟩
  · exact ⟨by simp, by rintro p' h; injection h with h; subst h; exact ⟨h1, h2, h3⟩, by simp⟩

theorem coefSum_tdiv {d : Int} (hd : 0 ≤ d) {ts : List (Lit × Int)} (hp : ∀ t ∈ ts, 0 ≤ t.2) :
    coefSum (ts.map fun t => (t.1, t.2.tdiv d)) ≤ coefSum ts := by
  induction ts with
  | nil => simp [coefSum]
  | cons t ts ih =>
    have := ih fun u hu => hp u (by simp [hu])
    have h0 := hp t (by simp)
    have : t.2.tdiv d ≤ t.2 := by
      rw [Int.tdiv_eq_ediv_of_nonneg h0]
      exact Int.ediv_le_self _ h0
    simp only [List.map_cons, coefSum]
    omega

theorem normLoop_small {V n} {sum : Int} : ∀ (fuel : Nat) (c : Int) (ts : List (Lit × Int)) (f : Formula), (∀ t ∈ ts, 0 ≤ t.2) →
    ts.length ≤ n → (∀ t ∈ ts, V t.1.v) → normLoop sum fuel c ts = some f → SmallLe V n (coefSum ts) f := by
  intro fuel
  induction fuel with
  | zero => intro c ts f _ _ _ h; simp [normLoop] at h
  | succ fuel ih =>
    intro c ts f hp hn hV h
    simp only [normLoop] at h
    split at h
    · injection h with h; subst h; exact SmallLe.const false
    split at h
    · injection h with h; subst h; exact SmallLe.const true
    split at h
    · rename_i hc _ hd
      have hd0 := (fold_gcd ts hp c (by omega)).1
      have r := ih _ _ _ ?_ ?_ ?_ h
      · have := coefSum_tdiv hd0 hp
        exact ⟨r.cc, fun p e => ⟨(r.pbc p e).1, by have := (r.pbc p e).2.1; omega, (r.pbc p e).2.2⟩, r.nary⟩
      · intro t ht
        obtain ⟨u, hu, rfl⟩ := List.mem_map.1 ht
        exact Int.tdiv_nonneg (hp u hu) hd0
      · simpa using hn
      · intro t ht
        obtain ⟨u, hu, rfl⟩ := List.mem_map.1 ht
        exact hV u hu
    · injection h with h; subst h; exact mkPbc_small hn (by omega) hV

theorem normalizeLe_small {V} {ts : List (Lit × Int)} {rhs : Int} {f : Formula}
    (hb : absSum ts + (if rhs ≥ 0 then rhs else -rhs) < 2 ^ 63) (hV : ∀ t ∈ ts, V t.1.v)
    (h : normalizeLe ts rhs = some f) : SmallLe V ts.length (absSum ts) f := by
  unfold normalizeLe at h
  simp only at h
  have ha := absSum_filter ts
  have hV' : ∀ t ∈ ts.filter (fun t => decide (t.2 ≠ 0)), V t.1.v := fun t ht => hV t (List.mem_filter.1 ht).1
  have hlen : (ts.filter fun t => decide (t.2 ≠ 0)).length ≤ ts.length := List.length_filter_le ..
  generalize ts.filter (fun t => decide (t.2 ≠ 0)) = us at ha hlen h hV'
  rw [collect_eq (by split at hb <;> omega)] at h
  obtain ⟨h1, h2, h3, h4, h5⟩ := collect'_spec us [] (by simp [VMap.Sorted])
  simp only [VMap.val, VMap.size, Int.zero_add, List.length_nil, Nat.zero_add] at h1 h2 h5
  generalize collect' us [] = m at h1 h2 h3 h4 h5 h
  obtain ⟨T2, k1, k2, k3, k4, k5, k6⟩ := merge_spec m rhs [] _ (by split at hb <;> split <;> omega) rfl
  generalize merge m (rhs, []) = r at k1 k2 k6 h
  obtain ⟨c, T⟩ := r
  simp only [List.nil_append] at k1 k2 k6 h
  subst k1
  have q1 := absSum_filter T
  have q5 : (T.filter fun t => decide (t.2 ≠ 0)).length ≤ T.length := List.length_filter_le ..
  have q6 : T.length = m.length := by simpa using congrArg List.length k4
  have q7 : ∀ t ∈ T.filter (fun t => decide (t.2 ≠ 0)), 0 ≤ t.2 := fun t ht => k3 t (List.mem_filter.1 ht).1
  have q8 : ∀ t ∈ T.filter (fun t => decide (t.2 ≠ 0)), V t.1.v := by
    intro t ht
    have : t.1.v ∈ m.map (·.1) := by rw [← k4]; exact List.mem_map.2 ⟨t, (List.mem_filter.1 ht).1, rfl⟩
    rcases (h4 _).1 this with h | ⟨u, hu, e⟩
    · simp at h
    · rw [← e]; exact hV' u hu
  generalize T.filter (fun t => decide (t.2 ≠ 0)) = U at q1 q5 q7 q8 h
  have r := normLoop_small 2 c U f q7 (by omega : U.length ≤ ts.length) q8 h
  have hcs := coefSum_nonneg q7
  exact ⟨r.cc, fun p e => ⟨(r.pbc p e).1, by have := (r.pbc p e).2.1; omega, (r.pbc p e).2.2⟩, r.nary⟩

/-- Results of `normalize` with their sizes. -/
theorem normalize_small {V} (C : Canon) {p : PBC} {f : Formula}
    (hb : absSum p.terms + (if p.rhs ≥ 0 then p.rhs else -p.rhs) < 2 ^ 63 - 1) (hV : ∀ t ∈ p.terms, V t.1.v)
    (h : p.normalize C = some f) :
    (p.cmp ≠ .eq → SmallLe V p.terms.length (absSum p.terms) f) ∧
    (p.cmp = .eq → ∃ g k, f = Formula.mkAnd C [g, k] ∧ SmallLe V p.terms.length (absSum p.terms) g ∧
      SmallLe V p.terms.length (absSum p.terms) k ∧ normalizeLe p.terms p.rhs = some g ∧
      normalizeLe (p.terms.map fun t => (t.1, -t.2)) (-p.rhs) = some k) := by
  have hn := absSum_nonneg p.terms
  have hneg : (p.terms.map fun t => (t.1, w64 (-t.2))) = p.terms.map fun t => (t.1, -t.2) := by
    apply List.map_congr_left
    intro t ht
    have := coef_le_absSum ht
    rw [w64_id]
    constructor <;> (split at hb <;> omega)
  have hr : w64 (-p.rhs) = -p.rhs := w64_id (by constructor <;> (split at hb <;> omega))
  have hr1 : w64 (p.rhs - 1) = p.rhs - 1 := w64_id (by constructor <;> (split at hb <;> omega))
  have hr2 : w64 (-p.rhs - 1) = -p.rhs - 1 := w64_id (by constructor <;> (split at hb <;> omega))
  unfold PBC.normalize at h
  simp only [hneg, hr, hr1, hr2] at h
  have hV' : ∀ t ∈ p.terms.map (fun t => (t.1, -t.2)), V t.1.v := by
    intro t ht
    obtain ⟨u, hu, rfl⟩ := List.mem_map.1 ht
    exact hV u hu
  have pos : ∀ {rhs : Int} {g}, (if rhs ≥ 0 then rhs else -rhs) ≤ (if p.rhs ≥ 0 then p.rhs else -p.rhs) + 1 →
      normalizeLe p.terms rhs = some g → SmallLe V p.terms.length (absSum p.terms) g :=
    fun h1 h2 => normalizeLe_small (by omega) hV h2
  have neg : ∀ {rhs : Int} {g}, (if rhs ≥ 0 then rhs else -rhs) ≤ (if p.rhs ≥ 0 then p.rhs else -p.rhs) + 1 →
      normalizeLe (p.terms.map fun t => (t.1, -t.2)) rhs = some g → SmallLe V p.terms.length (absSum p.terms) g := by
    intro rhs g h1 h2
    have := normalizeLe_small (by rw [absSum_neg]; omega) hV' h2
    rw [absSum_neg, List.length_map] at this
    exact this
  cases hc : p.cmp with
  | eq =>
    refine ⟨fun h => absurd rfl h, fun _ => ?_⟩
    simp only [hc] at h
    split at h
    · rename_i f1 f2 e1 e2
      injection h with h
      exact ⟨f1, f2, h.symm, pos (by omega) e1, neg (by split <;> split <;> omega) e2, e1, e2⟩
    · cases h
  | le => simp only [hc] at h; exact ⟨fun _ => pos (by omega) h, by simp⟩
  | lt => simp only [hc] at h; exact ⟨fun _ => pos (by split <;> split <;> omega) h, by simp⟩
  | ge => simp only [hc] at h; exact ⟨fun _ => neg (by split <;> split <;> omega) h, by simp⟩
  | gt => simp only [hc] at h; exact ⟨fun _ => neg (by split <;> split <;> omega) h, by simp⟩

end Verif
