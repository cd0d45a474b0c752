import Verif.Sat.Enum
/-
Clauses of encodings written to the solver (datastructures/encoding_result.rs:164-180).
-/
namespace Verif.Sat
open St

/-- The auxiliary variables handed out between two states of the factory. -/
def newAuxVars (s s' : ER) : List Var :=
  [AuxTy.cnf, .cc, .pb].flatMap fun t => (List.range (s'.cnt t - s.cnt t)).map fun i => .aux t (s.cnt t + i)

namespace Mini
variable {F : Type} [LinearOrder F] [Flt F]

/-- Variables made known one after the other. -/
def knowAll (C : MCfg F) (phase : Bool) : List Var → Mini F → Res (Mini F)
  | [], m => .ok m
  | v :: vs, m =>
    match m.know C phase v with
    | .ok m => knowAll C phase vs m
    | .panic => .panic
    | .diverge => .diverge

/-- Clauses added one after the other. -/
def addAll (C : MCfg F) : List Clause → Mini F → Res (Mini F)
  | [], m => .ok m
  | c :: cs, m =>
    match m.addClause C c with
    | .ok m => addAll C cs m
    | .panic => .panic
    | .diverge => .diverge

/-- An encoder has written to `EncodingResultSatSolver`, encoding_result.rs:164-180: it went from `s` to `s'`.  Simplified: the encoder asks for variables
and adds clauses alternately; here all variables come first.  The counters of the factory make the variables new; `know` relies on that. -/
def write (C : MCfg F) (s s' : ER) (m : Mini F) : Res (Mini F) :=
  match m.knowAll C C.initialPhase (newAuxVars s s') with
  | .ok m => m.addAll C (s'.clauses.drop s.clauses.length)
  | .panic => .panic
  | .diverge => .diverge

end Mini

/-! ### Names -/

theorem learn_append {names a b : List Var} : NSpec.learn names (a ++ b) = NSpec.learn (NSpec.learn names a) b := List.foldl_append

theorem learn_more (names : List Var) : ∀ vs : List Var, ∃ more, NSpec.learn names vs = names ++ more := by
  intro vs
  induction vs generalizing names with
  | nil => exact ⟨[], by simp [NSpec.learn]⟩
  | cons v vs ih =>
    show ∃ more, NSpec.learn (if v ∈ names then names else names ++ [v]) vs = names ++ more
    split
    · exact ih names
    · obtain ⟨more, h⟩ := ih (names ++ [v])
      exact ⟨v :: more, by rw [h, List.append_assoc]; rfl⟩

theorem mem_learn {v : Var} : ∀ {vs names : List Var}, v ∈ NSpec.learn names vs ↔ v ∈ names ∨ v ∈ vs
  | [], names => by simp [NSpec.learn]
  | w :: vs, names => by
    show v ∈ NSpec.learn (if w ∈ names then names else names ++ [w]) vs ↔ _
    rw [mem_learn, List.mem_cons]
    split
    · next h =>
      constructor
      · rintro (h' | h')
        · exact .inl h'
        · exact .inr (.inr h')
      · rintro (h' | rfl | h')
        · exact .inl h'
        · exact .inl h
        · exact .inr h'
    · rw [List.mem_append, List.mem_singleton, or_assoc]

/-- The variables of clauses. -/
def varsOf (cs : List Clause) : List Var := cs.flatMap fun c => c.map Lit.v

theorem mem_varsOf {cs : List Clause} {v : Var} : v ∈ varsOf cs ↔ ∃ c ∈ cs, ∃ l ∈ c, l.v = v := by
  unfold varsOf
  simp only [List.mem_flatMap, List.mem_map]

section
variable {F : Type} [LinearOrder F] [Flt F] {C : MCfg F} {X : NSpec} {m : Mini F}

theorem NHolds.knowAll (phase : Bool) : ∀ (vs : List Var) {X : NSpec} {m : Mini F}, NHolds C X m →
    ∃ m', m.knowAll C phase vs = .ok m' ∧ NHolds C { X with names := NSpec.learn X.names vs } m' ∧ Known m m'
  | [], X, m, h => ⟨m, rfl, h, .refl m⟩
  | v :: vs, X, m, h => by
    obtain ⟨m1, e1, h1, _, k1⟩ := h.know phase v
    obtain ⟨m2, e2, h2, k2⟩ := NHolds.knowAll phase vs h1
    refine ⟨m2, ?_, ?_, k1.trans k2⟩
    · unfold Mini.knowAll
      rw [e1]
      exact e2
    · rw [show v :: vs = [v] ++ vs from rfl, learn_append]
      exact h2

/-- A clause stored for one of the clauses `cs`. -/
def StoredOf (cs : List Clause) (names : List Var) (d : List Nat) : Prop := ∃ c ∈ cs, 2 ≤ d.length ∧ d.Nodup ∧ ∀ l ∈ d, l ∈ c.map (enc names)

theorem StoredOf.perm {cs : List Clause} {names : List Var} (d d' : List Nat) (hp : d'.Perm d) (h : StoredOf cs names d) : StoredOf cs names d' := by
  obtain ⟨c, hc, h1, h2, h3⟩ := h
  exact ⟨c, hc, by rw [hp.length_eq]; exact h1, hp.nodup_iff.2 h2, fun l hl => h3 l (hp.mem_iff.1 hl)⟩

theorem NHolds.addAll : ∀ (cs : List Clause) {X : NSpec} {m : Mini F}, NHolds C X m →
    ∃ m', m.addAll C cs = .ok m' ∧ NHolds C { X with names := NSpec.learn X.names (varsOf cs), cls := X.cls ++ cs } m' ∧ m'.y.handles = m.y.handles ∧
      GrewBy (StoredOf cs m'.names) m.y.s m'.y.s
  | [], X, m, h => ⟨m, rfl, by rw [List.append_nil]; exact h, rfl, .refl _ _⟩
  | c :: cs, X, m, h => by
    obtain ⟨m1, e1, h1, _, _, hh1, g1⟩ := h.addClause c
    obtain ⟨m2, e2, h2, hh2, g2⟩ := NHolds.addAll cs h1
    refine ⟨m2, ?_, ?_, hh2.trans hh1, ?_⟩
    · unfold Mini.addAll
      rw [e1]
      exact e2
    · rw [show varsOf (c :: cs) = c.map Lit.v ++ varsOf cs from rfl, learn_append]
      simp only [List.append_assoc, List.singleton_append] at h2 ⊢
      exact h2
    · have hn1 : m1.names = NSpec.learn X.names (c.map Lit.v) := h1.names
      have hn2 : m2.names = NSpec.learn m1.names (varsOf cs) := by rw [hn1]; exact h2.names
      obtain ⟨more, hmore⟩ := learn_more m1.names (varsOf cs)
      refine GrewBy.trans StoredOf.perm (s' := m1.y.s) (g1.mono ?_) (g2.mono ?_)
      · intro d hd
        refine ⟨c, by simp, hd.two, hd.nodup, fun l hl => ?_⟩
        obtain ⟨k, hk, rfl⟩ := List.mem_map.1 (hd.sub l hl)
        refine List.mem_map.2 ⟨k, hk, ?_⟩
        rw [hn2, hmore]
        exact enc_append (by rw [hn1]; exact mem_learn.2 (.inr (List.mem_map_of_mem hk)))
      · rintro d ⟨c', hc', h'⟩
        exact ⟨c', List.mem_cons_of_mem _ hc', h'⟩

/-- Writing an encoding to the solver adds its clauses. -/
theorem NHolds.write (h : NHolds C X m) (s s' : ER) :
    ∃ m', m.write C s s' = .ok m' ∧
      NHolds C { X with names := NSpec.learn X.names (newAuxVars s s' ++ varsOf (s'.clauses.drop s.clauses.length)), cls := X.cls ++ s'.clauses.drop s.clauses.length } m' ∧
      m'.y.handles = m.y.handles ∧ GrewBy (StoredOf (s'.clauses.drop s.clauses.length) m'.names) m.y.s m'.y.s := by
  obtain ⟨m1, e1, h1, k1⟩ := h.knowAll C.initialPhase (newAuxVars s s')
  obtain ⟨m2, e2, h2, hh2, g2⟩ := h1.addAll (s'.clauses.drop s.clauses.length)
  refine ⟨m2, ?_, ?_, hh2.trans k1.handles, ?_⟩
  · unfold Mini.write
    rw [e1]
    exact e2
  · rw [learn_append]
    exact h2
  · unfold GrewBy at g2 ⊢
    rwa [k1.clauses, k1.data] at g2

/-- Clauses with at most one literal over old variables: what is stored for them has a new variable. -/
theorem StoredOf.fresh {cs : List Clause} {names more : List Var} (hc : ∀ c ∈ cs, ∀ l ∈ c, ∀ l' ∈ c, l.v ∈ names → l'.v ∈ names → l = l') {d : List Nat}
    (h : StoredOf cs (names ++ more) d) : ∃ l ∈ d, 2 * names.length ≤ l := by
  obtain ⟨c, hcc, h2, hn, hs⟩ := h
  match d, h2, hn, hs with
  | a :: b :: d, _, hn, hs =>
    have hab : a ≠ b := fun e => (List.nodup_cons.1 hn).1 (by rw [e]; simp)
    obtain ⟨x, hx, hxa⟩ := List.mem_map.1 (hs a (by simp))
    obtain ⟨y, hy, hyb⟩ := List.mem_map.1 (hs b (by simp))
    have big : ∀ z : Lit, z.v ∉ names → 2 * names.length ≤ enc (names ++ more) z := by
      intro z hz
      have h1 : names.length ≤ vr (enc (names ++ more) z) := by
        unfold enc
        rw [vr_mkLit, List.idxOf_append_of_notMem hz]
        omega
      by_contra hlt
      have := vr_lt.2 (show enc (names ++ more) z < 2 * names.length by omega)
      omega
    by_cases h1 : x.v ∈ names
    · by_cases h2 : y.v ∈ names
      · exact absurd (by rw [← hxa, ← hyb, hc c hcc x hx y hy h1 h2]) hab
      · exact ⟨b, by simp, hyb ▸ big y h2⟩
    · exact ⟨a, by simp, hxa ▸ big x h1⟩

end
end Verif.Sat
