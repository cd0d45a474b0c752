import Verif.Util.Random
import Verif.F.Cons
import Mathlib.Tactic.ByContra
/-
What the generator of random formulas yields.
-/
namespace Verif.Rnd
open Formula

/-! ### Rules -/

/-- Every result satisfies `Q`; a panic needs `pan`. -/
def Wp {α : Type} (pan : Prop) (x : G α) (Q : α → Prop) : Prop := ∀ p, match x p with
  | .panic => pan
  | .diverge => True
  | .ok (a, _) => Q a

section
variable {α β : Type} {pan : Prop} {P Q : α → Prop}

theorem wp_pure {a : α} (h : Q a) : Wp pan (pure a) Q := fun _ => h
theorem wp_diverge : Wp pan (G.diverge : G α) Q := fun _ => trivial
theorem wp_panic (h : pan) : Wp pan (G.panic : G α) Q := fun _ => h

theorem wp_bind {x : G α} {f : α → G β} {R : β → Prop} (hx : Wp pan x Q) (hf : ∀ a, Q a → Wp pan (f a) R) : Wp pan (x >>= f) R := by
  intro p
  have h := hx p
  show match G.bind x f p with | .panic => pan | .diverge => True | .ok (a, _) => R a
  unfold G.bind
  revert h
  match x p with
  | .panic => exact id
  | .diverge => exact id
  | .ok (a, q) => exact fun h => hf a h q

theorem wp_mono {x : G α} (hx : Wp pan x P) (h : ∀ a, P a → Q a) : Wp pan x Q := by
  intro p
  have := hx p
  revert this
  match x p with
  | .panic => exact id
  | .diverge => exact id
  | .ok (a, _) => exact h a

theorem wp_times {x : G α} (hx : Wp pan x Q) : ∀ n, Wp pan (times x n) fun l => l.length = n ∧ ∀ a ∈ l, Q a
  | 0 => wp_pure ⟨rfl, fun _ h => by cases h⟩
  | n + 1 => wp_bind hx fun a ha => wp_bind (wp_times hx n) fun l ⟨hl, h⟩ => wp_pure ⟨by rw [List.length_cons, hl], fun b hb => by
      rcases List.mem_cons.1 hb with rfl | hb
      · exact ha
      · exact h b hb⟩
end

section
variable {F : Type} [LinearOrder F] [Add F] [Mul F] [Div F] {E : REnv F} {pan : Prop}

theorem wp_range {lo hi : Nat} (h : ¬ lo < hi → pan) : Wp pan (range E lo hi) fun k => lo ≤ k ∧ k < hi := by
  intro p
  unfold range
  by_cases hlt : lo < hi
  · rw [if_pos hlt]
    have := Nat.mod_lt (E.R p) (by omega : 0 < hi - lo)
    show lo ≤ lo + E.R p % (hi - lo) ∧ lo + E.R p % (hi - lo) < hi
    omega
  · rw [if_neg hlt]; exact h hlt

theorem wp_f32 : Wp pan (f32 E) fun x => ∃ r, x = E.unit r := fun p => ⟨E.R p, rfl⟩

/-- When no call panics. -/
structure NoEmpty (c : RCfg F) (A : Kind → Prop) : Prop where
  vars : (A .lit ∨ A .pbc ∨ A .cc ∨ A .amo ∨ A .exo) → c.vars ≠ []
  pbc : A .pbc → 0 < c.maxPbc ∧ 0 < c.maxCoeff
  cc : (A .cc ∨ A .amo ∨ A .exo) → 1 < c.maxCc
  and : A .and → 2 < c.maxAnd
  or : A .or → 2 < c.maxOr

/-- Which kinds of formulas are chosen. -/
structure Picks (E : REnv F) (A : Kind → Prop) : Prop where
  any : ∀ r, A (E.cfg.probs.pick (E.unit r))
  atom : ∀ r, A (E.cfg.probs.pickAtom (E.unit r * E.cfg.probs.exo))

/-- The kind of a conjunction or disjunction. -/
def opKind : Op → Kind
  | .conj => .and
  | .disj => .or

/-- Properties of formulas, by depth, that all steps of the generator keep. -/
structure Cls (E : REnv F) (A : Kind → Prop) (Q : Nat → Formula → Prop) : Prop where
  const : A .const → ∀ d b, Q d (Formula.const b)
  lit : A .lit → ∀ d l, l.v ∈ E.cfg.vars → Q d (.lit l)
  cc : (A .cc ∨ A .amo ∨ A .exo) → ∀ d c r vs, vs ≠ [] → vs.length < E.cfg.maxCc → (∀ v ∈ vs, v ∈ E.cfg.vars) → r < 2 ^ 32 → Q d (.cc ⟨vs, c, r⟩)
  pbcc : A .pbc → ∀ d c r vs, vs ≠ [] → vs.length < E.cfg.maxPbc → (∀ v ∈ vs, v ∈ E.cfg.vars) → r < 2 ^ 32 → Q d (.cc ⟨vs, c, r⟩)
  pbc : A .pbc → ∀ d c r ts, ts ≠ [] → ts.length < E.cfg.maxPbc → (∀ t ∈ ts, t.1.v ∈ E.cfg.vars ∧ 1 ≤ t.2.natAbs ∧ t.2.natAbs ≤ E.cfg.maxCoeff) →
    ¬ isLitCc c r ts → Q d (.pbc ⟨ts, c, r⟩)
  not : A .not → ∀ d f, Q d f → (d = 0 ∨ (mkNot f).isNot = true) → Q (d + 1) (mkNot f)
  impl : A .impl → ∀ d a b x y, Q d a → Q d b → mkImpl E.K a b = .impl x y → Q (d + 1) (.impl x y)
  equiv : A .equiv → ∀ d a b x y, Q d a → Q d b → mkEquiv E.K a b = .equiv x y → Q (d + 1) (.equiv x y)
  nary : ∀ o, A (opKind o) → ∀ d fs l, (∀ f ∈ fs, Q d f) → mkNary E.K o fs = .nary o l → Q (d + 1) (.nary o l)

variable {A : Kind → Prop} {Q : Nat → Formula → Prop}

theorem wp_var (h : E.cfg.vars = [] → pan) : Wp pan (variable_ E) fun v => v ∈ E.cfg.vars := by
  refine wp_bind (wp_range fun h' => h (by rcases e : E.cfg.vars with _ | ⟨a, l⟩; · rfl
                                           · rw [e] at h'; simp at h')) fun i hi => wp_pure ?_
  have : E.cfg.vars.getD i default = E.cfg.vars[i]'hi.2 := by simp [List.getD, hi.2]
  rw [this]
  exact List.getElem_mem _

theorem wp_literal (h : E.cfg.vars = [] → pan) : Wp pan (literal E) fun l => l.v ∈ E.cfg.vars :=
  wp_bind wp_f32 fun _ _ => wp_bind (wp_var h) fun _ hv => wp_pure hv

theorem wp_cType : Wp pan (cType E) fun _ => True := wp_bind wp_f32 fun _ _ => wp_pure trivial

theorem wp_ccVars (h : E.cfg.vars = [] → pan) (hc : ¬ 1 < E.cfg.maxCc → pan) : Wp pan (ccVars E) fun vs => vs ≠ [] ∧ vs.length < E.cfg.maxCc ∧ ∀ v ∈ vs, v ∈ E.cfg.vars :=
  wp_bind (wp_range hc) fun k hk => wp_mono (wp_times (wp_var h) k) fun vs ⟨h1, h2⟩ => ⟨(fun e => by rw [e] at h1; simp at h1; omega), by omega, h2⟩

theorem wp_callCc {c : Cmp} {r : Nat} {vs : List Var} (hr : c = .lt → 1 ≤ r) (hv : vs ≠ []) (h : ∀ r' < 2 ^ 32, Q 0 (.cc ⟨vs, c, r'⟩)) : Wp pan (callCc c r vs) (Q 0) := by
  have e : mkCc c r vs = some (.cc ⟨vs, c, r % 2 ^ 32⟩) := by
    unfold mkCc constructCc
    have hi : isCc c r = true := by
      cases c <;> simp [isCc] <;> first | omega | (have := hr rfl; omega)
    rw [if_pos hi, if_neg hv, if_pos (Int.natCast_nonneg r)]
    simp
  unfold callCc
  rw [e]
  exact wp_pure (h _ (Nat.mod_lt _ (by decide)))

theorem wp_cc (hQ : ∀ c r vs, vs ≠ [] → vs.length < E.cfg.maxCc → (∀ v ∈ vs, v ∈ E.cfg.vars) → r < 2 ^ 32 → Q 0 (.cc ⟨vs, c, r⟩)) (h : E.cfg.vars = [] → pan)
    (hc : ¬ 1 < E.cfg.maxCc → pan) : ∀ n, Wp pan (cc E n) (Q 0)
  | 0 => wp_diverge
  | n + 1 => by
    unfold cc
    refine wp_bind (wp_ccVars h hc) fun vs hvs => wp_bind wp_cType fun c _ => wp_bind (wp_range fun h' => ?_) fun r _ => ?_
    · exfalso
      have : 0 < vs.length := List.length_pos_iff.2 hvs.1
      apply h'
      split <;> omega
    · refine wp_bind (wp_callCc (Q := Q) (fun e => by rw [if_pos e]; omega) hvs.1 fun r' hr' => hQ c r' vs hvs.1 hvs.2.1 hvs.2.2 hr') fun f hf => ?_
      split
      · exact wp_cc hQ h hc n
      · exact wp_pure hf

theorem wp_pbc (hcc : ∀ c r vs, vs ≠ [] → vs.length < E.cfg.maxPbc → (∀ v ∈ vs, v ∈ E.cfg.vars) → r < 2 ^ 32 → Q 0 (.cc ⟨vs, c, r⟩))
    (hpbc : ∀ c r ts, ts ≠ [] → ts.length < E.cfg.maxPbc → (∀ t ∈ ts, t.1.v ∈ E.cfg.vars ∧ 1 ≤ t.2.natAbs ∧ t.2.natAbs ≤ E.cfg.maxCoeff) → ¬ isLitCc c r ts → Q 0 (.pbc ⟨ts, c, r⟩))
    (h : E.cfg.vars = [] → pan) (h1 : ¬ 0 < E.cfg.maxPbc → pan) (h2 : ¬ 0 < E.cfg.maxCoeff → pan) : ∀ n, Wp pan (pbc E n) (Q 0)
  | 0 => wp_diverge
  | n + 1 => by
    unfold pbc
    have hterm : Wp pan (term E) fun t => t.1.v ∈ E.cfg.vars ∧ 1 ≤ t.2.1 ∧ t.2.1 ≤ E.cfg.maxCoeff :=
      wp_bind (wp_literal h) fun l hl => wp_bind (wp_range h2) fun c hc => wp_bind wp_f32 fun x _ => wp_pure ⟨hl, Nat.succ_le_succ (Nat.zero_le _), hc.2⟩
    refine wp_bind (wp_range h1) fun k hk => wp_bind (wp_times hterm k) fun ts hts => wp_bind wp_cType fun c _ => wp_bind (wp_range fun h' => (h' (Nat.succ_pos _)).elim) fun r _ => ?_
    dsimp only
    generalize ((r : Int) - (((ts.filter fun t => t.2.2).map fun t => t.2.1).sum : Nat)) = rhs
    obtain ⟨us, hus⟩ : ∃ us : List (Lit × Int), us = ts.map fun t => (t.1, if t.2.2 then -(t.2.1 : Int) else t.2.1) := ⟨_, rfl⟩
    rw [← hus]
    have hul : us.length < E.cfg.maxPbc := by rw [hus, List.length_map]; omega
    have hu : ∀ t ∈ us, t.1.v ∈ E.cfg.vars ∧ 1 ≤ t.2.natAbs ∧ t.2.natAbs ≤ E.cfg.maxCoeff := by
      intro t ht
      rw [hus] at ht
      obtain ⟨t', ht', rfl⟩ := List.mem_map.1 ht
      obtain ⟨a, b, c⟩ := hts.2 t' ht'
      refine ⟨a, ?_⟩
      dsimp only
      split
      · rw [Int.natAbs_neg, Int.natAbs_natCast]; exact ⟨b, c⟩
      · rw [Int.natAbs_natCast]; exact ⟨b, c⟩
    split
    · exact wp_pbc hcc hpbc h h1 h2 n
    · rename_i hcst
      refine wp_pure ?_
      revert hcst
      unfold mkPbc
      split
      · intro hcst; exfalso; apply hcst; cases trivialPb c rhs <;> rfl
      · rename_i hne
        split
        · intro _
          have hm : us.map (fun t => t.1.v) ≠ [] := fun e => hne (List.map_eq_nil_iff.1 e)
          have hlm : (us.map fun t => t.1.v).length < E.cfg.maxPbc := by rw [List.length_map]; exact hul
          have hvm : ∀ v ∈ us.map (fun t => t.1.v), v ∈ E.cfg.vars := fun v hv => by
            obtain ⟨t, ht, rfl⟩ := List.mem_map.1 hv
            exact (hu t ht).1
          unfold constructCc
          rw [if_neg hm]
          split
          · exact hcc _ _ _ hm hlm hvm (Nat.mod_lt _ (by decide))
          · exact hcc _ _ _ hm hlm hvm (by decide)
        · rename_i hl
          exact fun _ => hpbc _ _ _ hne hul hu hl

/-- The atomic formulas, at every depth. -/
theorem wp_atomOf (hQ : Cls E A Q) (hg : ¬ pan → NoEmpty E.cfg A) (n d : Nat) {k : Kind} (hk : A k) (hk' : k ≠ .or ∧ k ≠ .and ∧ k ≠ .not ∧ k ≠ .impl ∧ k ≠ .equiv) :
    Wp pan (atomOf E n k) (Q d) := by
  have hv : (A .lit ∨ A .pbc ∨ A .cc ∨ A .amo ∨ A .exo) → E.cfg.vars = [] → pan := fun h1 h2 => by
    by_contra hp; exact (hg hp).vars h1 h2
  have hc : (A .cc ∨ A .amo ∨ A .exo) → ¬ 1 < E.cfg.maxCc → pan := fun h1 h2 => by
    by_contra hp; exact h2 ((hg hp).cc h1)
  unfold atomOf
  cases k with
  | const => exact wp_bind (wp_range fun h => (h (by decide)).elim) fun b _ => wp_pure (hQ.const hk d _)
  | lit => exact wp_bind (wp_literal (hv (.inl hk))) fun l hl => wp_pure (hQ.lit hk d l hl)
  | pbc => exact wp_pbc (Q := fun _ => Q d) (fun c r vs => hQ.pbcc hk d c r vs) (fun c r ts => hQ.pbc hk d c r ts) (hv (.inr (.inl hk)))
             (fun h2 => by by_contra hp; exact h2 ((hg hp).pbc hk).1) (fun h2 => by by_contra hp; exact h2 ((hg hp).pbc hk).2) n
  | cc => exact wp_cc (Q := fun _ => Q d) (fun c r vs => hQ.cc (.inl hk) d c r vs) (hv (.inr (.inr (.inl hk)))) (hc (.inl hk)) n
  | amo => exact wp_bind (wp_ccVars (hv (.inr (.inr (.inr (.inl hk))))) (hc (.inr (.inl hk)))) fun vs hvs =>
             wp_callCc (Q := fun _ => Q d) (fun h => by cases h) hvs.1 fun r' hr' => hQ.cc (.inr (.inl hk)) d _ r' vs hvs.1 hvs.2.1 hvs.2.2 hr'
  | exo => exact wp_bind (wp_ccVars (hv (.inr (.inr (.inr (.inr hk))))) (hc (.inr (.inr hk)))) fun vs hvs =>
             wp_callCc (Q := fun _ => Q d) (fun h => by cases h) hvs.1 fun r' hr' => hQ.cc (.inr (.inr hk)) d _ r' vs hvs.1 hvs.2.1 hvs.2.2 hr'
  | or => exact absurd rfl hk'.1
  | and => exact absurd rfl hk'.2.1
  | not => exact absurd rfl hk'.2.2.1
  | impl => exact absurd rfl hk'.2.2.2.1
  | equiv => exact absurd rfl hk'.2.2.2.2

theorem pickAtom_atom (P : Probs F) (x : F) : P.pickAtom x ≠ .or ∧ P.pickAtom x ≠ .and ∧ P.pickAtom x ≠ .not ∧ P.pickAtom x ≠ .impl ∧ P.pickAtom x ≠ .equiv := by
  unfold Probs.pickAtom
  repeat' split
  all_goals exact ⟨nofun, nofun, nofun, nofun, nofun⟩

theorem wp_atom (hQ : Cls E A Q) (hg : ¬ pan → NoEmpty E.cfg A) (hA : Picks E A) (n d : Nat) : Wp pan (atom E n) (Q d) := by
  refine wp_bind wp_f32 fun x hx => ?_
  obtain ⟨r, rfl⟩ := hx
  exact wp_atomOf hQ hg n d (hA.atom r) (pickAtom_atom _ _)

theorem wp_operands {o : Op} {x : G Formula} {P : Formula → Prop} (hx : Wp pan x P) : ∀ n acc,
    Wp pan (genOps o x n acc) fun r => ∃ fs : List Formula, fs.length ≤ n ∧ (∀ f ∈ fs, P f) ∧ r = flats o fs acc
  | 0, acc => wp_pure ⟨[], Nat.le_refl _, (fun _ h => by cases h), by simp [flats]⟩
  | n + 1, acc => by
    unfold genOps
    refine wp_bind hx fun f hf => ?_
    match h : flat1 o f acc with
    | none => exact wp_pure ⟨[f], by simp, fun g hg => by rw [List.mem_singleton.1 hg]; exact hf, by simp [flats, h]⟩
    | some acc' =>
      refine wp_mono (wp_operands hx n acc') fun r ⟨fs, h1, h2, h3⟩ => ⟨f :: fs, by simpa using h1, fun g hg => ?_, by simp [flats, h, h3]⟩
      rcases List.mem_cons.1 hg with rfl | hg
      · exact hf
      · exact h2 g hg

/-- What the result is, by what was asked for. -/
def Asked : Option Kind → Nat → Formula → Prop
  | some .and, _ + 1, f => ∃ l, f = .nary .conj l
  | some .or, _ + 1, f => ∃ l, f = .nary .disj l
  | some .impl, _ + 1, f => ∃ a b, f = .impl a b
  | some .equiv, _ + 1, f => ∃ a b, f = .equiv a b
  | some .not, _ + 2, f => ∃ a, f = .not a
  | _, _, _ => True

theorem isNot_iff {f : Formula} (h : f.isNot = true) : ∃ a, f = .not a := by
  cases f <;> simp_all [isNot]

theorem isNary_iff {o : Op} {f : Formula} (h : f.isNary o = true) : ∃ l, f = .nary o l := by
  cases f <;> simp_all [isNary]

/-- All formulas that are generated. -/
theorem wp_gen (hQ : Cls E A Q) (hg : ¬ pan → NoEmpty E.cfg A) (hA : Picks E A) : ∀ n k d, (∀ k', k = some k' → A k') → Wp pan (gen E n k d) fun f => Q d f ∧ Asked k d f := by
  intro n
  induction n with
  | zero => intro k d _; unfold gen; exact wp_diverge
  | succ n ih =>
    intro k d hk
    cases d with
    | zero =>
      have : gen E (n + 1) k 0 = atom E n := by cases k <;> rfl
      rw [this]
      refine wp_mono (wp_atom hQ hg hA n 0) fun f hf => ⟨hf, ?_⟩
      cases k with
      | none => trivial
      | some k => cases k <;> trivial
    | succ d =>
      have sub := fun (d : Nat) => wp_mono (ih none d (fun _ h => by cases h)) fun f hf => hf.1
      have atoms : ∀ k, A k → (k ≠ .or ∧ k ≠ .and ∧ k ≠ .not ∧ k ≠ .impl ∧ k ≠ .equiv) → Wp pan (atomOf E n k) fun f => Q (d + 1) f ∧ Asked (some k) (d + 1) f := by
        intro k hk hk'
        refine wp_mono (wp_atomOf hQ hg n (d + 1) hk hk') fun f hf => ⟨hf, ?_⟩
        obtain ⟨a, b, c, d, e⟩ := hk'
        cases k <;> first | trivial | contradiction
      cases k with
      | none =>
        show Wp pan (f32 E >>= fun x => gen E n (some (E.cfg.probs.pick x)) (d + 1)) _
        refine wp_bind wp_f32 fun x hx => ?_
        obtain ⟨r, rfl⟩ := hx
        exact wp_mono (ih _ (d + 1) fun k' e => by cases e; exact hA.any r) fun f hf => ⟨hf.1, trivial⟩
      | some k =>
        have hA' := hk k rfl
        cases k with
        | const => exact atoms _ hA' ⟨nofun, nofun, nofun, nofun, nofun⟩
        | lit => exact atoms _ hA' ⟨nofun, nofun, nofun, nofun, nofun⟩
        | pbc => exact atoms _ hA' ⟨nofun, nofun, nofun, nofun, nofun⟩
        | cc => exact atoms _ hA' ⟨nofun, nofun, nofun, nofun, nofun⟩
        | amo => exact atoms _ hA' ⟨nofun, nofun, nofun, nofun, nofun⟩
        | exo => exact atoms _ hA' ⟨nofun, nofun, nofun, nofun, nofun⟩
        | not =>
          unfold gen
          refine wp_bind (sub d) fun f hf => ?_
          split
          · exact ih (some .not) (d + 1) hk
          · rename_i hc
            have hc' : d = 0 ∨ (mkNot f).isNot = true := by
              cases d with
              | zero => exact .inl rfl
              | succ d =>
                right
                cases e : (mkNot f).isNot with
                | true => rfl
                | false => exact absurd ⟨by omega, e⟩ hc
            refine wp_pure ⟨hQ.not hA' d f hf hc', ?_⟩
            cases d with
            | zero => trivial
            | succ d => exact isNot_iff (hc'.resolve_left (by omega))
        | impl =>
          unfold gen
          refine wp_bind (sub d) fun a ha => wp_bind (sub d) fun b hb => ?_
          split
          · rename_i x y e
            exact wp_pure ⟨hQ.impl hA' d a b x y ha hb e, x, y, rfl⟩
          · exact ih (some .impl) (d + 1) hk
        | equiv =>
          unfold gen
          refine wp_bind (sub d) fun a ha => wp_bind (sub d) fun b hb => ?_
          split
          · rename_i x y e
            exact wp_pure ⟨hQ.equiv hA' d a b x y ha hb e, x, y, rfl⟩
          · exact ih (some .equiv) (d + 1) hk
        | and =>
          unfold gen
          refine wp_bind (wp_range fun h => by by_contra hp; exact h ((hg hp).and hA')) fun k _ => wp_bind (wp_operands (sub d) k []) fun r hr => ?_
          obtain ⟨fs, _, h2, rfl⟩ := hr
          dsimp only
          split
          · rename_i h
            obtain ⟨l, e⟩ := isNary_iff h
            rw [e]
            exact wp_pure ⟨hQ.nary .conj hA' d fs l h2 e, l, rfl⟩
          · exact ih (some .and) (d + 1) hk
        | or =>
          unfold gen
          refine wp_bind (wp_range fun h => by by_contra hp; exact h ((hg hp).or hA')) fun k _ => wp_bind (wp_operands (sub d) k []) fun r hr => ?_
          obtain ⟨fs, _, h2, rfl⟩ := hr
          dsimp only
          split
          · rename_i h
            obtain ⟨l, e⟩ := isNary_iff h
            rw [e]
            exact wp_pure ⟨hQ.nary .disj hA' d fs l h2 e, l, rfl⟩
          · exact ih (some .or) (d + 1) hk

end
end Verif.Rnd
