import Verif.Sat.Log
import Verif.Props.SatFun
/-
What `MiniSat` records for proofs, with names: after every sequence of calls the recorded clauses are those added.
-/
namespace Verif.Sat
open St

section
variable {F : Type} [LinearOrder F] [Flt F] {C : MCfg F}

/-- Clauses may have been recorded, and the proof was continued; no state was saved. -/
structure MG (m m' : Mini F) : Prop where
  handles : m'.y.handles = m.y.handles
  orig : ∃ o, m'.y.s.pgOrig = m.y.s.pgOrig ++ o
  proof : ∃ p, m'.y.s.pgProof = m.y.s.pgProof ++ p ∧ Lines p

namespace MG
variable {m m' m'' : Mini F}

theorem refl (m : Mini F) : MG m m := ⟨rfl, ⟨[], by simp⟩, [], by simp, fun _ h => by cases h⟩

theorem trans (h : MG m m') (h' : MG m' m'') : MG m m'' := by
  obtain ⟨o, e⟩ := h.orig
  obtain ⟨o', e'⟩ := h'.orig
  obtain ⟨p, f, hp⟩ := h.proof
  obtain ⟨q, f', hq⟩ := h'.proof
  exact ⟨h'.handles.trans h.handles, ⟨o ++ o', by rw [e', e, List.append_assoc]⟩, p ++ q, by rw [f', f, List.append_assoc], hp.append hq⟩

theorem of_lg (h : Lg m.y.s m'.y.s) (hh : m'.y.handles = m.y.handles) : MG m m' := ⟨hh, ⟨[], by rw [h.orig, List.append_nil]⟩, h.proof⟩

end MG

/-- Nothing was recorded but lines of the proof. -/
structure MLg (m m' : Mini F) : Prop where
  lg : Lg m.y.s m'.y.s
  handles : m'.y.handles = m.y.handles

theorem MLg.mg {m m' : Mini F} (h : MLg m m') : MG m m' := .of_lg h.lg h.handles

theorem MLg.refl (m : Mini F) : MLg m m := ⟨.refl _, rfl⟩

theorem MLg.trans {m m' m'' : Mini F} (h : MLg m m') (h' : MLg m' m'') : MLg m m'' := ⟨h.lg.trans h'.lg, h'.handles.trans h.handles⟩

theorem know_lg {phase : Bool} {v : Var} {m m' : Mini F} (h : m.know C phase v = .ok m') : MLg m m' := by
  unfold Mini.know at h
  split at h
  · cases h; exact .refl _
  · split at h
    · rename_i h1
      cases h
      unfold Sess.step at h1
      simp only at h1
      split at h1
      · cases h1
      · rename_i h2; cases h1; exact ⟨newVar_lg h2, rfl⟩
    · cases h
    · cases h

theorem genLits_lg {ls : List Lit} : ∀ {m : Mini F} {x : Mini F × List Nat}, m.genLits C ls = .ok x → MLg m x.1 := by
  induction ls with
  | nil => intro m x h; cases h; exact .refl _
  | cons l ls ih =>
    intro m x h
    unfold Mini.genLits at h
    split at h
    · rename_i h1
      unfold Mini.genLit at h1
      split at h1
      · rename_i h2
        cases h1
        split at h
        · rename_i h3; cases h; exact (know_lg h2).trans (MLg.trans (ih h3) (.refl _))
        · cases h
        · cases h
      · cases h1
      · cases h1
    · cases h
    · cases h

/-- A clause is recorded as it is. -/
theorem step_add (hp : C.proofGen = true) {ks : List Nat} {y y' : Sess F} {r : Option Bool} (h : y.step C.toCfg (.add ks) = .ok (y', r)) :
    y'.handles = y.handles ∧ y'.s.pgOrig = y.s.pgOrig ++ [ks.map pgLit] ∧ ∃ p, y'.s.pgProof = y.s.pgProof ++ p ∧ Lines p := by
  unfold Sess.step at h
  simp only at h
  split at h
  · cases h
  · rename_i h1
    cases h
    exact ⟨rfl, addClause_lg hp h1⟩

theorem addClause_mg (hp : C.proofGen = true) {c : Clause} {m m' : Mini F} (h : m.addClause C c = .ok m') : MG m m' := by
  unfold Mini.addClause at h
  split at h
  · rename_i h1
    split at h
    · rename_i h2
      cases h
      obtain ⟨e1, e2, e3⟩ := step_add hp h2
      exact (genLits_lg h1).mg.trans ⟨e1, ⟨_, e2⟩, e3⟩
    · cases h
    · cases h
  · cases h
  · cases h

theorem solve_mlg {fuel : Nat} {sel as : List Lit} {m : Mini F} {x : Mini F × Bool} (h : m.solve C fuel sel as = .ok x) : MLg m x.1 := by
  unfold Mini.solve at h
  split at h
  · rename_i h1
    split at h
    · rename_i h2
      cases h
      refine (genLits_lg h1).trans ?_
      unfold Sess.step at h2
      simp only at h2
      split at h2
      · cases h2
      · cases h2
      · rename_i h3; cases h2; exact ⟨solveSel_lg h3, rfl⟩
    · cases h
    · cases h
  · cases h
  · cases h

theorem knowAll_lg {phase : Bool} {vs : List Var} : ∀ {m m' : Mini F}, m.knowAll C phase vs = .ok m' → MLg m m' := by
  induction vs with
  | nil => intro m m' h; cases h; exact .refl _
  | cons v vs ih =>
    intro m m' h
    unfold Mini.knowAll at h
    split at h
    · rename_i h1; exact (know_lg h1).trans (ih h)
    · cases h
    · cases h

theorem addAll_mg (hp : C.proofGen = true) {cs : List Clause} : ∀ {m m' : Mini F}, m.addAll C cs = .ok m' → MG m m' := by
  induction cs with
  | nil => intro m m' h; cases h; exact .refl _
  | cons c cs ih =>
    intro m m' h
    unfold Mini.addAll at h
    split at h
    · rename_i h1; exact (addClause_mg hp h1).trans (ih h)
    · cases h
    · cases h

theorem write_mg (hp : C.proofGen = true) {s s' : ER} {m m' : Mini F} (h : m.write C s s' = .ok m') : MG m m' := by
  unfold Mini.write at h
  split at h
  · rename_i h1; exact (knowAll_lg h1).mg.trans (addAll_mg hp h)
  · cases h
  · cases h

theorem enumLoop_mg (hp : C.proofGen = true) {fuel : Nat} {cfg : EnumCfg} {rel all : Option (List Nat)} {n : Nat} :
    ∀ {ms : List NModel} {m : Mini F} {x : Mini F × List NModel}, m.enumLoop C fuel cfg rel all n ms = .ok x → MG m x.1 := by
  induction n with
  | zero => intro ms m x h; cases h
  | succ n ih =>
    intro ms m x h
    unfold Mini.enumLoop at h
    split at h
    · cases h; exact .refl _
    · split at h
      · cases h
      · cases h
      · rename_i h1; cases h; exact (solve_mlg h1).mg
      · rename_i h1
        simp only at h
        split at h
        · split at h
          · rename_i h2
            obtain ⟨e1, e2, e3⟩ := step_add hp h2
            exact (solve_mlg h1).mg.trans (MG.trans ⟨e1, ⟨_, e2⟩, e3⟩ (ih h))
          · cases h
          · cases h
        · cases h; exact (solve_mlg h1).mg

theorem candidateLoop_lg {C : Cfg F} {fuel n : Nat} : ∀ {b : BbState} {s : St F} {x : St F × BbState}, candidateLoop C fuel n b s = .ok x → Lg s x.1 := by
  induction n with
  | zero => intro b s x h; cases h; exact .refl _
  | succ n ih =>
    intro b s x h
    unfold candidateLoop at h
    split at h
    · cases h; exact .refl _
    · split at h
      · cases h
      · cases h
      · rename_i h1; exact (solveWith_lg h1).trans (ih h)
      · rename_i h1; exact (solveWith_lg h1).trans (ih h)

theorem computeBackbone_lg {C : Cfg F} {fuel : Nat} {vars : List Nat} {t : BbType} {s : St F} {x : St F × Option (Nat → Option Bool)} (h : computeBackbone C fuel vars t s = .ok x) :
    Lg s x.1 := by
  unfold computeBackbone at h
  split at h
  · cases h
  · cases h
  · rename_i h1; cases h; exact solve_lg h1
  · rename_i h1
    simp only at h
    split at h
    · cases h
    · cases h
    · rename_i h2
      cases h
      exact (solve_lg h1).trans ((candidateLoop_lg h2).of rfl rfl rfl rfl)

theorem coreBackbone_lg {fuel : Nat} {vars : List Var} {t : BbType} {m : Mini F} {x : Mini F × Option (Backbone Var)} (h : m.coreBackbone C fuel vars t = .ok x) : MLg m x.1 := by
  unfold Mini.coreBackbone at h
  split at h
  · cases h
  · cases h
  · rename_i h1; cases h; exact ⟨computeBackbone_lg h1, rfl⟩
  · rename_i h1; cases h; exact ⟨computeBackbone_lg h1, rfl⟩

theorem optLoop_mg (hp : C.proofGen = true) {fuel : Nat} {o : OptF} {sels : List Var} {n : Nat} :
    ∀ {data : Option IncData} {er : ER} {model : List Bool} {m : Mini F} {x : Mini F × Option NModel}, m.optLoop C fuel o sels n data er model = .ok x → MG m x.1 := by
  induction n with
  | zero => intro data er model m x h; cases h
  | succ n ih =>
    intro data er model m x h
    unfold Mini.optLoop at h
    split at h
    · cases h
    · cases h
    · rename_i h1; cases h; exact (solve_mlg h1).mg
    · rename_i h1
      split at h
      · cases h; exact (solve_mlg h1).mg
      · split at h
        · cases h
        · split at h
          · cases h
          · cases h
          · split at h
            · cases h
            · cases h
            · rename_i h2
              exact (solve_mlg h1).mg.trans ((write_mg hp h2).trans (ih h))

theorem optRest_mg (hp : C.proofGen = true) {cc : CcCfg} {fuel : Nat} {o : OptF} {sels : List Var} {er : ER} {model : List Bool} {bound : Nat} {m : Mini F} {x : Mini F × Option NModel}
    (h : m.optRest C cc fuel o sels er model bound = .ok x) : MG m x.1 := by
  unfold Mini.optRest at h
  split at h
  · cases h
  · cases h
  · split at h
    · cases h
    · cases h
    · rename_i h1
      exact (write_mg hp h1).trans (optLoop_mg hp h)

theorem optCompute_mg (hp : C.proofGen = true) {cc : CcCfg} {fuel : Nat} {o : OptF} {sm : List (Var × Lit)} {cnt : AuxTy → Nat} {m : Mini F} {x : Mini F × Option NModel}
    (h : m.optCompute C cc fuel o sm cnt = .ok x) : MG m x.1 := by
  unfold Mini.optCompute at h
  simp only at h
  split at h
  · cases h
  · cases h
  · rename_i h1
    refine (addAll_mg hp h1).trans ?_
    split at h
    · cases h
    · cases h
    · rename_i h2; cases h; exact (solve_mlg h2).mg
    · rename_i h2
      refine (solve_mlg h2).mg.trans ?_
      split at h
      · split at h
        · cases h
        · cases h
        · split at h
          · cases h
          · cases h
          · rename_i h3
            refine (write_mg hp h3).trans ?_
            split at h
            · cases h
            · cases h
            · rename_i h4; cases h; exact (solve_mlg h4).mg
            · rename_i h4; exact (solve_mlg h4).mg.trans (optRest_mg hp h)
      · split at h
        · cases h; exact .refl _
        · exact optRest_mg hp h

/-- Saving. -/
theorem save_lg (hp : C.proofGen = true) {m m' : Mini F} {k : Nat} (h : m.save C = .ok (m', k)) :
    m'.y.s = m.y.s ∧ k = m.y.handles.length ∧ ∃ st, m'.y.handles = m.y.handles ++ [st] ∧ st.orig = m.y.s.pgOrig.length := by
  unfold Mini.save at h
  split at h
  · rename_i h1
    cases h
    unfold Sess.step at h1
    simp only at h1
    split at h1
    · cases h1
    · rename_i st h2
      cases h1
      refine ⟨rfl, rfl, st, rfl, ?_⟩
      unfold St.save at h2
      split at h2
      · cases h2
        simp only [hp, if_true]
      · cases h2
  · cases h
  · cases h

/-- Loading. -/
theorem mload_lg (hp : C.proofGen = true) {m m' : Mini F} {k : Nat} (h : m.load C k = .ok m') :
    m'.y.handles = m.y.handles ∧ ∃ st, m.y.handles[k]? = some st ∧ m'.y.s.pgOrig = m.y.s.pgOrig.take st.orig ∧
      ∃ p, m'.y.s.pgProof = (m.y.s.pgProof ++ p).take st.proof ∧ Lines p := by
  unfold Mini.load at h
  split at h
  · rename_i h1
    cases h
    unfold Sess.step at h1
    simp only at h1
    split at h1
    · rename_i st _ h2
      split at h1
      · cases h1
      · rename_i h3
        cases h1
        obtain ⟨e1, e2⟩ := load_lg hp h3
        exact ⟨rfl, st, h2, e1, e2⟩
    · cases h1
  · cases h
  · cases h

theorem Lines.take {p : List (List Int)} (h : Lines p) (n : Nat) : Lines (p.take n) := fun c hc => h c (List.mem_of_mem_take hc)

/-- Saving, recording something, and loading. -/
theorem bracket (hp : C.proofGen = true) {m m1 m2 m3 : Mini F} {k : Nat} (h1 : m.save C = .ok (m1, k)) (h2 : MG m1 m2) (h3 : m2.load C k = .ok m3) (hl : Lines m.y.s.pgProof) :
    m3.y.s.pgOrig = m.y.s.pgOrig ∧ Lines m3.y.s.pgProof ∧ ∃ st, m3.y.handles = m.y.handles ++ [st] ∧ st.orig = m.y.s.pgOrig.length := by
  obtain ⟨e1, e2, st, e3, e4⟩ := save_lg hp h1
  obtain ⟨f1, st', f2, f3, p, f4, f5⟩ := mload_lg hp h3
  have hh : m2.y.handles = m.y.handles ++ [st] := h2.handles.trans e3
  rw [hh, e2, List.getElem?_append_right (Nat.le_refl _), Nat.sub_self] at f2
  have hst : st = st' := by simpa using f2
  subst hst
  obtain ⟨o, ho⟩ := h2.orig
  obtain ⟨q, hq, hq'⟩ := h2.proof
  refine ⟨?_, ?_, st, f1.trans hh, e4⟩
  · rw [f3, ho, e1, e4, List.take_left]
  · rw [f4, hq, e1]
    exact ((hl.append hq').append f5).take _

/-- Clauses as they are recorded. -/
def pgNamed (names : List Var) (cls : List Clause) : List (List Int) := cls.map fun d => d.map fun l => pgLit (enc names l)

theorem pgNamed_append {names more : List Var} {cls : List Clause} (h : Over names cls) : pgNamed (names ++ more) cls = pgNamed names cls :=
  List.map_congr_left fun d hd => List.map_congr_left fun l hl => by rw [enc_append (h d hd l hl)]

theorem pgNamed_take {names : List Var} {n : Nat} {cls : List Clause} (h : Over (names.take n) cls) : pgNamed names cls = pgNamed (names.take n) cls :=
  List.map_congr_left fun d hd => List.map_congr_left fun l hl => by rw [enc_take (h d hd l hl)]

/-- What is recorded belongs to the clauses added. -/
structure MLog (Y : NSpec) (m : Mini F) : Prop where
  orig : m.y.s.pgOrig = pgNamed Y.names Y.cls
  proof : Lines m.y.s.pgProof
  snap : ∀ e ∈ Y.saved, ∃ st, m.y.handles[e.1]? = some st ∧ st.orig = e.2.2.length
  pre : ∀ e ∈ Y.saved, e.2.2 <+: Y.cls
  down : Y.saved.Pairwise fun a b => b.2.2 <+: a.2.2

variable {Y : NSpec} {m m' : Mini F}

theorem MLog.know (h : MLog Y m) (hN : NHolds C Y m) (hk : MLg m m') (vs : List Var) : MLog { Y with names := NSpec.learn Y.names vs } m' := by
  obtain ⟨more, hm⟩ := learn_more Y.names vs
  obtain ⟨p, e, hp⟩ := hk.lg.proof
  refine ⟨?_, by rw [e]; exact h.proof.append hp, fun x hx => by rw [hk.handles]; exact h.snap x hx, h.pre, h.down⟩
  show _ = pgNamed (NSpec.learn Y.names vs) Y.cls
  rw [hk.lg.orig, h.orig, hm, pgNamed_append hN.over]

theorem MLog.after (hp : C.proofGen = true) (h : MLog Y m) (hN : NHolds C Y m) {m1 m2 : Mini F} {k : Nat} (h1 : m.save C = .ok (m1, k)) (h2 : MG m1 m2) (h3 : m2.load C k = .ok m') :
    MLog Y.after m' := by
  obtain ⟨e1, e2, st, e3, e4⟩ := bracket hp h1 h2 h3 h.proof
  have hc : m.y.handles.length = Y.count := hN.holds.count
  refine ⟨e1.trans h.orig, e2, fun x hx => ?_, fun x hx => ?_, List.pairwise_cons.2 ⟨h.pre, h.down⟩⟩
  · rcases List.mem_cons.1 hx with rfl | hx
    · exact ⟨st, by rw [e3, ← hc]; simp, by rw [e4, h.orig]; simp [pgNamed]⟩
    · obtain ⟨st', h1, h2⟩ := h.snap x hx
      exact ⟨st', by rw [e3]; exact List.getElem?_append_left (List.getElem?_eq_some_iff.1 h1).1 ▸ h1, h2⟩
  · rcases List.mem_cons.1 hx with rfl | hx
    · exact List.prefix_refl _
    · exact h.pre x hx

theorem NRuns.log (hm : C.clauseMin ≠ .none) (hp : C.proofGen = true) (h : NRuns C Y m) : MLog Y m := by
  induction h with
  | new =>
    refine ⟨rfl, fun _ h => ?_, fun _ h => ?_, fun _ h => ?_, List.Pairwise.nil⟩
    · cases h
    · cases h
    · cases h
  | reset _ _ _ =>
    refine ⟨rfl, fun _ h => ?_, fun _ h => ?_, fun _ h => ?_, List.Pairwise.nil⟩
    · cases h
    · cases h
    · cases h
  | @step Y Y' m m' op r hr hinc htw hY e ih =>
    have hN := hr.holds hm
    cases op with
    | know phase v =>
      cases hY
      unfold Mini.step at e
      simp only at e
      split at e
      · rename_i h1; cases e; exact ih.know hN (know_lg h1) [v]
      · cases e
      · cases e
    | add c =>
      cases hY
      unfold Mini.step at e
      simp only at e
      split at e
      · rename_i h1
        cases e
        obtain ⟨m1, e1, hN1, hl, k1⟩ := NHolds.genLits (C := C) c hN
        have h2 := ih.know hN (genLits_lg e1) (c.map Lit.v)
        unfold Mini.addClause at h1
        rw [e1] at h1
        simp only at h1
        split at h1
        · rename_i h3
          cases h1
          obtain ⟨f1, f2, p, f3, f4⟩ := step_add hp h3
          refine ⟨?_, by rw [f3]; exact h2.proof.append f4, fun x hx => by simp only [f1]; exact h2.snap x hx, fun x hx => ?_, ih.down⟩
          · rw [f2, h2.orig, hN1.names]
            simp [pgNamed]
          · exact (h2.pre x hx).trans (List.prefix_append _ _)
        · cases h1
        · cases h1
      · cases e
      · cases e
    | solve fuel sel as =>
      cases hY
      unfold Mini.step at e
      simp only at e
      split at e
      · rename_i h1; cases e; exact ih.know hN (solve_mlg h1) (as.map Lit.v)
      · cases e
      · cases e
    | save =>
      cases hY
      unfold Mini.step at e
      simp only at e
      split at e
      · rename_i h1
        cases e
        obtain ⟨e1, e2, st, e3, e4⟩ := save_lg hp h1
        have hc : m.y.handles.length = Y.count := hN.holds.count
        refine ⟨by rw [e1]; exact ih.orig, by rw [e1]; exact ih.proof, fun x hx => ?_, fun x hx => ?_, List.pairwise_cons.2 ⟨ih.pre, ih.down⟩⟩
        · rcases List.mem_cons.1 hx with rfl | hx
          · exact ⟨st, by rw [e3, ← hc]; simp, by rw [e4, ih.orig]; simp [pgNamed]⟩
          · obtain ⟨st', h1, h2⟩ := ih.snap x hx
            exact ⟨st', by rw [e3]; exact List.getElem?_append_left (List.getElem?_eq_some_iff.1 h1).1 ▸ h1, h2⟩
        · rcases List.mem_cons.1 hx with rfl | hx
          · exact List.prefix_refl _
          · exact ih.pre x hx
      · cases e
      · cases e
    | load k =>
      obtain ⟨r, hr', rfl⟩ := Option.map_eq_some_iff.1 hY
      unfold Mini.step at e
      simp only at e
      split at e
      · rename_i h1
        cases e
        obtain ⟨p, t, hpt, hrt, hk⟩ := ncut_suffix hr'
        have hmem : r.1 ∈ Y.saved := by rw [hpt, hrt]; simp
        have hsub : ∀ e ∈ r.2, e ∈ Y.saved := fun e he => by rw [hpt]; exact List.mem_append_right _ he
        have hd : r.2.Pairwise fun a b => b.2.2 <+: a.2.2 := by
          have := ih.down
          rw [hpt] at this
          exact (List.pairwise_append.1 this).2.1
        obtain ⟨f1, st, f2, f3, q, f4, f5⟩ := mload_lg hp h1
        obtain ⟨st', g1, g2⟩ := ih.snap r.1 hmem
        rw [hk, f2] at g1
        injection g1 with g1
        subst g1
        refine ⟨?_, by rw [f4]; exact (ih.proof.append f5).take _, fun x hx => ?_, fun x hx => ?_, hd⟩
        · show _ = pgNamed (Y.names.take r.1.2.1) r.1.2.2
          rw [← pgNamed_take (hN.overS r.1 hmem).2, f3, ih.orig, g2]
          obtain ⟨u, hu⟩ := ih.pre r.1 hmem
          rw [← hu]
          unfold pgNamed
          rw [List.map_append, List.take_left' (List.length_map _)]
        · obtain ⟨s1, s2, s3⟩ := ih.snap x (hsub x hx)
          exact ⟨s1, by rw [f1]; exact s2, s3⟩
        · show x.2.2 <+: r.1.2.2
          rw [hrt] at hx hd
          rcases List.mem_cons.1 hx with rfl | hx
          · exact List.prefix_refl _
          · exact (List.pairwise_cons.1 hd).1 x hx
      · cases e
      · cases e
  | @enumerate Y m m' fuel cfg ms hr hi hrel e ih =>
    have hN := hr.holds hm
    unfold Mini.enumerate at e
    split at e
    · cases e
    · cases e
    · rename_i h1
      simp only at e
      split at e
      · cases e
      · cases e
      · rename_i h2
        split at e
        · rename_i h3; cases e; exact ih.after hp hN h1 (enumLoop_mg hp h2) h3
        · cases e
        · cases e
  | @backbone Y m m' fuel vars t b hr e ih =>
    have hN := hr.holds hm
    unfold Mini.backbone at e
    unfold NSpec.afterIf
    by_cases hi : C.incremental = true
    · simp only [hi, if_true] at e ⊢
      split at e
      · cases e
      · cases e
      · rename_i h1
        split at e
        · cases e
        · cases e
        · rename_i h2
          split at e
          · rename_i h3; cases e; exact ih.after hp hN h1 (coreBackbone_lg h2).mg h3
          · cases e
          · cases e
    · simp only [hi] at e ⊢
      exact ih.know hN (coreBackbone_lg e) []
  | @optimize Y m m' cc fuel o sm cnt r hr hi ho e ih =>
    have hN := hr.holds hm
    unfold Mini.optimize at e
    simp only [hi, if_true] at e
    split at e
    · cases e
    · cases e
    · rename_i h1
      split at e
      · cases e
      · cases e
      · rename_i h2
        split at e
        · rename_i h3; cases e; exact ih.after hp hN h1 (optCompute_mg hp h2) h3
        · cases e
        · cases e

end
end Verif.Sat
