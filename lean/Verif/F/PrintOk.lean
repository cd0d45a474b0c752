import Verif.F.PrintLex

/-
Printing and parsing are inverse up to equivalence.
-/
namespace Verif

/-! ### The bounds of the repetitions and of the nesting are never reached -/

theorem rep_fuel {op p} (ho : op ≠ []) (hp : Shrinks p) :
    ∀ n m cs, cs.length ≤ n → cs.length ≤ m → pRep op p n cs = pRep op p m cs := by
  have hl : 0 < op.length := List.length_pos_iff.2 ho
  intro n
  induction n with
  | zero =>
    intro m cs h _
    have : cs = [] := by cases cs <;> simp_all
    subst this
    cases m with
    | zero => rfl
    | succ m =>
      have : str op (skip []) = none := by
        cases op with
        | nil => exact absurd rfl ho
        | cons a s => rfl
      simp [pRep, this]
  | succ n ih =>
    intro m cs h1 h2
    cases m with
    | zero =>
      have : cs = [] := by cases cs <;> simp_all
      subst this
      have : str op (skip []) = none := by
        cases op with
        | nil => exact absurd rfl ho
        | cons a s => rfl
      simp [pRep, this]
    | succ m =>
      have h0 := skip_len cs
      simp only [pRep]
      split
      · rfl
      · rename_i r e
        have h3 := str_len e
        have h4 := skip_len r
        split
        · rfl
        · rename_i x q e2
          have h5 := hp _ x q e2
          rw [ih m q (by omega) (by omega)]

theorem muls_fuel : ∀ n m cs, cs.length ≤ n → cs.length ≤ m → pMuls n cs = pMuls m cs := by
  intro n
  induction n with
  | zero =>
    intro m cs h _
    have : cs = [] := by cases cs <;> simp_all
    subst this
    cases m <;> rfl
  | succ n ih =>
    intro m cs h1 h2
    cases m with
    | zero =>
      have : cs = [] := by cases cs <;> simp_all
      subst this
      rfl
    | succ m =>
      have h0 := skip_len cs
      simp only [pMuls]
      split
      · rename_i r e
        rw [e] at h0; simp at h0
        have h4 := skip_len r
        split
        · rename_i x q e2
          have h5 := shrinks_mul _ _ x q e2
          rw [ih m q (by omega) (by omega)]
        · rfl
      · rename_i r e
        rw [e] at h0; simp at h0
        have h4 := skip_len r
        split
        · rename_i x q e2
          have h5 := shrinks_mul _ _ x q e2
          rw [ih m q (by omega) (by omega)]
        · rfl
      · rfl

theorem nots_fuel : ∀ n m cs, cs.length ≤ n → cs.length ≤ m → pNots n cs = pNots m cs := by
  intro n
  induction n with
  | zero =>
    intro m cs h _
    have : cs = [] := by cases cs <;> simp_all
    subst this
    cases m <;> rfl
  | succ n ih =>
    intro m cs h1 h2
    cases m with
    | zero =>
      have : cs = [] := by cases cs <;> simp_all
      subst this
      rfl
    | succ m =>
      have h0 := skip_len cs
      simp only [pNots]
      split
      · rename_i r e
        rw [e] at h0; simp at h0
        rw [ih m r (by omega) (by omega)]
      · rfl

/-- Two parsers agree on inputs up to a length. -/
def Agree (m : Nat) (p q : Pars Syn) : Prop := ∀ cs : List Char, cs.length ≤ m → p cs = q cs

theorem agree_rep {op p q m} (hp : Shrinks p) (h : Agree m p q) (n cs) (hc : cs.length ≤ m) :
    pRep op p n cs = pRep op q n cs := by
  induction n generalizing cs with
  | zero => rfl
  | succ n ih =>
    have h0 := skip_len cs
    simp only [pRep]
    split
    · rfl
    · rename_i r e
      have h1 := str_len e
      have h2 := skip_len r
      rw [← h (skip r) (by omega)]
      split
      · rfl
      · rename_i x w e2
        have h5 := hp _ x w e2
        rw [ih w (by omega)]

theorem agree_chain {mk op p q m} (hp : Shrinks p) (h : Agree m p q) : Agree m (pChain mk op p) (pChain mk op q) := by
  intro cs hc
  unfold pChain
  rw [← h cs hc]
  split
  · rfl
  · rename_i x r e
    have h1 := hp _ x r e
    have h2 := skip_len r
    rw [agree_rep hp h _ _ (by omega)]

theorem agree_lit {i j m} (h : Agree m (pParen i) (pParen j)) : Agree m (pLit i) (pLit j) := by
  intro cs hc
  unfold pLit
  split
  · rfl
  · unfold pSimp pAtom
    have h2 := skip_len (pNots cs.length cs).2
    have h3 := nots_len cs.length cs
    rw [h _ (by omega)]

theorem agree_eqvOf {i j m} (hi : Shrinks i) (h : Agree m (pParen i) (pParen j)) : Agree m (pEqvOf i) (pEqvOf j) :=
  agree_chain (shrinks_chain (shrinks_chain (shrinks_chain (shrinks_lit hi))))
    (agree_chain (shrinks_chain (shrinks_chain (shrinks_lit hi)))
      (agree_chain (shrinks_chain (shrinks_lit hi)) (agree_chain (shrinks_lit hi) (agree_lit h))))

/-- The parser for formulas in parentheses when `n` levels of nesting are left. -/
def innerOf : Nat → Pars Syn
  | 0 => fun _ => none
  | n + 1 => pEqv n

theorem pEqv_eq (n) : pEqv n = pEqvOf (innerOf n) := by cases n <;> rfl

theorem shrinks_inner (n) : Shrinks (innerOf n) := by
  cases n with
  | zero => exact fun _ _ _ h => nomatch h
  | succ n => exact shrinks_eqv n

/-- The bound on the nesting does not matter once it is the length of the input. -/
theorem pEqv_fuel (m n n') (h : m ≤ n) (h' : m ≤ n') : Agree m (pEqv n) (pEqv n') := by
  induction m generalizing n n' with
  | zero =>
    rw [pEqv_eq, pEqv_eq]
    refine agree_eqvOf (shrinks_inner n) fun cs hc => ?_
    have : cs = [] := by cases cs <;> simp_all
    subst this; rfl
  | succ m ih =>
    rw [pEqv_eq, pEqv_eq]
    refine agree_eqvOf (shrinks_inner n) fun cs hc => ?_
    obtain ⟨a, rfl⟩ : ∃ a, n = a + 1 := ⟨n - 1, by omega⟩
    obtain ⟨b, rfl⟩ : ∃ b, n' = b + 1 := ⟨n' - 1, by omega⟩
    show pParen (pEqv a) cs = pParen (pEqv b) cs
    unfold pParen
    split
    · rename_i cs
      have h0 := skip_len cs
      rw [ih a b (by omega) (by omega) _ (by simp at hc; omega)]
    · rfl

/-! ### Levels of the grammar -/

def opText : Nat → List Char
  | 0 => "<=>".toList
  | 1 => "=>".toList
  | 2 => "|".toList
  | _ => "&".toList

/-- What may follow a text read at level `k`. -/
def Rest (k : Nat) (r : List Char) : Prop :=
  r = [] ∨ (∃ q, r = ')' :: q) ∨ ∃ i < k, ∃ q, r = ' ' :: (opText i ++ ' ' :: q)

theorem Rest.mono {k j r} (h : Rest k r) (hk : k ≤ j) : Rest j r := by
  rcases h with h | h | ⟨i, hi, q, h⟩
  · exact .inl h
  · exact .inr (.inl h)
  · exact .inr (.inr ⟨i, by omega, q, h⟩)

theorem skip_opText (k q) : skip (' ' :: (opText k ++ ' ' :: q)) = opText k ++ ' ' :: q := by
  rw [skip_space]
  refine skip_of_head ?_
  unfold opText
  split <;> simp [isWs]

theorem Rest.stop {k r} (h : Rest k r) (hk : k < 4) : str (opText k) (skip r) = none := by
  rcases h with rfl | ⟨q, rfl⟩ | ⟨i, hi, q, rfl⟩
  · unfold opText; split <;> rfl
  · rw [skip_of_head (by simp [isWs])]
    unfold opText; split <;> simp [str]
  · rw [skip_opText]
    rcases k with _ | _ | _ | _ | k
    · omega
    · obtain rfl : i = 0 := by omega
      simp [opText, str]
    · rcases i with _ | _ | i
      · simp [opText, str]
      · simp [opText, str]
      · omega
    · rcases i with _ | _ | _ | i
      · simp [opText, str]
      · simp [opText, str]
      · simp [opText, str]
      · omega
    · omega

theorem Rest.noName {k r} (h : Rest k r) : ∀ c ∈ r.head?, isNameChar c = false := by
  rcases h with rfl | ⟨q, rfl⟩ | ⟨i, hi, q, rfl⟩ <;> simp <;> decide

theorem Rest.noDigit {k r} (h : Rest k r) : ∀ c ∈ r.head?, c.isDigit = false := by
  rcases h with rfl | ⟨q, rfl⟩ | ⟨i, hi, q, rfl⟩ <;> simp

theorem Rest.afterLit {k r} (h : Rest k r) : AfterLit r := by
  refine ⟨h.noName, ?_⟩
  rcases h with rfl | ⟨q, rfl⟩ | ⟨i, hi, q, rfl⟩
  · simp [skip]
  · rw [skip_of_head (by simp [isWs])]; simp
  · rw [skip_opText]; unfold opText; split <;> simp

/-- The rules by level. -/
def lv (inner : Pars Syn) : Nat → Pars Syn
  | 0 => pEqvOf inner
  | 1 => pImp inner
  | 2 => pDis inner
  | 3 => pCon inner
  | _ => pLit inner

def mkOf : Nat → List Syn → Syn
  | 0 => .eqv
  | 1 => .imp
  | 2 => .dis
  | _ => .con

theorem lv_eq (inner) (k) (hk : k < 4) : lv inner k = pChain (mkOf k) (opText k) (lv inner (k + 1)) := by
  rcases k with _ | _ | _ | _ | k
  · rfl
  · rfl
  · rfl
  · rfl
  · omega

theorem shrinks_lv {inner} (hi : Shrinks inner) (k) : Shrinks (lv inner k) := by
  rcases k with _ | _ | _ | _ | k
  · exact shrinks_eqvOf hi
  · exact shrinks_chain (shrinks_chain (shrinks_chain (shrinks_lit hi)))
  · exact shrinks_chain (shrinks_chain (shrinks_lit hi))
  · exact shrinks_chain (shrinks_lit hi)
  · exact shrinks_lit hi

/-- A sequence of elements separated by an operator. -/
inductive OpChain (p : Pars Syn) (op : List Char) : List Char → List Syn → List Char → Prop
  | one {cs x r} : p cs = some (x, r) → OpChain p op cs [x] r
  | cons {cs x r q xs r'} : p cs = some (x, r) → str op (skip r) = some q → OpChain p op (skip q) xs r' →
      OpChain p op cs (x :: xs) r'

theorem OpChain.append {p op cs xs r q ys r'} (h : OpChain p op cs xs r) (e : str op (skip r) = some q)
    (h' : OpChain p op (skip q) ys r') : OpChain p op cs (xs ++ ys) r' := by
  induction h with
  | one h1 => exact .cons h1 e h'
  | cons h1 h2 _ ih => exact .cons h1 h2 (ih e)

theorem OpChain.ne {p op cs xs r} (h : OpChain p op cs xs r) : xs ≠ [] := by cases h <;> simp

theorem OpChain.run {p op cs xs r} (hp : Shrinks p) (ho : op ≠ []) (h : OpChain p op cs xs r) (e : str op (skip r) = none) (mk) :
    ∃ r', pChain mk op p cs = some (mk xs, r') ∧ skip r' = skip r := by
  have hl : 0 < op.length := List.length_pos_iff.2 ho
  suffices H : ∃ x q ys, p cs = some (x, q) ∧ xs = x :: ys ∧ ∀ q', (q' = q ∨ q' = skip q) → ∃ r', pRep op p q.length q' = (ys, r') ∧ skip r' = skip r by
    obtain ⟨x, q, ys, h1, rfl, h2⟩ := H
    obtain ⟨r', h3, h4⟩ := h2 (skip q) (.inr rfl)
    exact ⟨r', by simp [pChain, h1, h3], h4⟩
  induction h with
  | @one cs x r h1 =>
    refine ⟨x, r, [], h1, rfl, fun q' hq => ⟨q', ?_, by rcases hq with rfl | rfl <;> simp [skip_idem]⟩⟩
    have : str op (skip q') = none := by rcases hq with rfl | rfl <;> simpa [skip_idem] using e
    cases r.length with
    | zero => rfl
    | succ n => simp [pRep, this]
  | @cons cs x r q xs r' h1 h2 _ ih =>
    obtain ⟨y, w, ys, h3, rfl, h4⟩ := ih e
    obtain ⟨u, h5, h6⟩ := h4 w (.inl rfl)
    refine ⟨x, r, y :: ys, h1, rfl, fun q' hq => ⟨u, ?_, h6⟩⟩
    have h7 : str op (skip q') = some q := by rcases hq with rfl | rfl <;> simpa [skip_idem] using h2
    have h8 := str_len h2
    have h9 := skip_len r
    have h10 := skip_len q
    have h11 := hp _ y w h3
    obtain ⟨n, hn⟩ : ∃ n, r.length = n + 1 := ⟨r.length - 1, by omega⟩
    rw [hn]
    simp only [pRep, h7, h3]
    rw [rep_fuel ho hp n w.length w (by omega) (Nat.le_refl _), h5]

/-! ### Meaning of a sequence of operands -/

def opSem : Nat → Bool → Bool → Bool
  | 0, a, b => a == b
  | 1, a, b => !a || b
  | 2, a, b => a || b
  | _, a, b => a && b

/-- Operators applied from the right. -/
def sem (k : Nat) : List Bool → Bool
  | [] => true
  | [x] => x
  | x :: y :: ys => opSem k x (sem k (y :: ys))

theorem sem_cons {k x xs} (h : xs ≠ []) : sem k (x :: xs) = opSem k x (sem k xs) := by
  cases xs with
  | nil => exact absurd rfl h
  | cons y ys => rfl

theorem opSem_assoc {k} (h : k ≠ 1) (a b c) : opSem k (opSem k a b) c = opSem k a (opSem k b c) := by
  rcases k with _ | _ | _ | k
  · cases a <;> cases b <;> cases c <;> rfl
  · exact absurd rfl h
  · cases a <;> cases b <;> cases c <;> rfl
  · cases a <;> cases b <;> cases c <;> rfl

theorem sem_append {k xs ys} (h : k ≠ 1) (hx : xs ≠ []) (hy : ys ≠ []) :
    sem k (xs ++ ys) = opSem k (sem k xs) (sem k ys) := by
  induction xs with
  | nil => exact absurd rfl hx
  | cons x xs ih =>
    cases xs with
    | nil => exact sem_cons hy
    | cons z zs =>
      rw [sem_cons (xs := z :: zs) (by simp), List.cons_append, sem_cons (by simp), ih (by simp), opSem_assoc h]

theorem builds_append {C : Canon} {N : Names} {xs ys gs hs} (h : Syn.builds C N xs = some gs) (h' : Syn.builds C N ys = some hs) :
    Syn.builds C N (xs ++ ys) = some (gs ++ hs) := by
  induction xs generalizing gs with
  | nil => simp [Syn.builds] at h; subst h; simpa using h'
  | cons x xs ih =>
    simp only [Syn.builds] at h
    split at h
    · rename_i y zs e1 e2
      simp at h; subst h
      simp [Syn.builds, e1, ih e2]
    · simp at h

theorem builds_len {C : Canon} {N : Names} {xs gs} (h : Syn.builds C N xs = some gs) : gs.length = xs.length := by
  induction xs generalizing gs with
  | nil => simp [Syn.builds] at h; subst h; rfl
  | cons x xs ih =>
    simp only [Syn.builds] at h
    split at h
    · rename_i y zs e1 e2
      simp at h; subst h
      simp [ih e2]
    · simp at h

open Formula in
theorem foldOp_ok {g : Formula → Formula → Formula} {k} (hg : ∀ a b, Norm a → Norm b → Norm (g a b) ∧ ∀ σ, (g a b).eval σ = opSem k (a.eval σ) (b.eval σ))
    {gs : List Formula} (hn : ∀ f ∈ gs, Norm f) (hne : gs ≠ []) :
    Norm (foldOp g gs) ∧ ∀ σ, (foldOp g gs).eval σ = sem k (gs.map (eval σ)) := by
  induction gs with
  | nil => exact absurd rfl hne
  | cons x xs ih =>
    cases xs with
    | nil => exact ⟨hn x (by simp), fun σ => rfl⟩
    | cons y ys =>
      obtain ⟨h1, h2⟩ := ih (fun f hf => hn f (by simp at hf ⊢; right; exact hf)) (by simp)
      obtain ⟨h3, h4⟩ := hg x _ (hn x (by simp)) h1
      refine ⟨h3, fun σ => ?_⟩
      show (g x (foldOp g (y :: ys))).eval σ = _
      rw [h4, h2]; rfl

theorem sem_disj {gs : List Formula} (h : gs ≠ []) (σ) : sem 2 (gs.map (Formula.eval σ)) = gs.any (Formula.eval σ) := by
  induction gs with
  | nil => exact absurd rfl h
  | cons x xs ih =>
    cases xs with
    | nil => simp [sem]
    | cons y ys => rw [List.map_cons, sem_cons (by simp), ih (by simp)]; rfl

theorem sem_conj {gs : List Formula} (h : gs ≠ []) (σ) : sem 3 (gs.map (Formula.eval σ)) = gs.all (Formula.eval σ) := by
  induction gs with
  | nil => exact absurd rfl h
  | cons x xs ih =>
    cases xs with
    | nil => simp [sem]
    | cons y ys => rw [List.map_cons, sem_cons (by simp), ih (by simp)]; rfl

open Formula in
theorem naryOp_ok (C : Canon) (o : Op) {gs : List Formula} (hn : ∀ f ∈ gs, Norm f) :
    Norm (naryOp C o gs) ∧ ∀ σ, (naryOp C o gs).eval σ = o.eval σ gs := by
  unfold naryOp
  split
  · refine ⟨hn _ (by simp), fun σ => ?_⟩
    cases o <;> simp [Op.eval]
  · exact ⟨norm_mkNary C o hn, fun σ => eval_mkNary C o σ _⟩

open Formula in
theorem build_mkOf (C : Canon) (N : Names) {k xs gs} (hk : k < 4) (h : Syn.builds C N xs = some gs) (hne : xs ≠ []) (hn : ∀ g ∈ gs, Norm g) :
    ∃ g, Syn.build C N (mkOf k xs) = some g ∧ Norm g ∧ ∀ σ, g.eval σ = sem k (gs.map (eval σ)) := by
  have hg : gs ≠ [] := by
    have := builds_len h
    intro e; subst e; simp at this; exact hne (by cases xs <;> simp_all)
  rcases k with _ | _ | _ | _ | k
  · obtain ⟨h1, h2⟩ := foldOp_ok (g := mkEquiv C) (k := 0)
      (fun a b ha hb => ⟨norm_mkEquiv C ha hb, fun σ => eval_mkEquiv C σ a b hb.fits1⟩) hn hg
    exact ⟨_, by simp [mkOf, Syn.build, h], h1, h2⟩
  · obtain ⟨h1, h2⟩ := foldOp_ok (g := mkImpl C) (k := 1)
      (fun a b ha hb => ⟨norm_mkImpl C ha hb, fun σ => eval_mkImpl C σ a b hb.fits1⟩) hn hg
    exact ⟨_, by simp [mkOf, Syn.build, h], h1, h2⟩
  · obtain ⟨h1, h2⟩ := naryOp_ok C .disj hn
    exact ⟨_, by simp [mkOf, Syn.build, h], h1, fun σ => by rw [h2, sem_disj hg]; rfl⟩
  · obtain ⟨h1, h2⟩ := naryOp_ok C .conj hn
    exact ⟨_, by simp [mkOf, Syn.build, h], h1, fun σ => by rw [h2, sem_conj hg]; rfl⟩
  · omega

/-! ### Reading a text at a level -/

/-- Parser `p` reads the text `s` as a formula with meaning `φ`. -/
def Reads (C : Canon) (N : Names) (p : Pars Syn) (k : Nat) (s : List Char) (φ : Asg → Bool) : Prop :=
  ∀ r, Rest k r → ∃ x q, p (s ++ r) = some (x, q) ∧ skip q = skip r ∧
    ∃ g, x.build C N = some g ∧ g.Norm ∧ ∀ σ, g.eval σ = φ σ

/-- The same for a sequence of operands of level `k`. -/
def RdCh (C : Canon) (N : Names) (inner : Pars Syn) (k : Nat) (s : List Char) (φ : Asg → Bool) : Prop :=
  ∀ r, Rest (k + 1) r → ∃ xs q, OpChain (lv inner (k + 1)) (opText k) (s ++ r) xs q ∧ skip q = skip r ∧
    ∃ gs, Syn.builds C N xs = some gs ∧ (∀ g ∈ gs, g.Norm) ∧ ∀ σ, sem k (gs.map (Formula.eval σ)) = φ σ

theorem opText_ne (k) : opText k ≠ [] := by unfold opText; split <;> simp

theorem RdCh.reads {C : Canon} {N : Names} {inner k s φ} (hi : Shrinks inner) (hk : k < 4) (h : RdCh C N inner k s φ) :
    Reads C N (lv inner k) k s φ := by
  intro r hr
  obtain ⟨xs, q, h1, h2, gs, h3, h4, h5⟩ := h r (hr.mono (by omega))
  obtain ⟨q', h6, h7⟩ := h1.run (shrinks_lv hi _) (opText_ne k) (by rw [h2]; exact hr.stop hk) (mkOf k)
  obtain ⟨g, h8, h9, h10⟩ := build_mkOf C N hk h3 h1.ne h4
  exact ⟨_, q', by rw [lv_eq inner k hk]; exact h6, by rw [h7, h2], g, h8, h9, fun σ => by rw [h10, h5]⟩

theorem Reads.rdCh {C : Canon} {N : Names} {inner k s φ} (h : Reads C N (lv inner (k + 1)) (k + 1) s φ) :
    RdCh C N inner k s φ := by
  intro r hr
  obtain ⟨x, q, h1, h2, g, h3, h4, h5⟩ := h r hr
  refine ⟨[x], q, .one h1, h2, [g], by simp [Syn.builds, h3], by simpa using h4, fun σ => ?_⟩
  simp [sem, h5]

/-- The text starts with no white space and is read at level `k`. -/
def TT (C : Canon) (N : Names) (inner : Pars Syn) (k : Nat) (s : List Char) (φ : Asg → Bool) : Prop :=
  (∀ t, skip (s ++ t) = s ++ t) ∧ if k < 4 then RdCh C N inner k s φ else Reads C N (pLit inner) 4 s φ

theorem TT.reads {C : Canon} {N : Names} {inner k s φ} (hi : Shrinks inner) (hk : k ≤ 4) (h : TT C N inner k s φ) :
    Reads C N (lv inner k) k s φ := by
  obtain ⟨_, h⟩ := h
  by_cases h4 : k < 4
  · rw [if_pos h4] at h; exact h.reads hi h4
  · rw [if_neg h4] at h
    obtain rfl : k = 4 := by omega
    exact h

theorem TT.down {C : Canon} {N : Names} {inner k s φ} (hi : Shrinks inner) (hk : k < 4) (h : TT C N inner (k + 1) s φ) :
    TT C N inner k s φ :=
  ⟨h.1, by rw [if_pos hk]; exact (h.reads hi (by omega)).rdCh⟩

theorem TT.mono {C : Canon} {N : Names} {inner k j s φ} (hi : Shrinks inner) (hk : k ≤ 4) (hj : j ≤ k) (h : TT C N inner k s φ) :
    TT C N inner j s φ := by
  obtain ⟨d, rfl⟩ : ∃ d, k = j + d := ⟨k - j, by omega⟩
  clear hj
  induction d with
  | zero => exact h
  | succ d ih => exact ih (by omega) (TT.down hi (by omega) h)

theorem TT.rdCh {C : Canon} {N : Names} {inner k s φ} (hk : k < 4) (h : TT C N inner k s φ) : RdCh C N inner k s φ := by
  have := h.2; rwa [if_pos hk] at this

theorem rdCh_join {C : Canon} {N : Names} {inner k s t φ ψ} (hk : k < 4) (h : RdCh C N inner k s φ)
    (h1 : k = 1 → Reads C N (lv inner 2) 2 s φ)
    (h' : RdCh C N inner k t ψ) (ht : ∀ u, skip (t ++ u) = t ++ u) :
    RdCh C N inner k (s ++ (' ' :: (opText k ++ ' ' :: t))) (fun σ => opSem k (φ σ) (ψ σ)) := by
  intro r hr
  have hr2 : Rest (k + 1) (' ' :: (opText k ++ ' ' :: (t ++ r))) := .inr (.inr ⟨k, by omega, t ++ r, rfl⟩)
  obtain ⟨ys, q', h7, h8, hs, h9, h10, h11⟩ := h' r hr
  have hys : hs ≠ [] := by
    have := builds_len h9
    have h12 := h7.ne
    intro e; subst e; simp at this; exact h12 (by cases ys <;> simp_all)
  have e0 : s ++ (' ' :: (opText k ++ ' ' :: t)) ++ r = s ++ (' ' :: (opText k ++ ' ' :: (t ++ r))) := by simp
  rw [e0]
  by_cases hk1 : k = 1
  · subst hk1
    obtain ⟨x, q, h2, h3, g, h4, h5, h6⟩ := h1 rfl _ hr2
    refine ⟨x :: ys, q', .cons h2 (q := ' ' :: (t ++ r)) ?_ ?_, h8, g :: hs, ?_, ?_, fun σ => ?_⟩
    · rw [h3, skip_opText]; exact str_app _ _
    · rw [skip_space, ht]; exact h7
    · simp [Syn.builds, h4, h9]
    · intro f hf; rcases List.mem_cons.1 hf with rfl | hf
      · exact h5
      · exact h10 f hf
    · rw [List.map_cons, sem_cons (by simpa using hys), h11, h6]
  · obtain ⟨xs, q, h2, h3, gs, h4, h5, h6⟩ := h _ hr2
    have hxs : gs ≠ [] := by
      have := builds_len h4
      have h12 := h2.ne
      intro e; subst e; simp at this; exact h12 (by cases xs <;> simp_all)
    refine ⟨xs ++ ys, q', h2.append (q := ' ' :: (t ++ r)) ?_ ?_, h8, gs ++ hs, builds_append h4 h9, ?_, fun σ => ?_⟩
    · rw [h3, skip_opText]; exact str_app _ _
    · rw [skip_space, ht]; exact h7
    · intro f hf; rcases List.mem_append.1 hf with hf | hf
      · exact h5 f hf
      · exact h10 f hf
    · rw [List.map_append, sem_append hk1 (by simpa using hxs) (by simpa using hys), h11, h6]

theorem TT.join {C : Canon} {N : Names} {inner k s t φ ψ} (hi : Shrinks inner) (hk : k < 4) (h : TT C N inner k s φ)
    (h1 : k = 1 → TT C N inner 2 s φ) (h' : TT C N inner k t ψ) :
    TT C N inner k (s ++ (' ' :: (opText k ++ ' ' :: t))) (fun σ => opSem k (φ σ) (ψ σ)) := by
  refine ⟨fun u => ?_, ?_⟩
  · have := h.1 ((' ' :: (opText k ++ ' ' :: t)) ++ u)
    simpa [List.append_assoc] using this
  · rw [if_pos hk]
    exact rdCh_join hk (h.rdCh hk) (fun e => (h1 e).reads hi (by omega)) (h'.rdCh hk) h'.1

theorem joinWith_ops (k) : ∀ (xs : List (List Char)), joinWith (' ' :: (opText k ++ [' '])) xs = match xs with
    | [] => []
    | [x] => x
    | x :: y :: ys => x ++ (' ' :: (opText k ++ ' ' :: joinWith (' ' :: (opText k ++ [' '])) (y :: ys))) := by
  intro xs
  match xs with
  | [] => rfl
  | [x] => rfl
  | x :: y :: ys => simp [joinWith]

/-- Operands of an n-ary operator. -/
theorem TT.nary {C : Canon} {N : Names} {inner k} (hi : Shrinks inner) (hk : k < 4) (hk1 : k ≠ 1)
    {α : Type} (txt : α → List Char) (φ : α → Asg → Bool) :
    ∀ xs : List α, xs ≠ [] → (∀ x ∈ xs, TT C N inner k (txt x) (φ x)) →
    TT C N inner k (joinWith (' ' :: (opText k ++ [' '])) (xs.map txt)) (fun σ => sem k (xs.map fun x => φ x σ)) := by
  intro xs
  induction xs with
  | nil => intro h; exact absurd rfl h
  | cons x xs ih =>
    intro _ h
    cases xs with
    | nil => exact h x (by simp)
    | cons y ys =>
      have h2 := ih (by simp) fun z hz => h z (List.mem_cons_of_mem _ hz)
      have h3 := TT.join hi hk (h x (by simp)) (fun e => absurd e hk1) h2
      rw [joinWith_ops]
      exact h3

/-! ### Leaves -/

/-- The variable has a name that is read back as this variable. -/
structure Readable (N : Names) (v : Var) : Prop where
  ident : IsIdent (N.var v)
  read : N.read (N.var v) = some v

theorem comparison_none_lit (N : Names) (l : Lit) (h : IsIdent (N.var l.v)) {r} (hr : Rest 4 r) :
    pComparison (N.lit l ++ r) = none := by
  unfold pComparison
  rw [pMul_lit N false l h hr.afterLit]
  simp only
  have hm : pMuls r.length (skip r) = ([], skip r) := by
    cases r.length with
    | zero => rfl
    | succ n =>
      simp only [pMuls, skip_idem]
      split
      · rename_i q e
        rcases hr with rfl | ⟨q', rfl⟩ | ⟨i, hi, q', rfl⟩
        · simp [skip] at e
        · rw [skip_of_head (by simp [isWs])] at e; simp at e
        · rw [skip_opText] at e; unfold opText at e; split at e <;> simp at e
      · rename_i q e
        rcases hr with rfl | ⟨q', rfl⟩ | ⟨i, hi, q', rfl⟩
        · simp [skip] at e
        · rw [skip_of_head (by simp [isWs])] at e; simp at e
        · rw [skip_opText] at e; unfold opText at e; split at e <;> simp at e
      · rfl
  rw [hm]
  simp only [skip_idem]
  rcases hr with rfl | ⟨q', rfl⟩ | ⟨i, hi, q', rfl⟩
  · rfl
  · rw [skip_of_head (by simp [isWs])]
    simp [pCmpTy]
  · rw [skip_opText]
    rcases i with _ | _ | _ | i <;> simp [opText, pCmpTy, skip, List.dropWhile, isWs, pNumber, pDigits, List.takeWhile]

theorem nots_of_head {cs : List Char} (n) (h : ∀ c ∈ (skip cs).head?, c ≠ '~') : pNots n cs = (0, cs) := by
  cases n with
  | zero => rfl
  | succ n =>
    simp only [pNots]
    split
    · rename_i r e; rw [e] at h; exact absurd rfl (h '~' (by simp))
    · rfl

theorem nots_ident {s : List Char} (h : IsIdent s) (n r) : pNots n (s ++ r) = (0, s ++ r) := by
  refine nots_of_head n ?_
  rw [h.head]
  obtain ⟨c, t, rfl, hc, _⟩ := h
  simp
  rintro rfl
  rcases hc with hc | hc
  · revert hc; decide
  · revert hc; decide

theorem pLiteral_ident {s : List Char} (h : IsIdent s) {r} (hr : ∀ c ∈ r.head?, isNameChar c = false) :
    pLiteral (s ++ r) = some ((false, s), r) := by
  have h1 := pName_app h hr
  obtain ⟨c, t, e, hc, ht⟩ := h
  rw [e] at h1 ⊢
  simp only [List.cons_append] at h1 ⊢
  have h2 : c ≠ '~' := by
    rintro rfl; rcases hc with hc | hc
    · revert hc; decide
    · revert hc; decide
  unfold pLiteral
  split
  · rename_i cs h; injection h with h _; exact absurd h h2
  · rw [h1]; simp

/-- A literal is read, whatever variable its name denotes. -/
theorem TT.litAs (C : Canon) (N : Names) (inner) (l : Lit) (h : IsIdent (N.var l.v)) {w} (hw : N.read (N.var l.v) = some w) :
    TT C N inner 4 (N.lit l) (fun σ => (Formula.lit ⟨w, l.pos⟩).eval σ) := by
  refine ⟨lit_head N l h, ?_⟩
  rw [if_neg (by omega)]
  intro r hr
  have hc := comparison_none_lit N l h hr
  unfold pLit
  rw [hc]
  simp only
  unfold pSimp pAtom
  cases hp : l.pos with
  | true =>
    have e : N.lit l = N.var l.v := by simp [Names.lit, hp]
    rw [e, nots_ident h]
    simp only
    rw [h.head, pLiteral_ident h hr.noName]
    refine ⟨_, r, rfl, rfl, .lit ⟨w, true⟩, ?_, .lit _, fun σ => rfl⟩
    simp [Syn.build, hw]
  | false =>
    have e : N.lit l = '~' :: N.var l.v := by simp [Names.lit, hp]
    have e2 : pNots (N.lit l ++ r).length (N.lit l ++ r) = (1, N.var l.v ++ r) := by
      rw [e]
      simp only [List.cons_append, List.length_cons, pNots]
      rw [skip_of_head (by simp [isWs])]
      simp only [nots_ident h]
    rw [e2]
    simp only
    rw [h.head, pLiteral_ident h hr.noName]
    refine ⟨_, r, rfl, rfl, .lit ⟨w, false⟩, ?_, .lit _, fun σ => rfl⟩
    simp [Syn.build, hw, Formula.mkNot, Lit.neg]

theorem TT.lit (C : Canon) (N : Names) (inner) (l : Lit) (h : Readable N l.v) :
    TT C N inner 4 (N.lit l) (fun σ => (Formula.lit l).eval σ) := TT.litAs C N inner l h.ident h.read

theorem TT.const (C : Canon) (N : Names) (inner) (b : Bool) :
    TT C N inner 4 (if b then "$true".toList else "$false".toList) (fun _ => b) := by
  refine ⟨?_, ?_⟩
  · intro t; refine skip_of_head ?_; cases b <;> simp [isWs]
  · rw [if_neg (by omega)]
    intro r _
    refine ⟨.simp 0 (.const b), r, ?_, rfl, Formula.const b, ?_, Formula.norm_const b, fun σ => by cases b <;> rfl⟩
    · have h1 : ∀ cs, pComparison ('$' :: cs) = none := by
        intro cs
        simp [pComparison, pMul, pCoef, pNumber, pDigits, List.takeWhile, pLiteral, skip, List.dropWhile, isWs, pName, isNameChar]
      have h2 : ∀ n cs, pNots n ('$' :: cs) = (0, '$' :: cs) := fun n cs =>
        nots_of_head n (by rw [skip_of_head (by simp [isWs])]; simp)
      have h3 : ∀ cs, pLiteral ('$' :: cs) = none := by
        intro cs; simp [pLiteral, pName, isNameChar]
      have h4 : ∀ cs, skip ('$' :: cs) = '$' :: cs := fun cs => skip_of_head (by simp [isWs])
      cases b
      · simp [pLit, h1, pSimp, h2, h4, pAtom, h3, pConst, str]
      · simp [pLit, h1, pSimp, h2, h4, pAtom, h3, pConst, str]
    · simp [Syn.build]

/-! ### Parentheses and negation -/

theorem pParen_reads {C : Canon} {N : Names} {n s φ} (h : TT C N (innerOf n) 0 s φ) (r) :
    ∃ x, pParen (innerOf (n + 1)) ('(' :: s ++ ')' :: r) = some (x, r) ∧
      ∃ g, x.build C N = some g ∧ g.Norm ∧ ∀ σ, g.eval σ = φ σ := by
  obtain ⟨x, q, h1, h2, h3⟩ := h.reads (shrinks_inner n) (by omega) (')' :: r) (.inr (.inl ⟨r, rfl⟩))
  have h1 : innerOf (n + 1) (s ++ ')' :: r) = some (x, q) := by
    show pEqv n _ = _
    rw [pEqv_eq]; exact h1
  refine ⟨x, ?_, h3⟩
  rw [skip_of_head (cs := ')' :: r) (by simp [isWs])] at h2
  simp only [pParen, List.cons_append, h.1, h1, h2]

theorem comparison_paren (cs) : pComparison ('(' :: cs) = none := by
  simp [pComparison, pMul, pCoef, pNumber, pDigits, List.takeWhile, pLiteral, skip, List.dropWhile, isWs, pName, isNameChar]

theorem comparison_notParen (cs) : pComparison ('~' :: '(' :: cs) = none := by
  simp [pComparison, pMul, pCoef, pNumber, pDigits, List.takeWhile, pLiteral, skip, List.dropWhile, isWs, pName, isNameChar]

theorem atom_paren (inner cs) : pAtom inner ('(' :: cs) = pParen inner ('(' :: cs) := by
  simp [pAtom, pLiteral, pName, isNameChar, pConst, str]

theorem TT.paren {C : Canon} {N : Names} {n s φ} (h : TT C N (innerOf n) 0 s φ) :
    TT C N (innerOf (n + 1)) 4 ('(' :: s ++ [')']) φ := by
  refine ⟨fun t => skip_of_head (by simp [isWs]), ?_⟩
  rw [if_neg (by omega)]
  intro r _
  obtain ⟨x, h1, g, h2, h3, h4⟩ := pParen_reads h r
  refine ⟨.simp 0 x, r, ?_, rfl, g, by simp [Syn.build, h2], h3, h4⟩
  have e : '(' :: s ++ [')'] ++ r = '(' :: s ++ ')' :: r := by simp
  rw [e]
  simp only [List.cons_append] at h1 ⊢
  unfold pLit
  rw [comparison_paren]
  simp only
  unfold pSimp
  rw [nots_of_head _ (by rw [skip_of_head (by simp [isWs])]; simp)]
  simp only
  rw [skip_of_head (by simp [isWs]), atom_paren, h1]
  rfl

theorem TT.notParen {C : Canon} {N : Names} {n s φ} (h : TT C N (innerOf n) 0 s φ) :
    TT C N (innerOf (n + 1)) 4 ('~' :: '(' :: s ++ [')']) (fun σ => !φ σ) := by
  refine ⟨fun t => skip_of_head (by simp [isWs]), ?_⟩
  rw [if_neg (by omega)]
  intro r _
  obtain ⟨x, h1, g, h2, h3, h4⟩ := pParen_reads h r
  refine ⟨.simp 1 x, r, ?_, rfl, Formula.mkNot g, by simp [Syn.build, h2], Formula.norm_mkNot h3,
    fun σ => by rw [Formula.eval_mkNot, h4]⟩
  have e : '~' :: '(' :: s ++ [')'] ++ r = '~' :: ('(' :: s ++ ')' :: r) := by simp
  rw [e]
  simp only [List.cons_append] at h1 ⊢
  unfold pLit
  rw [comparison_notParen]
  simp only
  unfold pSimp
  have e2 : pNots ('~' :: '(' :: (s ++ ')' :: r)).length ('~' :: '(' :: (s ++ ')' :: r)) = (1, '(' :: (s ++ ')' :: r)) := by
    rw [List.length_cons, pNots, skip_of_head (by simp [isWs])]
    simp only
    rw [nots_of_head _ (by rw [skip_of_head (by simp [isWs])]; simp)]
  rw [e2]
  simp only
  rw [skip_of_head (by simp [isWs]), atom_paren, h1]
  rfl

/-! ### Constraints -/

theorem i64?_of {x : Int} (h : I64 x) : i64? x = some x := by
  exact if_pos h

theorem allSome_terms (N : Names) {ts : List (Lit × Int)} (h : ∀ t ∈ ts, Readable N t.1.v) (hc : ∀ t ∈ ts, I64 t.2) :
    allSome N.readTerm (ts.map fun t => ⟨false, t.2, !t.1.pos, N.var t.1.v⟩) = some ts := by
  induction ts with
  | nil => rfl
  | cons t ts ih =>
    have h1 := (h t (by simp)).read
    have h2 := i64?_of (hc t (by simp))
    simp only [List.map_cons, allSome, Names.readTerm, h1, h2, ih (fun t ht => h t (by simp [ht])) fun t ht => hc t (by simp [ht])]
    simp

theorem TT.pbc (C : Canon) (N : Names) (inner) (p : PBC) (g : Formula) (hne : p.terms ≠ []) (h : ∀ t ∈ p.terms, Readable N t.1.v)
    (hc : ∀ t ∈ p.terms, I64 t.2) (hr : I64 p.rhs) (hg : Formula.mkPbc p.cmp p.rhs p.terms = g) (hn : g.Norm) :
    TT C N inner 4 (N.pbc p) (fun σ => g.eval σ) := by
  obtain ⟨t, ts, ht⟩ : ∃ t ts, p.terms = t :: ts := by
    cases e : p.terms with
    | nil => exact absurd e hne
    | cons t ts => exact ⟨t, ts, rfl⟩
  have hid : ∀ t' ∈ t :: ts, IsIdent (N.var t'.1.v) := fun t' h' => (h t' (by rw [ht]; exact h')).ident
  refine ⟨?_, ?_⟩
  · intro u
    unfold Names.pbc
    rw [ht]
    cases ts with
    | nil =>
      have := term_head N t (hid t (by simp)) (' ' :: p.cmp.text ++ ' ' :: showInt p.rhs ++ u)
      simpa [joinWith, List.append_assoc] using this
    | cons w ws =>
      have := term_head N t (hid t (by simp)) (" + ".toList ++ (joinWith " + ".toList ((w :: ws).map N.term) ++ (' ' :: p.cmp.text ++ ' ' :: showInt p.rhs ++ u)))
      simpa [joinWith, List.append_assoc] using this
  · rw [if_neg (by omega)]
    intro r hrest
    refine ⟨.cmp (p.terms.map fun t => ⟨false, t.2, !t.1.pos, N.var t.1.v⟩) p.cmp p.rhs, r, ?_, rfl, g, ?_, hn, fun _ => rfl⟩
    · obtain ⟨q, h1, h2, h3⟩ := pMuls_join N (tl := ' ' :: p.cmp.text ++ (' ' :: showInt p.rhs ++ r)) ⟨_, _, rfl⟩ t ts hid
      have e : N.pbc p ++ r = joinWith " + ".toList ((t :: ts).map N.term) ++ (' ' :: p.cmp.text ++ (' ' :: showInt p.rhs ++ r)) := by
        unfold Names.pbc; rw [ht]; simp [List.append_assoc]
      obtain ⟨q'', h4, h5⟩ := h3 q.length h2 (skip q) (.inr rfl)
      have h6 : pCmpTy (skip q'') = some (p.cmp, ' ' :: showInt p.rhs ++ r) := by
        rw [h5]
        cases p.cmp <;> simp [Cmp.text, skip, List.dropWhile, isWs, pCmpTy]
      have h7 : pComparison (N.pbc p ++ r) = some (.cmp (p.terms.map fun t => ⟨false, t.2, !t.1.pos, N.var t.1.v⟩) p.cmp p.rhs, r) := by
        unfold pComparison
        rw [e, h1]
        simp only
        rw [h4]
        simp only
        rw [h6]
        simp only
        rw [List.cons_append, skip_space, showInt_head, pNumber_showInt _ hrest.noDigit, ht]
        rfl
      unfold pLit
      rw [h7]
    · simp only [Syn.build, allSome_terms N h hc, i64?_of hr, hg]

theorem joinWith_map_eq {α} (s) (f g : α → List Char) (xs : List α) (h : ∀ x ∈ xs, f x = g x) : joinWith s (xs.map f) = joinWith s (xs.map g) := by
  rw [List.map_congr_left h]

theorem cc_text (N : Names) (c : CC) : N.cc c = N.pbc ⟨c.vars.map fun v => (v.p, (1 : Int)), c.cmp, c.rhs⟩ := by
  unfold Names.cc Names.pbc
  have h1 : showInt (c.rhs : Int) = digits c.rhs := by
    unfold showInt; rw [if_neg (by omega)]; simp
  simp only [h1, List.map_map]
  congr 4

theorem mkPbc_cc {c : CC} (h : CC.Ok c) : Formula.mkPbc c.cmp c.rhs (c.vars.map fun v => (v.p, (1 : Int))) = .cc c := by
  unfold Formula.mkPbc
  rw [if_neg (by simpa using h.ne), if_pos]
  · unfold Formula.constructCc
    rw [if_neg (by simpa using h.ne), if_pos (by omega)]
    have := h.rhs
    have h1 : c.vars.map ((fun t : Lit × Int => t.1.v) ∘ fun v => (v.p, (1 : Int))) = c.vars := by
      conv => rhs; rw [← List.map_id c.vars]
      exact List.map_congr_left fun v _ => rfl
    simp only [List.map_map, h1, Int.toNat_natCast, Nat.mod_eq_of_lt this]
  · unfold Formula.isLitCc
    have := h.isCc
    simp [this, Var.p]

theorem mkPbc_pbc {p : PBC} (h : PBC.Ok p) : Formula.mkPbc p.cmp p.rhs p.terms = .pbc p := by
  unfold Formula.mkPbc
  rw [if_neg h.ne, h.notCc]; simp

/-! ### Formulas -/

/-- No implication has an implication as its left operand (specification). -/
inductive NoLeft : Formula → Prop
  | tru : NoLeft .tru
  | fls : NoLeft .fls
  | lit (l) : NoLeft (.lit l)
  | not {f} : NoLeft f → NoLeft (.not f)
  | impl {a b} : NoLeft a → NoLeft b → (∀ x y, a ≠ .impl x y) → NoLeft (.impl a b)
  | equiv {a b} : NoLeft a → NoLeft b → NoLeft (.equiv a b)
  | nary {o fs} : (∀ f ∈ fs, NoLeft f) → NoLeft (.nary o fs)
  | cc (c) : NoLeft (.cc c)
  | pbc (p) : NoLeft (.pbc p)

namespace Formula

/-- The level of the grammar at which the text of a formula can be read without parentheses. -/
def level : Formula → Nat
  | .equiv _ _ => 0
  | .impl _ _ => 1
  | .nary .disj _ => 2
  | .nary .conj _ => 3
  | _ => 4

theorem level_le (f : Formula) : f.level ≤ 4 := by cases f with
  | nary o fs => cases o <;> simp [level]
  | _ => simp [level]

theorem texts_eq (N : Names) (k) (fs : List Formula) : texts N k fs = fs.map fun f => paren k f.prec (text N f) := by
  induction fs with
  | nil => rfl
  | cons f fs ih => simp [texts, ih]

end Formula

/-- An operand, in parentheses if necessary. -/
theorem TT.operand {C : Canon} {N : Names} {f : Formula} {φ} {n k j} (hj : j ≤ 4)
    (ih : ∀ m, (f.text N).length ≤ m → TT C N (innerOf m) f.level (f.text N) φ)
    (hl : k ≤ f.prec → j ≤ f.level) (hn : (Verif.paren k f.prec (f.text N)).length ≤ n) :
    TT C N (innerOf n) j (Verif.paren k f.prec (f.text N)) φ := by
  unfold Verif.paren at hn ⊢
  split
  · rename_i h
    rw [if_pos h] at hn
    obtain ⟨m, rfl⟩ : ∃ m, n = m + 1 := ⟨n - 1, by simp at hn; omega⟩
    have h1 := (ih m (by simp at hn; omega)).mono (shrinks_inner m) f.level_le (Nat.zero_le _)
    exact h1.paren.mono (shrinks_inner _) (Nat.le_refl _) hj
  · rename_i h
    rw [if_neg h] at hn
    exact (ih n hn).mono (shrinks_inner n) f.level_le (hl (by omega))

theorem len_joinWith_mem {s : List Char} {xs : List (List Char)} {x} (h : x ∈ xs) : x.length ≤ (joinWith s xs).length := by
  induction xs with
  | nil => simp at h
  | cons y ys ih =>
    cases ys with
    | nil => simp at h; subst h; exact Nat.le_refl _
    | cons z zs =>
      rcases List.mem_cons.1 h with rfl | h
      · simp [joinWith]
      · have := ih h
        simp [joinWith] at this ⊢; omega

theorem TT.congr {C : Canon} {N : Names} {inner k s φ ψ} (h : TT C N inner k s φ) (e : ∀ σ, φ σ = ψ σ) : TT C N inner k s ψ := by
  have : φ = ψ := funext e
  rwa [← this]

open Formula in
theorem text_ok (C : Canon) (N : Names) {f : Formula} (hn : f.Norm) (hl : NoLeft f) (hv : ∀ v, Occ v f → Readable N v) :
    ∀ n, (f.text N).length ≤ n → TT C N (innerOf n) f.level (f.text N) (fun σ => f.eval σ) := by
  induction hn with
  | tru => exact fun n _ => TT.const C N _ true
  | fls => exact fun n _ => TT.const C N _ false
  | lit l => exact fun n _ => TT.lit C N _ l (hv l.v (by simp))
  | @not f h _ _ _ ih =>
    intro n hlen
    cases hl with
    | not hl =>
    simp only [text, List.length_append, List.length_cons, List.length_nil] at hlen
    obtain ⟨m, rfl⟩ : ∃ m, n = m + 1 := ⟨n - 1, by omega⟩
    have h1 := ih hl (fun v ho => hv v (.not ho)) m (by omega)
    have h2 := (h1.mono (shrinks_inner m) (level_le _) (Nat.zero_le _)).notParen
    simp only [text, level]
    exact h2.congr fun σ => by simp [eval]
  | @impl a b ha hb _ _ _ iha ihb =>
    intro n hlen
    cases hl with
    | impl hla hlb hne =>
    simp only [text, List.length_append] at hlen
    have ia := iha hla fun v ho => hv v (by simp [ho])
    have ib := ihb hlb fun v ho => hv v (by simp [ho])
    have hla2 : 3 ≤ a.prec → 2 ≤ a.level := by
      intro h
      cases a with
      | impl x y => exact absurd rfl (hne x y)
      | nary o fs => cases o <;> simp [level]
      | _ => simp_all [prec, level]
    have hlb1 : 3 ≤ b.prec → 1 ≤ b.level := by
      intro h
      cases b with
      | nary o fs => cases o <;> simp [level]
      | _ => simp_all [prec, level]
    have ta := TT.operand (k := 3) (n := n) (j := 2) (by omega) ia hla2 (by omega)
    have tb := TT.operand (k := 3) (n := n) (j := 1) (by omega) ib hlb1 (by omega)
    have := TT.join (shrinks_inner n) (by omega) (ta.mono (shrinks_inner n) (by omega) (show 1 ≤ 2 by omega)) (fun _ => ta) tb
    simp only [text, level]
    have e : paren 3 a.prec (text N a) ++ " => ".toList ++ paren 3 b.prec (text N b)
        = paren 3 a.prec (text N a) ++ (' ' :: (opText 1 ++ ' ' :: paren 3 b.prec (text N b))) := by
      simp [opText]
    rw [e]
    exact this.congr (ψ := fun σ => _) fun σ => by simp [opSem, eval]
  | @equiv a b ha hb _ _ _ iha ihb =>
    intro n hlen
    cases hl with
    | equiv hla hlb =>
    simp only [text, List.length_append] at hlen
    have ia := iha hla fun v ho => hv v (by simp [ho])
    have ib := ihb hlb fun v ho => hv v (by simp [ho])
    have ta := TT.operand (k := 2) (n := n) (j := 0) (by omega) ia (fun _ => Nat.zero_le _) (by omega)
    have tb := TT.operand (k := 2) (n := n) (j := 0) (by omega) ib (fun _ => Nat.zero_le _) (by omega)
    have := TT.join (shrinks_inner n) (by omega) ta (fun h => absurd h (by omega)) tb
    simp only [text, level]
    have e : paren 2 a.prec (text N a) ++ " <=> ".toList ++ paren 2 b.prec (text N b)
        = paren 2 a.prec (text N a) ++ (' ' :: (opText 0 ++ ' ' :: paren 2 b.prec (text N b))) := by
      simp [opText]
    rw [e]
    exact this.congr (ψ := fun σ => _) fun σ => by simp [opSem, eval]
  | @nary o fs h2 hns hg ih =>
    intro n hlen
    cases hl with
    | nary hls =>
    have hne : fs ≠ [] := by rintro rfl; simp at h2
    cases o with
    | conj =>
      simp only [text, texts_eq] at hlen ⊢
      have := TT.nary (C := C) (N := N) (shrinks_inner n) (k := 3) (by omega) (by omega)
        (fun f => paren 5 f.prec (text N f)) (fun f σ => f.eval σ) fs hne fun f hf => by
          refine TT.operand (j := 3) (by omega) (ih f hf (hls f hf) fun v ho => hv v (by simp only [occ_nary]; exact ⟨f, hf, ho⟩)) ?_ ?_
          · intro h
            cases f with
            | nary o fs => cases o <;> simp_all [prec, level]
            | _ => simp_all [prec, level]
          · exact Nat.le_trans (len_joinWith_mem (List.mem_map.2 ⟨f, hf, rfl⟩)) hlen
      exact this.congr fun σ => by
        have := sem_conj hne σ
        rw [eval_nary]; exact this
    | disj =>
      simp only [text, texts_eq] at hlen ⊢
      have := TT.nary (C := C) (N := N) (shrinks_inner n) (k := 2) (by omega) (by omega)
        (fun f => paren 4 f.prec (text N f)) (fun f σ => f.eval σ) fs hne fun f hf => by
          refine TT.operand (j := 2) (by omega) (ih f hf (hls f hf) fun v ho => hv v (by simp only [occ_nary]; exact ⟨f, hf, ho⟩)) ?_ ?_
          · intro h
            cases f with
            | nary o fs => cases o <;> simp_all [prec, level]
            | _ => simp_all [prec, level]
          · exact Nat.le_trans (len_joinWith_mem (List.mem_map.2 ⟨f, hf, rfl⟩)) hlen
      exact this.congr fun σ => by
        have := sem_disj hne σ
        rw [eval_nary]; exact this
  | @cc c h =>
    intro n _
    simp only [text, cc_text]
    refine TT.pbc C N _ _ (.cc c) ?_ ?_ ?_ ?_ (mkPbc_cc h) (.cc h)
    · simpa using h.ne
    · intro t ht
      simp only [List.mem_map] at ht
      obtain ⟨v, hm, rfl⟩ := ht
      exact hv v (by simpa using hm)
    · intro t ht
      simp only [List.mem_map] at ht
      obtain ⟨v, hm, rfl⟩ := ht
      unfold I64; omega
    · have := h.rhs; simp only [I64]; omega
  | @pbc p h =>
    intro n _
    simp only [text]
    exact TT.pbc C N _ _ (.pbc p) h.ne (fun t ht => hv _ (by simp only [occ_pbc]; exact ⟨t, ht, rfl⟩)) h.coef h.rhs (mkPbc_pbc h) (.pbc h)

/-- From the levels of the grammar to `parse`. -/
theorem TT.parse {C : Canon} {N : Names} {s φ k} (hk : k ≤ 4) (h : TT C N (innerOf s.length) k s φ) :
    ∃ g, Verif.parse C N s = .ok g ∧ g.Norm ∧ ∀ σ, g.eval σ = φ σ := by
  have h0 := h.mono (shrinks_inner _) hk (Nat.zero_le _)
  obtain ⟨x, q, h1, h2, g, h3, h4, h5⟩ := h0.reads (shrinks_inner _) (by omega) [] (.inl rfl)
  have h6 := h.1 []
  rw [List.append_nil] at h1 h6
  refine ⟨g, ?_, h4, h5⟩
  unfold Verif.parse pTop
  rw [h6, pEqv_eq]
  have h7 : pEqvOf (innerOf s.length) s = some (x, q) := h1
  rw [h7]
  simp only
  rw [h2, if_pos (show skip [] = [] from rfl)]
  simp only [h3]

/-- Parsing the printed form. -/
theorem parse_text (C : Canon) (N : Names) {f : Formula} (hn : f.Norm) (hl : NoLeft f) (hv : ∀ v, Occ v f → Readable N v) :
    ∃ g, parse C N (f.text N) = .ok g ∧ g.Norm ∧ ∀ σ, g.eval σ = f.eval σ :=
  (text_ok C N hn hl hv (f.text N).length (Nat.le_refl _)).parse f.level_le

/-! ### Names that can be read back -/

/-- Names that `parsed_variable` takes for auxiliary variables of this factory
(specification). -/
def LooksAux (N : Names) (s : List Char) : Prop :=
  ∃ t ds, t ≠ AuxTy.tmp ∧ ds ≠ [] ∧ ds.all Char.isDigit = true ∧ s = auxPrefix ++ N.id ++ '_' :: (t.text ++ '_' :: ds)

/-- Variables whose names are identifiers, are known to the factory, and are not mistaken
for others (specification). -/
def NameOk (N : Names) : Var → Prop
  | .named i => IsIdent (N.name i) ∧ N.intern (N.name i) = i ∧ ¬ LooksAux N (N.name i)
  | .aux t i => t ≠ .tmp ∧ N.id.all (fun c => c.isDigit || c.isUpper) = true ∧ i < 2 ^ 64

theorem str_some {s cs r} (h : str s cs = some r) : cs = s ++ r := by
  induction s generalizing cs with
  | nil => simpa [str] using h
  | cons a s ih =>
    cases cs with
    | nil => simp [str] at h
    | cons c cs =>
      simp only [str] at h
      split at h
      · rename_i e; rw [e, ih h]; rfl
      · simp at h

theorem stripAux_some {N : Names} {cs r} (h : stripAux N cs = some r) :
    cs = auxPrefix ++ N.id ++ '_' :: r ∧ N.id.all (fun c => c.isDigit || c.isUpper) = true := by
  unfold stripAux at h
  split at h
  · simp at h
  · rename_i q e
    split at h
    · rename_i e2
      split at h
      · rename_i q' e3
        obtain rfl := Option.some.inj h
        have h1 := List.takeWhile_append_dropWhile (p := fun c : Char => c.isDigit || c.isUpper) (l := q)
        rw [e2, e3] at h1
        refine ⟨by rw [str_some e, ← h1, List.append_assoc], ?_⟩
        rw [← e2]
        exact List.all_takeWhile
      · simp at h
    · simp at h

theorem auxTail_some {cs t r} (h : auxTail cs = some (t, r)) : t ≠ .tmp ∧ cs = t.text ++ '_' :: r := by
  unfold auxTail at h
  split at h
  · rename_i q e
    obtain ⟨rfl, rfl⟩ := Prod.mk.inj (Option.some.inj h)
    exact ⟨by simp, by rw [str_some e]; rfl⟩
  · split at h
    · rename_i q e
      obtain ⟨rfl, rfl⟩ := Prod.mk.inj (Option.some.inj h)
      exact ⟨by simp, by rw [str_some e]; rfl⟩
    · cases e : str "PB_".toList cs with
      | none => rw [e] at h; simp at h
      | some q =>
        rw [e] at h; simp at h
        obtain ⟨rfl, rfl⟩ := h
        exact ⟨by simp, by rw [str_some e]; rfl⟩

theorem read_named {N : Names} {s} (h : ¬ LooksAux N s) : N.read s = some (.named (N.intern s)) := by
  unfold Names.read
  split
  · rename_i t r e
    split
    · rename_i h1
      exfalso
      rw [Option.bind_eq_some_iff] at e
      obtain ⟨q, e1, e2⟩ := e
      obtain ⟨h2, h3⟩ := auxTail_some e2
      exact h ⟨t, r, h2, h1.1, h1.2, by rw [(stripAux_some e1).1, h3]⟩
    · rfl
  · rfl

theorem stripAux_var {N : Names} (h : N.id.all (fun c => c.isDigit || c.isUpper) = true) (r) :
    stripAux N (auxPrefix ++ N.id ++ '_' :: r) = some r := by
  unfold stripAux
  rw [List.append_assoc, str_app]
  simp only
  rw [takeWhile_app h (by simp), dropWhile_app h (by simp), if_pos rfl]
  rfl

theorem var_aux (N : Names) (t i) : N.var (.aux t i) = auxPrefix ++ N.id ++ '_' :: (t.text ++ '_' :: digits i) := by
  simp [Names.var]

theorem ident_aux {N : Names} (h : N.id.all isNameChar = true) (t i) : IsIdent (N.var (.aux t i)) := by
  rw [var_aux]
  refine ⟨'@', "RESERVED_".toList ++ N.id ++ '_' :: (t.text ++ '_' :: digits i), rfl, .inr rfl, ?_⟩
  have h1 : (digits i).all isNameChar = true := by
    have := digits_all i
    rw [List.all_eq_true] at this ⊢
    exact fun c hc => isDigit_nameChar (this c hc)
  have h2 : t.text.all isNameChar = true := by cases t <;> decide
  have h3 : ("RESERVED_".toList).all isNameChar = true := by decide
  have h4 : isNameChar '_' = true := by decide
  rw [List.all_append, List.all_append, List.all_cons, List.all_append, List.all_cons, h1, h2, h3, h4, h]
  rfl

theorem NameOk.readable {N : Names} {v} (h : NameOk N v) : Readable N v := by
  cases v with
  | named i => exact ⟨h.1, by rw [show N.var (.named i) = N.name i from rfl, read_named h.2.2, h.2.1]⟩
  | aux t i =>
    obtain ⟨h1, h2, h3⟩ := h
    refine ⟨ident_aux ?_ t i, ?_⟩
    · rw [List.all_eq_true] at h2 ⊢
      intro c hc
      have := h2 c hc
      rw [Bool.or_eq_true] at this
      exact this.elim isDigit_nameChar isUpper_nameChar
    · rw [var_aux]
      unfold Names.read
      rw [stripAux_var h2, Option.bind_some]
      have h4 : auxTail (t.text ++ '_' :: digits i) = some (t, digits i) := by
        cases t with
        | tmp => exact absurd rfl h1
        | _ => simp [auxTail, AuxTy.text, str]
      rw [h4]
      simp only
      rw [if_pos ⟨digits_ne i, digits_all i⟩, readNat_digits, if_pos h3]

/-- Auxiliary variables that are read back as named variables. -/
theorem read_foreign {N : Names} {t i} (h : t = .tmp ∨ N.id.all (fun c => c.isDigit || c.isUpper) = false) :
    N.read (N.var (.aux t i)) = some (.named (N.intern (N.var (.aux t i)))) := by
  unfold Names.read
  split
  · rename_i t' r e
    exfalso
    rw [Option.bind_eq_some_iff] at e
    obtain ⟨q, e1, e2⟩ := e
    obtain ⟨h2, h3⟩ := auxTail_some e2
    obtain ⟨h4, h5⟩ := stripAux_some e1
    rcases h with rfl | h
    · rw [var_aux, h3] at h4
      have h6 := List.append_cancel_left h4
      simp only [List.cons.injEq, true_and] at h6
      cases t' with
      | tmp => exact h2 rfl
      | _ => simp [AuxTy.text] at h6
    · rw [h] at h5; cases h5
  · rfl

end Verif
