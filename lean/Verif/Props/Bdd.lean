import Verif.Bdd.Support
import Verif.Props.Transform
/-
Binary decision diagrams: C36 (construction), C37 (canonicity), C38 (handles stay valid), C39 (restriction,
quantification), C40 (counting, enumeration, normal forms), C53 (models), C54 (support).

The meaning of a handle is `Kernel.value`: follow the branches of an assignment through the node table down to a
constant.  Statements are about every state reachable from a new kernel (any number or ordering of variables, any node
table and cache size, any growth policy) and any factory by any sequence of operations of the public interface.
-/
namespace Verif
namespace Bdd
open ER

/-- Follow an assignment from node `n`: `none` if a free slot or a level without variable is met. -/
def Kernel.walk (k : Kernel Var) (σ : Asg) : Nat → Nat → Option Bool
  | 0, _ => none
  | f + 1, n =>
    if n = 0 then some false else if n = 1 then some true
    else (k.idx[k.level n]?).bind fun v => (k.low n).bind fun l => k.walk σ f (if σ v then k.high n else l)

/-- The value of a handle under an assignment. -/
def Kernel.value (k : Kernel Var) (n : Nat) (σ : Asg) : Option Bool := k.walk σ (k.varnum + 1) n

/-- bdd_kernel.rs 175-181. -/
def Kernel.newOrd (vs : List Var) (size csize : Nat) (grow : Nat → Nat → Nat) : Option (Kernel Var) :=
  (Kernel.new vs.length size csize grow).bind fun k => vs.foldlM (fun (k : Kernel Var) v => (k.varIndex v).map (·.2)) k

/-- A handle that may be used: a constant or one built by `from_formula`. -/
def Held (hs : List (Nat × Formula)) (r : Nat) : Prop := r < 2 ∨ ∃ f, (r, f) ∈ hs

/-- Operations on kernel and factory, with the list of handles built so far and their formulas. -/
inductive BStep (C : Canon) (cfg : FCfg) : BSt → List (Nat × Formula) → BSt → List (Nat × Formula) → Prop
  | aux {s hs c'} : (∀ t, s.w.cnt t ≤ c' t) → BStep C cfg s hs { s with w := { s.w with cnt := c' } } hs
  | nnf {s hs f g w'} : Input cfg s.w.cnt f → nnf C cfg f s.w = some (g, w') → BStep C cfg s hs { s with w := w' } hs
  | build {s hs h f x s'} : Input cfg s.w.cnt f → build C cfg h f s = some (some x, s') → BStep C cfg s hs s' ((x, f) :: hs)
  | aborted {s hs h f s'} : Input cfg s.w.cnt f → build C cfg h f s = some (none, s') → BStep C cfg s hs s' hs
  | restrict {s hs r ls y s'} : Held hs r → (∀ l ∈ ls, Known s.w.cnt l.v) → Consist ls → restrictH C cfg r ls s = some (some y, s') → BStep C cfg s hs s' hs
  | exist {s hs r vs y s'} : Held hs r → (∀ v ∈ vs, Known s.w.cnt v) → existsH C cfg r vs s = some (some y, s') → BStep C cfg s hs s' hs
  | forAll {s hs r vs y s'} : Held hs r → (∀ v ∈ vs, Known s.w.cnt v) → forAllH C cfg r vs s = some (some y, s') → BStep C cfg s hs s' hs
  | model {s hs r o k'} : Held hs r → modelH r s.k = some (o, k') → BStep C cfg s hs { s with k := k' } hs
  | fullModel {s hs r o k'} : Held hs r → fullModelH r s.k = some (o, k') → BStep C cfg s hs { s with k := k' } hs
  | modelFor {s hs r d vs o s'} : Held hs r → (∀ v ∈ vs, Known s.w.cnt v) → modelForH C cfg r d vs s = some (some o, s') → BStep C cfg s hs s' hs
  | support {s hs r L k'} : Held hs r → supportH r s.k = some (L, k') → BStep C cfg s hs { s with k := k' } hs
  | count {s hs r n k'} : Held hs r → s.k.satCount r = some (n, k') → BStep C cfg s hs { s with k := k' } hs
  | paths {s hs r b n k'} : Held hs r → s.k.pathCount b r = some (n, k') → BStep C cfg s hs { s with k := k' } hs
  | enum {s hs r ovs ms k'} : Held hs r → enumModels r ovs s.k = some (ms, k') → BStep C cfg s hs { s with k := k' } hs
  | negate {s hs r y k'} : Held hs r → s.k.not r = some (y, k') → BStep C cfg s hs { s with k := k' } hs
  | apply {s hs o a b y k'} : Held hs a → Held hs b → s.k.apply o a b = some (y, k') → BStep C cfg s hs { s with k := k' } hs
  | normalForm {s hs r cnf g k'} : Held hs r → normalForm C cnf r s.k = some (g, k') → BStep C cfg s hs { s with k := k' } hs

/-- Sequences of operations. -/
inductive BSteps (C : Canon) (cfg : FCfg) : BSt → List (Nat × Formula) → BSt → List (Nat × Formula) → Prop
  | refl {s hs} : BSteps C cfg s hs s hs
  | step {s hs s1 hs1 s2 hs2} : BSteps C cfg s hs s1 hs1 → BStep C cfg s1 hs1 s2 hs2 → BSteps C cfg s hs s2 hs2

/-- States reachable with a kernel; `c` are the auxiliary counters of the fresh factory. -/
inductive BReach (C : Canon) (cfg : FCfg) (c : AuxTy → Nat) : BSt → List (Nat × Formula) → Prop
  | num {w es rs nv size csize grow k} : TReach C cfg c w es rs → 3 ≤ size → (∀ g n, n < grow g n) → Kernel.new nv size csize grow = some k → BReach C cfg c ⟨k, w, 0⟩ []
  | ord {w es rs vs size csize grow k} : TReach C cfg c w es rs → 3 ≤ size → (∀ g n, n < grow g n) → Kernel.newOrd vs size csize grow = some k → BReach C cfg c ⟨k, w, 0⟩ []
  | step {s hs s' hs'} : BReach C cfg c s hs → BStep C cfg s hs s' hs' → BReach C cfg c s' hs'

section
variable {C : Canon} {cfg : FCfg} {c : AuxTy → Nat}

theorem walk_ok {k : Kernel Var} {σ : Asg} {ρ : Nat → Bool} (hg : Agr k.idx ρ σ) : ∀ (t : BT) (f n b : Nat), Den k n t → BT.Ord k.idx.length b t → t.depth < f → k.walk σ f n = some (t.eval ρ)
  | t, 0, _, _, _, _, h => by omega
  | t, f + 1, n, b, hd, ho, h => by
    unfold Kernel.walk
    cases hd with
    | zero => rfl
    | one => rfl
    | @node _ l tl th h2 hl dl dh =>
      obtain ⟨_, o2, o3, o4⟩ := ho
      have hv : k.idx[k.level n]? = some k.idx[k.level n] := List.getElem?_eq_getElem o2
      simp only [BT.depth] at h
      rw [if_neg (by omega), if_neg (by omega), hv, Option.bind_some, hl, Option.bind_some, BT.eval, hg _ _ hv]
      cases σ k.idx[k.level n] with
      | true => exact walk_ok hg th f _ _ dh o4 (by omega)
      | false => exact walk_ok hg tl f _ _ dl o3 (by omega)

theorem value_ok {k : Kernel Var} (hk : KInv k) {n : Nat} {F : (Nat → Bool) → Bool} (hs : Is k n F) (hl : Lv k.idx.length F) {ρ : Nat → Bool} {σ : Asg} (hg : Agr k.idx ρ σ) : k.value n σ = some (F ρ) := by
  obtain ⟨t, d, o, e⟩ := hs
  have o' : BT.Ord k.idx.length 0 t := ord_of_lv t 0 (hk.den_red d) o fun ρ ρ' h => by show t.eval ρ = t.eval ρ'; rw [e, e]; exact hl ρ ρ' h
  rw [← e]
  exact walk_ok hg t _ _ 0 d o' (by have := o.depth_le (Nat.zero_le _); omega)

/-- A usable handle has a function. -/
def HasFn (k : Kernel Var) (n : Nat) : Prop := ∃ F, Is k n F ∧ Lv k.idx.length F

/-- Invariant of reachable states. -/
structure BInv (c : AuxTy → Nat) (s : BSt) (hs : List (Nat × Formula)) (E : List Ent) : Prop where
  pub : Pub s.k (hs.map (·.1))
  w : WInv c s.w E
  rep : ∀ p ∈ hs, Rep s.k E p.1 p.2

theorem Held.mem {hs : List (Nat × Formula)} {r : Nat} (h : Held hs r) : r < 2 ∨ r ∈ hs.map (·.1) := h.imp id fun ⟨f, hf⟩ => List.mem_map.2 ⟨(r, f), hf, rfl⟩

theorem BInv.fn {s : BSt} {hs : List (Nat × Formula)} {E : List Ent} (h : BInv c s hs E) {r : Nat} (hr : Held hs r) : HasFn s.k r := by
  rcases hr with hr | ⟨f, hf⟩
  · rcases (show r = 0 ∨ r = 1 by omega) with rfl | rfl
    · exact ⟨fun _ => false, is_false fun _ => rfl, fun _ _ _ => rfl⟩
    · exact ⟨fun _ => true, is_true fun _ => rfl, fun _ _ _ => rfl⟩
  · obtain ⟨F, a, b, _⟩ := h.rep _ hf; exact ⟨F, a, b⟩

theorem BInv.next {s s' : BSt} {hs : List (Nat × Formula)} {E E' : List Ent} (h : BInv c s hs E) (hp : Pub s'.k (hs.map (·.1))) (ha : Adv (hs.map (·.1)) s.k s'.k) (hw : WInv c s'.w E') (hx : GExt s.w.cnt E s'.w.cnt E') : BInv c s' hs E' :=
  ⟨hp, hw, fun p hp' => (h.rep p hp').adv ha (.inr (List.mem_map.2 ⟨p, hp', rfl⟩)) hx⟩

theorem BInv.nextK {s : BSt} {k' : Kernel Var} {hs : List (Nat × Formula)} {E : List Ent} (h : BInv c s hs E) (hp : Pub k' (hs.map (·.1))) (ha : Adv (hs.map (·.1)) s.k k') : BInv c { s with k := k' } hs E :=
  h.next hp ha h.w (GExt.refl _ _)


theorem HasFn.repF {k : Kernel Var} (hk : KInv k) {r : Nat} (h : HasFn k r) : RepF k r (fun _ => True) fun σ => k.value r σ = some true := by
  obtain ⟨F, a, b⟩ := h
  refine ⟨F, a, b, fun ρ σ hg _ => ?_⟩
  simp only [value_ok hk a b hg, Option.some.injEq]

theorem newOrd_ok {vs : List Var} {size csize : Nat} {grow : Nat → Nat → Nat} (hs : 3 ≤ size) (hg : ∀ g n, n < grow g n) :
    ∃ k, Kernel.newOrd vs size csize grow = some k ∧ Pub k [] ∧ k.varnum = vs.length ∧ (vs.Nodup → k.idx = vs) := by
  obtain ⟨k, e, hp, hv, hi⟩ := new_ok (V := Var) (nv := vs.length) (csize := csize) hs hg
  unfold Kernel.newOrd
  rw [e, Option.bind_some]
  have key : ∀ (us done : List Var) (k : Kernel Var), Pub k [] → k.varnum = vs.length → k.idx.length ≤ done.length → done.length + us.length = vs.length → ((done ++ us).Nodup → k.idx = done) →
      ∃ k', us.foldlM (fun (k : Kernel Var) v => (k.varIndex v).map (·.2)) k = some k' ∧ Pub k' [] ∧ k'.varnum = vs.length ∧ ((done ++ us).Nodup → k'.idx = done ++ us) := by
    intro us
    induction us with
    | nil => intro done k hp hv _ _ hn; exact ⟨k, rfl, hp, hv, fun h => by rw [hn h]; simp⟩
    | cons u us ih =>
      intro done k hp hv hl hlen hn
      simp only [List.length_cons] at hlen
      have hnext : ∃ i k1, k.varIndex u = some (i, k1) ∧ Pub k1 [] ∧ k1.varnum = vs.length ∧ k1.idx.length ≤ (done ++ [u]).length ∧ ((done ++ u :: us).Nodup → k1.idx = done ++ [u]) := by
        rcases varIndex_ok hp u with ⟨_, _, h⟩ | ⟨i, k1, e1, p1, a1, _, _, _⟩
        · omega
        refine ⟨i, k1, e1, p1, a1.varnum.trans hv, ?_, fun nd => ?_⟩
        · unfold Kernel.varIndex at e1
          split at e1
          · cases e1; simp only [List.length_append, List.length_cons, List.length_nil]; omega
          · split at e1
            · cases e1; simp only [List.length_append, List.length_cons, List.length_nil]; omega
            · cases e1
        · have hd := hn nd
          have hnot : u ∉ k.idx := by
            rw [hd]
            intro hm
            have := (List.nodup_append.1 nd).2.2 u hm u (by simp)
            exact this rfl
          unfold Kernel.varIndex at e1
          rw [if_neg hnot] at e1
          split at e1
          · cases e1; show k.idx ++ [u] = _; rw [hd]
          · cases e1
      obtain ⟨i, k1, e1, p1, v1, l1, n1⟩ := hnext
      obtain ⟨k', e2, p2, v2, n2⟩ := ih (done ++ [u]) k1 p1 v1 l1 (by simp only [List.length_append, List.length_cons, List.length_nil]; omega) (fun h => n1 (by simpa using h))
      refine ⟨k', ?_, p2, v2, fun h => by rw [n2 (by simpa using h)]; simp⟩
      simp only [List.foldlM_cons, e1, Option.map_some, Option.bind_eq_bind, Option.bind_some]
      exact e2
  obtain ⟨k', e', h⟩ := key vs [] k hp hv (by rw [hi]; simp) (by simp) (fun _ => hi)
  exact ⟨k', e', h.1, h.2.1, fun hn => by simpa using h.2.2 (by simpa using hn)⟩

/-- Every operation keeps the invariant and the functions of all handles. -/
theorem BStep.inv (hcfg : cfg.cc.Good) {s hs s' hs'} (h : BStep C cfg s hs s' hs') {E : List Ent} (hi : BInv c s hs E) :
    ∃ E', BInv c s' hs' E' ∧ Adv (hs.map (·.1)) s.k s'.k ∧ ∀ p ∈ hs, p ∈ hs' := by
  have same : ∀ p ∈ hs, p ∈ hs := fun _ h => h
  cases h with
  | aux hle =>
    have hx : GExt s.w.cnt E _ E := ⟨hle, fun _ h => h⟩
    exact ⟨E, hi.next hi.pub .rfl (hi.w.grow (hi.w.base.mono hle) hx) hx, .rfl, same⟩
  | nnf hin e =>
    obtain ⟨g', w', E', e', h', x', k'⟩ := nnf_ok (C := C) hcfg hi.w hin.top
    rw [e] at e'; injection e' with e'; injection e' with e1 e2; subst e1; subst e2
    exact ⟨E', hi.next hi.pub .rfl h' x', .rfl, same⟩
  | @build h f x _ hin e =>
    rcases build_ok (room := False) (vs := []) (C := C) hcfg h hin.top hi.pub hi.w (fun h => h.elim) fun h => h.elim with ⟨e', _⟩ | ⟨s2, E', e', _⟩ | ⟨y, s2, E', e', p, st, rp⟩
    · rw [e] at e'; cases e'
    · rw [e] at e'; cases e'
    · rw [e] at e'; cases e'
      refine ⟨E', ⟨p, st.winv, fun q hq => ?_⟩, st.adv, fun q hq => by simp [hq]⟩
      rcases List.mem_cons.1 hq with rfl | hq
      · exact rp
      · exact (hi.rep q hq).adv st.adv (.inr (List.mem_map.2 ⟨q, hq, rfl⟩)) st.gext
  | @aborted h f _ hin e =>
    rcases build_ok (room := False) (vs := []) (C := C) hcfg h hin.top hi.pub hi.w (fun h => h.elim) fun h => h.elim with ⟨e', _⟩ | ⟨s2, E', e', p, st⟩ | ⟨y, s2, E', e', _⟩
    · rw [e] at e'; cases e'
    · rw [e] at e'; cases e'
      exact ⟨E', hi.next p st.adv st.winv st.gext, st.adv, same⟩
    · rw [e] at e'; cases e'
  | restrict hr hv hc e =>
    rcases restrictH_ok (C := C) hcfg (fun l hl => known_iff.1 (hv l hl)) hi.pub hi.w hc hr.mem ((hi.fn hr).repF hi.pub.toKInv) with ⟨e', _⟩ | ⟨y, s2, E', e', p, st, _⟩
    · rw [e] at e'; cases e'
    · rw [e] at e'; cases e'
      exact ⟨E', hi.next p st.adv st.winv st.gext, st.adv, same⟩
  | exist hr hv e =>
    rcases quantH_ok (C := C) (op := .or) hcfg (.inl rfl) (fun l hl => known_iff.1 (hv l hl)) hi.pub hi.w hr.mem ((hi.fn hr).repF hi.pub.toKInv) with ⟨e', _⟩ | ⟨y, s2, E', e', p, st, _⟩
    · rw [if_pos rfl, e] at e'; cases e'
    · rw [if_pos rfl, e] at e'; cases e'
      exact ⟨E', hi.next p st.adv st.winv st.gext, st.adv, same⟩
  | forAll hr hv e =>
    rcases quantH_ok (C := C) (op := .and) hcfg (.inr rfl) (fun l hl => known_iff.1 (hv l hl)) hi.pub hi.w hr.mem ((hi.fn hr).repF hi.pub.toKInv) with ⟨e', _⟩ | ⟨y, s2, E', e', p, st, _⟩
    · rw [if_neg (by decide), e] at e'; cases e'
    · rw [if_neg (by decide), e] at e'; cases e'
      exact ⟨E', hi.next p st.adv st.winv st.gext, st.adv, same⟩
  | model hr e =>
    obtain ⟨F, a, b⟩ := hi.fn hr
    obtain ⟨o, k', e', p, ad, _⟩ := modelH_ok hi.pub hr.mem a b
    rw [e] at e'; cases e'
    exact ⟨E, hi.nextK p ad, ad, same⟩
  | fullModel hr e =>
    obtain ⟨F, a, b⟩ := hi.fn hr
    obtain ⟨o, k', e', p, ad, _⟩ := fullModelH_ok hi.pub hr.mem a b
    rw [e] at e'; cases e'
    exact ⟨E, hi.nextK p ad, ad, same⟩
  | @modelFor r d vs o _ hr hv e =>
    obtain ⟨F, a, b⟩ := hi.fn hr
    rcases modelForH_ok (C := C) hcfg d (fun l hl => known_iff.1 (hv l hl)) hi.pub hi.w hr.mem a b with ⟨e', _⟩ | ⟨o', s2, E', e', p, st, _⟩
    · rw [e] at e'; cases e'
    · rw [e] at e'; cases e'
      exact ⟨E', hi.next p st.adv st.winv st.gext, st.adv, same⟩
  | negate hr e =>
    obtain ⟨F, a, b⟩ := hi.fn hr
    obtain ⟨o, k', e', p, ad, _⟩ := not_pub hi.pub hr.mem a
    rw [e] at e'; cases e'
    exact ⟨E, hi.nextK p ad, ad, same⟩
  | @apply o _ _ _ _ ha hb e =>
    obtain ⟨F, a, _⟩ := hi.fn ha
    obtain ⟨G, b, _⟩ := hi.fn hb
    obtain ⟨y, k', e', p, ad, _⟩ := apply_pub hi.pub o ha.mem hb.mem a b
    rw [e] at e'; cases e'
    exact ⟨E, hi.nextK p ad, ad, same⟩
  | support hr e =>
    obtain ⟨F, a, b⟩ := hi.fn hr
    obtain ⟨o, k', e', p, ad, _⟩ := supportH_ok hi.pub hr.mem a
    rw [e] at e'; cases e'
    exact ⟨E, hi.nextK p ad, ad, same⟩
  | count hr e =>
    obtain ⟨F, ⟨t, d, o, _⟩, _⟩ := hi.fn hr
    obtain ⟨k', e', hk', me⟩ := satCount_ok hi.pub.toKInv d o
    rw [e] at e'; cases e'
    obtain ⟨p, ad⟩ := hi.pub.misc hk' me
    exact ⟨E, hi.nextK p ad, ad, same⟩
  | @paths r b n k' hr e =>
    obtain ⟨F, ⟨t, d, o, _⟩, _⟩ := hi.fn hr
    obtain ⟨k', e', hk', me⟩ := pathCount_ok hi.pub.toKInv b d o
    rw [e] at e'; cases e'
    obtain ⟨p, ad⟩ := hi.pub.misc hk' me
    exact ⟨E, hi.nextK p ad, ad, same⟩
  | @enum r ovs ms k' hr e =>
    have : k' = s.k.initRef := by
      unfold enumModels Kernel.allPaths at e
      cases h1 : Kernel.allPathsRec 1 s.k (s.k.varnum + 1) r [] (s.k.initProf r) with
      | none => rw [h1] at e; cases e
      | some p =>
        rw [h1] at e
        simp only [Option.map_some, Option.bind_some] at e
        cases h2 : relevant s.k.idx ovs with
        | none => rw [h2] at e; cases e
        | some rel =>
          rw [h2, Option.bind_some] at e
          obtain ⟨_, _, e⟩ := Option.map_eq_some_iff.1 e
          cases e; rfl
    subst this
    obtain ⟨p, ad⟩ := hi.pub.initRef
    exact ⟨E, hi.nextK p ad, ad, same⟩
  | @normalForm r cnf g k' hr e =>
    have : k' = s.k.initRef := by
      unfold Bdd.normalForm Kernel.allPaths at e
      cases h1 : Kernel.allPathsRec (if cnf then 0 else 1) s.k (s.k.varnum + 1) r [] (s.k.initProf r) with
      | none => rw [h1] at e; cases e
      | some p =>
        rw [h1] at e
        simp only [Option.map_some, Option.bind_some] at e
        obtain ⟨_, _, e⟩ := Option.map_eq_some_iff.1 e
        cases e; rfl
    subst this
    obtain ⟨p, ad⟩ := hi.pub.initRef
    exact ⟨E, hi.nextK p ad, ad, same⟩

theorem BReach.inv (hcfg : cfg.cc.Good) {s hs} (h : BReach C cfg c s hs) : ∃ E, BInv c s hs E := by
  induction h with
  | num ht hs hg e =>
    obtain ⟨E, i⟩ := ht.inv hcfg
    obtain ⟨k, e', hp, _⟩ := new_ok hs hg
    rw [e] at e'; cases e'
    exact ⟨E, hp, i.w, by simp⟩
  | ord ht hs hg e =>
    obtain ⟨E, i⟩ := ht.inv hcfg
    obtain ⟨k, e', hp, _⟩ := newOrd_ok hs hg
    rw [e] at e'; cases e'
    exact ⟨E, hp, i.w, by simp⟩
  | step _ st ih =>
    obtain ⟨E, i⟩ := ih
    obtain ⟨E', i', _⟩ := st.inv hcfg i
    exact ⟨E', i'⟩


theorem BSteps.reach {s hs s' hs'} (h0 : BReach C cfg c s hs) (h : BSteps C cfg s hs s' hs') : BReach C cfg c s' hs' := by
  induction h with
  | refl => exact h0
  | step _ st ih => exact .step ih st

theorem BReach.fn (hcfg : cfg.cc.Good) {s hs} (h : BReach C cfg c s hs) {r : Nat} (hr : Held hs r) : KInv s.k ∧ HasFn s.k r := by
  obtain ⟨E, i⟩ := h.inv hcfg
  exact ⟨i.pub.toKInv, i.fn hr⟩

theorem HasFn.val {k : Kernel Var} (hk : KInv k) {r : Nat} (h : HasFn k r) (σ : Asg) : ∃ b, k.value r σ = some b := by
  obtain ⟨F, a, b⟩ := h
  exact ⟨_, value_ok hk a b (agr_valOf k.idx σ fun _ => false)⟩

theorem value_some {o : Option Bool} {b : Bool} (h : ∃ x, o = some x) : (o = some true ↔ b = true) → o = some b := by
  obtain ⟨x, rfl⟩ := h
  cases x <;> cases b <;> simp

/-! ### C36 -/

/-- **C36**: the BDD of a formula without constraints has the formula's value under every assignment, in every
reachable kernel (any order, sizes, earlier operations), for any handler that did not abort. -/
theorem C36_construction (hcfg : cfg.cc.Good) {s hs} (h : BReach C cfg c s hs) {f : Formula} (hin : Input cfg s.w.cnt f) (hn : NoCon f) (hd : Nat → Bool) {x s'} (e : build C cfg hd f s = some (some x, s')) (σ : Asg) :
    s'.k.value x σ = some (f.eval σ) := by
  have h' : BReach C cfg c s' ((x, f) :: hs) := .step h (.build hin e)
  obtain ⟨E, i⟩ := h'.inv hcfg
  obtain ⟨F, a, b, _, g⟩ := i.rep (x, f) (by simp)
  rw [value_ok i.pub.toKInv a b (agr_valOf s'.k.idx σ fun _ => false), g _ _ (agr_valOf _ _ _) (.inr hn)]

/-- **C36**, totality: with enough kernel variables for those registered and those of the formula, construction
neither panics nor, without a limiting handler, fails. -/
theorem C36_total (hcfg : cfg.cc.Good) {s hs} (h : BReach C cfg c s hs) {f : Formula} (hin : Input cfg s.w.cnt f) (hn : NoCon f) (vs : List Var) (h1 : ∀ v ∈ s.k.idx, v ∈ vs) (h2 : ∀ v, Occ v f → v ∈ vs) (hl : vs.length ≤ s.k.varnum) :
    (∀ hd, build C cfg hd f s ≠ none) ∧ ∃ x s', build C cfg nop f s = some (some x, s') := by
  obtain ⟨E, i⟩ := h.inv hcfg
  have all : ∀ hd, build C cfg hd f s ≠ none := fun hd e => by
    rcases build_ok (room := True) (vs := vs) (C := C) hcfg hd hin.top i.pub i.w (fun _ => h1) fun _ => ⟨hl, hn, h2⟩ with ⟨_, h⟩ | ⟨s', E', e', _⟩ | ⟨x, s', E', e', _⟩
    · exact h trivial
    · rw [e] at e'; cases e'
    · rw [e] at e'; cases e'
  refine ⟨all, ?_⟩
  rcases build_nop (C := C) hcfg hin.top i.pub i.w with ⟨e, _⟩ | ⟨x, s', E', e, _⟩
  · exact (all nop e).elim
  · exact ⟨x, s', e⟩

/-- **C36** with constraints: every assignment of the variables that existed at the start can be extended to the
auxiliary variables such that all BDDs built so far have the value of their formulas at once. -/
theorem C36_constraints_partial (hcfg : cfg.cc.Good) {s hs} (h : BReach C cfg c s hs) (σ : Asg) :
    ∃ σ' : Asg, (∀ v, Known c v → σ' v = σ v) ∧ ∀ p ∈ hs, s.k.value p.1 σ' = some (p.2.eval σ') := by
  obtain ⟨E, i⟩ := h.inv hcfg
  obtain ⟨σ', ag, ok⟩ := i.w.base.ext σ
  refine ⟨σ', fun v hv => (ag v (known_iff.1 hv)).symm, fun p hp => ?_⟩
  obtain ⟨F, a, b, _, g⟩ := i.rep p hp
  rw [value_ok i.pub.toKInv a b (agr_valOf s.k.idx σ' fun _ => false), g _ _ (agr_valOf _ _ _) (.inl ok)]

/-! ### C37 -/

theorem index_iff {k : Kernel Var} (hk : KInv k) (hnd : k.idx.Nodup) {x y : Nat} (hx : HasFn k x) (hy : HasFn k y) : x = y ↔ ∀ σ, k.value x σ = k.value y σ := by
  refine ⟨fun e σ => by rw [e], fun h => ?_⟩
  obtain ⟨F, a, b⟩ := hx
  obtain ⟨G, a', b'⟩ := hy
  have : F = G := funext fun ρ => by
    have ag := agr_asgOf hnd ρ fun _ => false
    have := h (asgOf k.idx ρ fun _ => false)
    rw [value_ok hk a b ag, value_ok hk a' b' ag] at this
    simpa using this
  subst this
  exact hk.sem_inj a a' fun _ => rfl

/-- **C37**: two handles are the same index iff they have the same value under every assignment. -/
theorem C37_canonical (hcfg : cfg.cc.Good) {s hs} (h : BReach C cfg c s hs) {x y : Nat} (hx : Held hs x) (hy : Held hs y) : x = y ↔ ∀ σ, s.k.value x σ = s.k.value y σ := by
  obtain ⟨E, i⟩ := h.inv hcfg
  exact index_iff i.pub.toKInv i.pub.idxNd (i.fn hx) (i.fn hy)

/-- **C37** for formulas: built at any times, their handles are the same index iff the formulas are equivalent. -/
theorem C37_equivalence (hcfg : cfg.cc.Good) {s hs} (h : BReach C cfg c s hs) {x y : Nat} {f g : Formula} (hx : (x, f) ∈ hs) (hy : (y, g) ∈ hs) (hf : NoCon f) (hg : NoCon g) : x = y ↔ ∀ σ, f.eval σ = g.eval σ := by
  obtain ⟨E, i⟩ := h.inv hcfg
  rw [index_iff i.pub.toKInv i.pub.idxNd (i.fn (.inr ⟨f, hx⟩)) (i.fn (.inr ⟨g, hy⟩))]
  refine forall_congr' fun σ => ?_
  have key : ∀ p ∈ hs, NoCon p.2 → s.k.value p.1 σ = some (p.2.eval σ) := fun p hp hn => by
    obtain ⟨F, a, b, _, g⟩ := i.rep p hp
    rw [value_ok i.pub.toKInv a b (agr_valOf s.k.idx σ fun _ => false), g _ _ (agr_valOf _ _ _) (.inr hn)]
  rw [key _ hx hf, key _ hy hg]
  simp

/-- **C37**: `is_tautology` and `is_contradicion` (bdd_main.rs 46-53) decide the formula. -/
theorem C37_constants (hcfg : cfg.cc.Good) {s hs} (h : BReach C cfg c s hs) {x : Nat} {f : Formula} (hx : (x, f) ∈ hs) (hf : NoCon f) : (x = 1 ↔ ∀ σ, f.eval σ = true) ∧ (x = 0 ↔ ∀ σ, f.eval σ = false) := by
  obtain ⟨E, i⟩ := h.inv hcfg
  have hv : ∀ σ, s.k.value x σ = some (f.eval σ) := fun σ => by
    obtain ⟨F, a, b, _, g⟩ := i.rep _ hx
    rw [value_ok i.pub.toKInv a b (agr_valOf s.k.idx σ fun _ => false), g _ _ (agr_valOf _ _ _) (.inr hf)]
  constructor
  · rw [C37_canonical hcfg h (.inr ⟨f, hx⟩) (.inl (by omega : (1 : Nat) < 2))]
    refine forall_congr' fun σ => ?_
    rw [hv]; simp [Kernel.value, Kernel.walk]
  · rw [C37_canonical hcfg h (.inr ⟨f, hx⟩) (.inl (by omega : (0 : Nat) < 2))]
    refine forall_congr' fun σ => ?_
    rw [hv]; simp [Kernel.value, Kernel.walk]

/-! ### C38 -/

/-- **C38**: any sequence of operations keeps the value of every handle under every assignment. -/
theorem C38_stable (hcfg : cfg.cc.Good) {s hs s' hs'} (h : BReach C cfg c s hs) (hst : BSteps C cfg s hs s' hs') {x : Nat} (hx : Held hs x) : Held hs' x ∧ ∀ σ, s'.k.value x σ = s.k.value x σ := by
  obtain ⟨E, i⟩ := h.inv hcfg
  obtain ⟨F, a, b⟩ := i.fn hx
  have key : ∃ E', BInv c s' hs' E' ∧ Held hs' x ∧ Is s'.k x F ∧ s.k.idx <+: s'.k.idx := by
    clear b
    induction hst with
    | refl => exact ⟨E, i, hx, a, List.prefix_rfl⟩
    | step _ st ih =>
      obtain ⟨E1, i1, hx1, a1, p1⟩ := ih
      obtain ⟨E2, i2, ad, sub⟩ := st.inv hcfg i1
      obtain ⟨t, d, o, e⟩ := a1
      exact ⟨E2, i2, hx1.imp id fun ⟨f, hf⟩ => ⟨f, sub _ hf⟩, ⟨t, ad.den _ hx1.mem t d, by rw [ad.varnum]; exact o, e⟩, p1.trans ad.idx⟩
  obtain ⟨E', i', hx', a', pre⟩ := key
  refine ⟨hx', fun σ => ?_⟩
  have ag := agr_valOf s'.k.idx σ fun _ => false
  rw [value_ok i.pub.toKInv a b (ag.prefix pre), value_ok i'.pub.toKInv a' (b.mono pre.length_le) ag]

/-! ### C39 -/

/-- No room in the kernel for the registered variables together with `xs`. -/
def NoRoom (k : Kernel Var) (xs : List Var) : Prop := ∀ vs : List Var, (∀ v ∈ k.idx, v ∈ vs) → (∀ v ∈ xs, v ∈ vs) → k.varnum < vs.length

theorem noRoom_of {k : Kernel Var} {xs : List Var} (h : Full' k xs) : NoRoom k xs := fun vs h1 h2 => Nat.lt_of_not_le (h vs h1 h2)

/-- Assignment changed by literals. -/
def Fixed (ls : List Lit) (σ τ : Asg) : Prop := (∀ l ∈ ls, τ l.v = l.pos) ∧ ∀ v, (∀ l ∈ ls, l.v ≠ v) → τ v = σ v

theorem fixed_iff {ls : List Lit} (hc : Consist ls) {σ τ : Asg} : Fixed ls σ τ ↔ τ = fixL ls σ := by
  constructor
  · rintro ⟨h1, h2⟩
    funext v
    unfold fixL
    by_cases a : (⟨v, true⟩ : Lit) ∈ ls
    · rw [if_pos a]; exact h1 _ a
    · by_cases b : (⟨v, false⟩ : Lit) ∈ ls
      · rw [if_neg a, if_pos b]; exact h1 _ b
      · rw [if_neg a, if_neg b]
        refine h2 v fun l hl e => ?_
        obtain ⟨w, p⟩ := l
        simp only at e
        subst e
        cases p
        · exact b hl
        · exact a hl
  · rintro rfl
    refine ⟨fun l hl => ?_, fun v hv => ?_⟩
    · obtain ⟨w, p⟩ := l
      unfold fixL
      cases p with
      | true => simp [hl]
      | false => have : (⟨w, true⟩ : Lit) ∉ ls := fun h => hc w ⟨h, hl⟩; simp [this, hl]
    · unfold fixL
      rw [if_neg (fun h => hv _ h rfl), if_neg (fun h => hv _ h rfl)]

/-- The result of an operation has a function at the time it is returned. -/
theorem RepF.val {k : Kernel Var} (hk : KInv k) {y : Nat} {g : Asg → Prop} (h : RepF k y (fun _ => True) g) : HasFn k y ∧ ∀ σ, k.value y σ = some true ↔ g σ := by
  obtain ⟨F, a, b, r⟩ := h
  refine ⟨⟨F, a, b⟩, fun σ => ?_⟩
  rw [value_ok hk a b (agr_valOf k.idx σ fun _ => false), Option.some.injEq]
  exact r _ σ (agr_valOf _ _ _) trivial

/-- **C39**, `restrict` with consistent literals: it panics only without room for the variables; otherwise the
result's value is that of the original with the literals fixed. -/
theorem C39_restrict (hcfg : cfg.cc.Good) {s hs} (h : BReach C cfg c s hs) {r : Nat} (hr : Held hs r) {ls : List Lit} (hk : ∀ l ∈ ls, Known s.w.cnt l.v) (hc : ∀ v, ¬ (⟨v, true⟩ ∈ ls ∧ ⟨v, false⟩ ∈ ls)) :
    (restrictH C cfg r ls s = none ∧ NoRoom s.k (ls.map (·.v))) ∨
    ∃ y s', restrictH C cfg r ls s = some (some y, s') ∧ BReach C cfg c s' hs ∧ HasFn s'.k y ∧ ∀ σ τ, Fixed ls σ τ → s'.k.value y σ = s.k.value r τ := by
  obtain ⟨E, i⟩ := h.inv hcfg
  rcases restrictH_ok (C := C) hcfg (fun l hl => known_iff.1 (hk l hl)) i.pub i.w hc hr.mem ((i.fn hr).repF i.pub.toKInv) with ⟨e, f⟩ | ⟨y, s', E', e, p, st, rp⟩
  · exact .inl ⟨e, noRoom_of f⟩
  · obtain ⟨fn, v⟩ := RepF.val p.toKInv rp
    refine .inr ⟨y, s', e, .step h (.restrict hr hk hc e), fn, fun σ τ hf => ?_⟩
    rw [(fixed_iff hc).1 hf]
    obtain ⟨b, eb⟩ := (i.fn hr).val i.pub.toKInv (fixL ls σ)
    rw [eb]
    refine value_some (fn.val p.toKInv σ) ?_
    rw [v σ, eb]; simp

/-- **C39**, `exists`. -/
theorem C39_exists (hcfg : cfg.cc.Good) {s hs} (h : BReach C cfg c s hs) {r : Nat} (hr : Held hs r) {vs : List Var} (hk : ∀ v ∈ vs, Known s.w.cnt v) :
    (existsH C cfg r vs s = none ∧ NoRoom s.k vs) ∨
    ∃ y s', existsH C cfg r vs s = some (some y, s') ∧ BReach C cfg c s' hs ∧ HasFn s'.k y ∧ ∀ σ : Asg, (s'.k.value y σ).isSome ∧ (s'.k.value y σ = some true ↔ ∃ τ : Asg, (∀ v, v ∉ vs → τ v = σ v) ∧ s.k.value r τ = some true) := by
  obtain ⟨E, i⟩ := h.inv hcfg
  rcases quantH_ok (C := C) (op := .or) hcfg (.inl rfl) (fun l hl => known_iff.1 (hk l hl)) i.pub i.w hr.mem ((i.fn hr).repF i.pub.toKInv) with ⟨e, f⟩ | ⟨y, s', E', e, p, st, rp⟩
  · exact .inl ⟨by rw [if_pos rfl] at e; exact e, noRoom_of f⟩
  · rw [if_pos rfl] at e
    obtain ⟨F, a, b, g⟩ := rp
    obtain ⟨fn, v⟩ := RepF.val p.toKInv (g := QuantA .or vs fun σ => s.k.value r σ = some true) ⟨F, a, b, fun ρ σ hg _ => g ρ σ hg fun _ _ => trivial⟩
    refine .inr ⟨y, s', e, .step h (.exist hr hk e), fn, fun σ => ⟨?_, ?_⟩⟩
    · obtain ⟨b, eb⟩ := fn.val p.toKInv σ; rw [eb]; rfl
    · rw [v σ]; unfold QuantA; rw [if_pos rfl]

/-- **C39**, `for_all`. -/
theorem C39_for_all (hcfg : cfg.cc.Good) {s hs} (h : BReach C cfg c s hs) {r : Nat} (hr : Held hs r) {vs : List Var} (hk : ∀ v ∈ vs, Known s.w.cnt v) :
    (forAllH C cfg r vs s = none ∧ NoRoom s.k vs) ∨
    ∃ y s', forAllH C cfg r vs s = some (some y, s') ∧ BReach C cfg c s' hs ∧ HasFn s'.k y ∧ ∀ σ : Asg, (s'.k.value y σ).isSome ∧ (s'.k.value y σ = some true ↔ ∀ τ : Asg, (∀ v, v ∉ vs → τ v = σ v) → s.k.value r τ = some true) := by
  obtain ⟨E, i⟩ := h.inv hcfg
  rcases quantH_ok (C := C) (op := .and) hcfg (.inr rfl) (fun l hl => known_iff.1 (hk l hl)) i.pub i.w hr.mem ((i.fn hr).repF i.pub.toKInv) with ⟨e, f⟩ | ⟨y, s', E', e, p, st, rp⟩
  · exact .inl ⟨by rw [if_neg (by decide)] at e; exact e, noRoom_of f⟩
  · rw [if_neg (by decide)] at e
    obtain ⟨F, a, b, g⟩ := rp
    obtain ⟨fn, v⟩ := RepF.val p.toKInv (g := QuantA .and vs fun σ => s.k.value r σ = some true) ⟨F, a, b, fun ρ σ hg _ => g ρ σ hg fun _ _ => trivial⟩
    refine .inr ⟨y, s', e, .step h (.forAll hr hk e), fn, fun σ => ⟨?_, ?_⟩⟩
    · obtain ⟨b, eb⟩ := fn.val p.toKInv σ; rw [eb]; rfl
    · rw [v σ]; unfold QuantA; rw [if_neg (by decide)]

/-- **C39**, negation: never panics, the result is the complement. -/
theorem C39_negate (hcfg : cfg.cc.Good) {s hs} (h : BReach C cfg c s hs) {r : Nat} (hr : Held hs r) :
    ∃ y k', s.k.not r = some (y, k') ∧ BReach C cfg c { s with k := k' } hs ∧ ∀ σ, ∃ b, s.k.value r σ = some b ∧ k'.value y σ = some (!b) := by
  obtain ⟨E, i⟩ := h.inv hcfg
  obtain ⟨F, a, l⟩ := i.fn hr
  obtain ⟨y, k', e, p, ad, hx, hy⟩ := not_pub i.pub hr.mem a
  refine ⟨y, k', e, .step h (.negate hr e), fun σ => ?_⟩
  have hg := agr_valOf s.k.idx σ fun _ => false
  exact ⟨_, value_ok i.pub.toKInv a l hg, value_ok p.toKInv hy (by rw [hx]; intro ρ ρ' h; simp only [l ρ ρ' h]) (by rw [hx]; exact hg)⟩

/-- The binary operations (specification). -/
def Opr.spec : Opr → Bool → Bool → Prop
  | .and, a, b => a = true ∧ b = true
  | .or, a, b => a = true ∨ b = true
  | .imp, a, b => a = true → b = true
  | .equiv, a, b => a = true ↔ b = true

/-- **C39**, binary operations: never panic, the result is the operation applied to the values. -/
theorem C39_apply (hcfg : cfg.cc.Good) {s hs} (h : BReach C cfg c s hs) {x y : Nat} (hx : Held hs x) (hy : Held hs y) (o : Opr) :
    ∃ z k', s.k.apply o x y = some (z, k') ∧ BReach C cfg c { s with k := k' } hs ∧
      ∀ σ, ∃ a b d, s.k.value x σ = some a ∧ s.k.value y σ = some b ∧ k'.value z σ = some d ∧ (d = true ↔ o.spec a b) := by
  obtain ⟨E, i⟩ := h.inv hcfg
  obtain ⟨F, a, l⟩ := i.fn hx
  obtain ⟨G, b, m⟩ := i.fn hy
  obtain ⟨z, k', e, p, ad, hi, hz⟩ := apply_pub i.pub o hx.mem hy.mem a b
  refine ⟨z, k', e, .step h (.apply hx hy e), fun σ => ?_⟩
  have hg := agr_valOf s.k.idx σ fun _ => false
  refine ⟨_, _, _, value_ok i.pub.toKInv a l hg, value_ok i.pub.toKInv b m hg, value_ok p.toKInv hz (by rw [hi]; intro ρ ρ' h; simp only [l ρ ρ' h, m ρ ρ' h]) (by rw [hi]; exact hg), ?_⟩
  cases o <;> cases F _ <;> cases G _ <;> simp [Opr.fn, Opr.spec]

/-! ### C40 -/

/-- Handles that can be read in this state: held ones, and results of restriction and quantification just returned. -/
inductive Readable (C : Canon) (cfg : FCfg) (c : AuxTy → Nat) : BSt → Nat → Prop
  | held {s hs r} : BReach C cfg c s hs → Held hs r → Readable C cfg c s r
  | restrict {s hs r ls y s'} : BReach C cfg c s hs → Held hs r → (∀ l ∈ ls, Known s.w.cnt l.v) → (∀ v, ¬ (⟨v, true⟩ ∈ ls ∧ ⟨v, false⟩ ∈ ls)) → restrictH C cfg r ls s = some (some y, s') → Readable C cfg c s' y
  | exist {s hs r vs y s'} : BReach C cfg c s hs → Held hs r → (∀ v ∈ vs, Known s.w.cnt v) → existsH C cfg r vs s = some (some y, s') → Readable C cfg c s' y
  | forAll {s hs r vs y s'} : BReach C cfg c s hs → Held hs r → (∀ v ∈ vs, Known s.w.cnt v) → forAllH C cfg r vs s = some (some y, s') → Readable C cfg c s' y

theorem Readable.inv (hcfg : cfg.cc.Good) {s r} (h : Readable C cfg c s r) : HasFn s.k r ∧ ∃ H, Pub s.k H := by
  cases h with
  | held h hr => obtain ⟨E, i⟩ := h.inv hcfg; exact ⟨i.fn hr, _, i.pub⟩
  | restrict h hr hk hc e =>
    rcases C39_restrict (C := C) hcfg h hr hk hc with ⟨e', _⟩ | ⟨y, s', e', h', fn, _⟩
    · rw [e] at e'; cases e'
    · rw [e] at e'; cases e'
      obtain ⟨E, i⟩ := h'.inv hcfg; exact ⟨fn, _, i.pub⟩
  | exist h hr hk e =>
    rcases C39_exists (C := C) hcfg h hr hk with ⟨e', _⟩ | ⟨y, s', e', h', fn, _⟩
    · rw [e] at e'; cases e'
    · rw [e] at e'; cases e'
      obtain ⟨E, i⟩ := h'.inv hcfg; exact ⟨fn, _, i.pub⟩
  | forAll h hr hk e =>
    rcases C39_for_all (C := C) hcfg h hr hk with ⟨e', _⟩ | ⟨y, s', e', h', fn, _⟩
    · rw [e] at e'; cases e'
    · rw [e] at e'; cases e'
      obtain ⟨E, i⟩ := h'.inv hcfg; exact ⟨fn, _, i.pub⟩

/-- The assignment that gives the `i`-th variable of `idx` the `i`-th value. -/
def asgVec (idx : List Var) (v : List Bool) : Asg := fun x => v.getD (idx.idxOf x) false

theorem agr_asgVec {idx : List Var} (hn : idx.Nodup) (v : List Bool) : Agr idx (vval 0 v) (asgVec idx v) := fun i x hx => by
  obtain ⟨hi, e⟩ := List.getElem?_eq_some_iff.1 hx
  unfold asgVec vval
  rw [← e, hn.idxOf_getElem]; rfl

/-- Vectors whose first `n` entries matter. -/
theorem countP_take (n d : Nat) (G : List Bool → Bool) : (vecs (n + d)).countP (fun v => G (v.take n)) = (vecs n).countP G * 2 ^ d := by
  induction n generalizing G with
  | zero =>
    have hl : ∀ d, (vecs d).length = 2 ^ d := fun d => by
      induction d with
      | zero => rfl
      | succ d ih => simp only [vecs, List.length_append, List.length_map, ih]; omega
    simp only [List.take_zero, Nat.zero_add, vecs]
    cases h : G [] with
    | true => simp [h, hl]
    | false => simp [h]
  | succ n ih =>
    rw [show n + 1 + d = n + d + 1 by omega, vecs, vecs]
    simp only [List.countP_append, List.countP_map, Function.comp_def, List.take_succ_cons]
    rw [ih (fun v => G (false :: v)), ih (fun v => G (true :: v)), Nat.add_mul]

/-- **C40**, `model_count`: let `ms` list the assignments of the registered variables (as vectors) for which the
handle is true.  The count is their number times two for every kernel variable without a name. -/
theorem C40_model_count (hcfg : cfg.cc.Good) {s r} (h : Readable C cfg c s r) {ms : List (List Bool)} (hnd : ms.Nodup) (hms : ∀ v, v ∈ ms ↔ v.length = s.k.idx.length ∧ s.k.value r (asgVec s.k.idx v) = some true) :
    ∃ k', s.k.satCount r = some (ms.length * 2 ^ (s.k.varnum - s.k.idx.length), k') := by
  obtain ⟨⟨F, ⟨t, d, o, e⟩, b⟩, H, hp⟩ := h.inv hcfg
  obtain ⟨k', e', _⟩ := satCount_ok hp.toKInv d o
  refine ⟨k', ?_⟩
  rw [e', mcount]
  have hF : ∀ v, t.eval (vval 0 v) = F (vval 0 v) := fun v => e _
  have ht : ∀ v : List Bool, F (vval 0 v) = F (vval 0 (v.take s.k.idx.length)) := fun v => b _ _ fun i hi => by
    unfold vval
    simp only [Nat.sub_zero, List.getD_eq_getElem?_getD, List.getElem?_take, hi, if_true]
  have hlen := hp.idxLen
  have key : (vecs s.k.varnum).countP (fun v => t.eval (vval 0 v)) = ms.length * 2 ^ (s.k.varnum - s.k.idx.length) := by
    have : (fun v => t.eval (vval 0 v)) = fun v : List Bool => (fun u => F (vval 0 u)) (v.take s.k.idx.length) := funext fun v => by rw [hF]; exact ht v
    rw [this]
    have hx := countP_take s.k.idx.length (s.k.varnum - s.k.idx.length) fun u => F (vval 0 u)
    rw [Nat.add_sub_cancel' hlen] at hx
    rw [hx, List.countP_eq_length_filter]
    congr 1
    refine List.Perm.length_eq ((List.perm_ext_iff_of_nodup (nodup_vecs _ |>.filter _) hnd).2 fun v => ?_)
    rw [List.mem_filter, mem_vecs, hms]
    refine and_congr_right fun _ => ?_
    rw [value_ok hp.toKInv ⟨t, d, o, e⟩ b (agr_asgVec hp.idxNd v), Option.some.injEq]
  rw [key]

/-- **C40**, `enumerate_all_models`: each model is an assignment of exactly the registered variables, and every
satisfying assignment is admitted by exactly one, every other by none. -/
theorem C40_enumeration (hcfg : cfg.cc.Good) {s r} (h : Readable C cfg c s r) :
    ∃ ms k', enumModels r none s.k = some (ms, k') ∧ (∀ m ∈ ms, (m.pos ++ m.neg).Perm s.k.idx) ∧
      ∀ σ : Asg, ms.countP (fun m => m.pos.all σ && m.neg.all fun v => !σ v) = if s.k.value r σ = some true then 1 else 0 := by
  obtain ⟨⟨F, a, b⟩, H, hp⟩ := h.inv hcfg
  obtain ⟨ms, e, h1, h2, _⟩ := enumModels_ok hp.toKInv hp.idxNd hp.idxLen a b none (fun _ h => (nomatch h))
  refine ⟨ms, _, e, h1, fun σ => ?_⟩
  have ag := agr_valOf s.k.idx σ fun _ => false
  rw [value_ok hp.toKInv a b ag]
  have := h2 rfl _ σ ag
  unfold BModel.admits at this
  rw [this]; simp

/-- **C40**, `enumerate_all_models_projected` on registered variables: it never panics, each result assigns exactly
these variables, every satisfying assignment is covered, every result extends to a satisfying assignment.  Results may
be repeated (`C40_projection_duplicates`), hence partial. -/
theorem C40_projection_partial (hcfg : cfg.cc.Good) {s r} (h : Readable C cfg c s r) (vs : List Var) (hvs : ∀ v ∈ vs, v ∈ s.k.idx) :
    ∃ ms k', enumModels r (some vs) s.k = some (ms, k') ∧ (∀ m ∈ ms, (m.pos ++ m.neg).Perm vs) ∧
      (∀ σ, s.k.value r σ = some true → ∃ m ∈ ms, (∀ v ∈ m.pos, σ v = true) ∧ ∀ v ∈ m.neg, σ v = false) ∧
      ∀ m ∈ ms, ∃ σ, s.k.value r σ = some true ∧ (∀ v ∈ m.pos, σ v = true) ∧ ∀ v ∈ m.neg, σ v = false := by
  obtain ⟨⟨F, a, b⟩, H, hp⟩ := h.inv hcfg
  obtain ⟨ms, e, h1, _, h3, h4⟩ := enumModels_ok hp.toKInv hp.idxNd hp.idxLen a b (some vs) (fun _ h => by cases h; exact hvs)
  refine ⟨ms, _, e, h1, fun σ hσ => ?_, fun m hm => ?_⟩
  · have ag := agr_valOf s.k.idx σ fun _ => false
    rw [value_ok hp.toKInv a b ag, Option.some.injEq] at hσ
    obtain ⟨m, hm, ha⟩ := h3 _ σ ag hσ
    exact ⟨m, hm, (admits_iff m σ).1 ha⟩
  · obtain ⟨ρ, hρ, ha⟩ := h4 m hm
    have ag := agr_asgOf hp.idxNd ρ fun _ => false
    exact ⟨_, by rw [value_ok hp.toKInv a b ag, hρ], (admits_iff m _).1 (ha _ ag)⟩

/-- **C40**, `cnf` and `dnf`, if every kernel variable has a name: the result is in normal form, over the
registered variables, and equivalent. -/
theorem C40_normal_form (hcfg : cfg.cc.Good) {s r} (h : Readable C cfg c s r) (hfull : s.k.idx.length = s.k.varnum) (cnf : Bool) :
    ∃ g k', normalForm C cnf r s.k = some (g, k') ∧ (if cnf then IsCnf g else IsDnf g) ∧ (∀ v, Occ v g → v ∈ s.k.idx) ∧ ∀ σ, s.k.value r σ = some (g.eval σ) := by
  obtain ⟨⟨F, a, b⟩, H, hp⟩ := h.inv hcfg
  obtain ⟨g, e, _, h2, h3, h4⟩ := normalForm_ok C cnf hp.toKInv hfull a
  refine ⟨g, _, e, ?_, h3, fun σ => ?_⟩
  · cases cnf with
    | true => exact isNf_conj.1 h2
    | false => exact isNf_disj.1 h2
  · have ag := agr_valOf s.k.idx σ fun _ => false
    rw [value_ok hp.toKInv a b ag, h4 _ σ ag]

/-- **C40**, `to_formula`. -/
theorem C40_to_formula (hcfg : cfg.cc.Good) {s r} (h : Readable C cfg c s r) :
    ∃ g, toFormula C s.k (s.k.varnum + 1) r = some g ∧ g.Norm ∧ (∀ v, Occ v g → v ∈ s.k.idx) ∧ ∀ σ, s.k.value r σ = some (g.eval σ) := by
  obtain ⟨⟨F, ⟨t, d, o, e⟩, b⟩, H, hp⟩ := h.inv hcfg
  have o' : BT.Ord s.k.idx.length 0 t := ord_of_lv t 0 (hp.den_red d) o fun ρ ρ' h => by show t.eval ρ = t.eval ρ'; rw [e, e]; exact b ρ ρ' h
  obtain ⟨g, eg, h1, h2, _, h4⟩ := toFormula_ok C (s.k.varnum + 1) r 0 t d o' (by have := o.depth_le (Nat.zero_le _); omega)
  refine ⟨g, eg, h1, h2, fun σ => ?_⟩
  have ag := agr_valOf s.k.idx σ fun _ => false
  rw [value_ok hp.toKInv ⟨t, d, o, e⟩ b ag, h4 _ σ ag, e]

/-! ### C53, C54 -/

/-- The model `m` (or its absence) is right for `r`: none iff false everywhere; no variable in both phases; every
assignment that agrees with the model satisfies. -/
def ModelOf (k : Kernel Var) (r : Nat) (o : Option BModel) : Prop :=
  (o = none ↔ ∀ σ, k.value r σ = some false) ∧ ∀ m, o = some m → (∀ v, ¬ (v ∈ m.pos ∧ v ∈ m.neg)) ∧ (∀ v, v ∈ m.pos ∨ v ∈ m.neg → v ∈ k.idx) ∧
    ∀ σ, (∀ v ∈ m.pos, σ v = true) → (∀ v ∈ m.neg, σ v = false) → k.value r σ = some true

theorem MOut.modelOf {k : Kernel Var} (hk : KInv k) (hnd : k.idx.Nodup) {r : Nat} {F : (Nat → Bool) → Bool} {o : Option BModel} (a : Is k r F) (b : Lv k.idx.length F) (h : MOut k.idx F o) : ModelOf k r o := by
  refine ⟨?_, fun m hm => ⟨h.consist m hm, h.vars m hm, fun σ h1 h2 => ?_⟩⟩
  · rw [h.none_iff]
    constructor
    · intro g σ
      rw [value_ok hk a b (agr_valOf k.idx σ fun _ => false), g]
    · intro g ρ
      have := g (asgOf k.idx ρ fun _ => false)
      rw [value_ok hk a b (agr_asgOf hnd ρ fun _ => false)] at this
      simpa using this
  · have ag := agr_valOf k.idx σ fun _ => false
    rw [value_ok hk a b ag, h.sound m hm _ σ ag ((admits_iff m σ).2 ⟨h1, h2⟩)]

/-- **C53**, `model`. -/
theorem C53_model (hcfg : cfg.cc.Good) {s hs} (h : BReach C cfg c s hs) {r : Nat} (hr : Held hs r) : ∃ o k', modelH r s.k = some (o, k') ∧ ModelOf s.k r o := by
  obtain ⟨E, i⟩ := h.inv hcfg
  obtain ⟨F, a, b⟩ := i.fn hr
  obtain ⟨o, k', e, _, _, _, m⟩ := modelH_ok i.pub hr.mem a b
  exact ⟨o, k', e, m.modelOf i.pub.toKInv i.pub.idxNd a b⟩

/-- **C53**, `full_model`: every registered variable is set. -/
theorem C53_full_model (hcfg : cfg.cc.Good) {s hs} (h : BReach C cfg c s hs) {r : Nat} (hr : Held hs r) : ∃ o k', fullModelH r s.k = some (o, k') ∧ ModelOf s.k r o ∧ ∀ m, o = some m → ∀ v ∈ s.k.idx, v ∈ m.pos ∨ v ∈ m.neg := by
  obtain ⟨E, i⟩ := h.inv hcfg
  obtain ⟨F, a, b⟩ := i.fn hr
  obtain ⟨o, k', e, _, _, _, m, g⟩ := fullModelH_ok i.pub hr.mem a b
  exact ⟨o, k', e, m.modelOf i.pub.toKInv i.pub.idxNd a b, g⟩

/-- **C53**, `model_for_variables`: the given variables are set; it panics only without room for them. -/
theorem C53_model_for_variables (hcfg : cfg.cc.Good) {s hs} (h : BReach C cfg c s hs) {r : Nat} (hr : Held hs r) (dflt : Bool) {vs : List Var} (hk : ∀ v ∈ vs, Known s.w.cnt v) :
    (modelForH C cfg r dflt vs s = none ∧ NoRoom s.k vs) ∨
    ∃ o s', modelForH C cfg r dflt vs s = some (some o, s') ∧ ModelOf s'.k r o ∧ ∀ m, o = some m → ∀ v ∈ vs, v ∈ m.pos ∨ v ∈ m.neg := by
  obtain ⟨E, i⟩ := h.inv hcfg
  obtain ⟨F, ⟨t, d, ho, e⟩, b⟩ := i.fn hr
  rcases modelForH_ok (C := C) hcfg dflt (fun l hl => known_iff.1 (hk l hl)) i.pub i.w hr.mem ⟨t, d, ho, e⟩ b with ⟨e, f⟩ | ⟨o, s', E', e', p, st, m, g⟩
  · exact .inl ⟨e, noRoom_of f⟩
  · exact .inr ⟨o, s', e', m.modelOf p.toKInv p.idxNd ⟨t, st.adv.den _ hr.mem t d, by rw [st.adv.varnum]; exact ho, e⟩ (b.mono st.adv.idx.length_le), g⟩

/-- **C54**: `support` is exactly the set of variables the handle's value depends on. -/
theorem C54_support (hcfg : cfg.cc.Good) {s hs} (h : BReach C cfg c s hs) {r : Nat} (hr : Held hs r) :
    ∃ L k', supportH r s.k = some (L, k') ∧ ∀ v, v ∈ L ↔ ∃ σ τ : Asg, (∀ w, w ≠ v → σ w = τ w) ∧ s.k.value r σ ≠ s.k.value r τ := by
  obtain ⟨E, i⟩ := h.inv hcfg
  obtain ⟨F, a, b⟩ := i.fn hr
  have hnd := i.pub.idxNd
  obtain ⟨L, k', e, _, _, _, g⟩ := supportH_ok i.pub hr.mem a
  refine ⟨L, k', e, fun v => ?_⟩
  rw [g]
  constructor
  · rintro ⟨j, hj, ρ, hne⟩
    refine ⟨asgOf s.k.idx (BT.set ρ j true) fun _ => false, asgOf s.k.idx (BT.set ρ j false) fun _ => false, fun w hw => ?_, ?_⟩
    · unfold asgOf
      by_cases hm : w ∈ s.k.idx
      · simp only [hm, if_true, BT.set]
        have : s.k.idx.idxOf w ≠ j := fun e => hw (by
          have h1 := List.idxOf_lt_length_iff.2 hm
          have h2 : s.k.idx[s.k.idx.idxOf w]? = some w := by rw [List.getElem?_eq_getElem h1, List.getElem_idxOf]
          rw [e, hj] at h2; cases h2; rfl)
        simp [this]
      · simp [hm]
    · rw [value_ok i.pub.toKInv a b (agr_asgOf hnd _ _), value_ok i.pub.toKInv a b (agr_asgOf hnd _ _)]
      simpa using hne
  · rintro ⟨σ, τ, hw, hne⟩
    have hv : v ∈ s.k.idx := by
      by_contra hv
      refine hne ?_
      have ag := agr_valOf s.k.idx σ fun _ => false
      have ag' : Agr s.k.idx (valOf s.k.idx σ fun _ => false) τ := fun j x hx => by
        rw [ag j x hx]
        exact hw x fun e => hv (by rw [← e]; exact List.mem_of_getElem? hx)
      rw [value_ok i.pub.toKInv a b ag, value_ok i.pub.toKInv a b ag']
    obtain ⟨j, hj, ej⟩ := List.getElem_of_mem hv
    have hjv : s.k.idx[j]? = some v := by rw [List.getElem?_eq_getElem hj, ej]
    have ag := agr_valOf s.k.idx σ fun _ => false
    have upd' : ∀ (τ : Asg), (∀ w, w ≠ v → σ w = τ w) → Agr s.k.idx (BT.set (valOf s.k.idx σ fun _ => false) j (τ v)) τ := fun τ hw n x hx => by
      unfold BT.set
      by_cases e : n = j
      · subst e; rw [hjv] at hx; cases hx; simp
      · rw [if_neg e, ag n x hx]
        exact hw x fun h => e (nodup_fun hnd (by rw [hx, h]) hjv)
    rw [value_ok i.pub.toKInv a b (upd' σ fun _ _ => rfl), value_ok i.pub.toKInv a b (upd' τ hw)] at hne
    refine ⟨j, hjv, valOf s.k.idx σ fun _ => false, fun heq => hne ?_⟩
    cases h1 : σ v <;> cases h2 : τ v <;> simp_all

end

/-! ### Examples and counterexamples -/

/-- `prime_lte` by trial division (bdd_prime.rs 16-26). -/
def primeLte (n : Nat) : Nat := ((List.range (n + 1)).reverse.find? fun m => 2 ≤ m && (List.range m).all fun d => d < 2 || m % d != 0).getD 2

/-- `node_resize`, bdd_kernel.rs; `max` only to have an increasing function for all (also impossible) arguments. -/
def growR : Nat → Nat → Nat := fun _ n => max (n + 1) (primeLte (min (2 * n) (n + 50000)))

theorem growR_lt (g n : Nat) : n < growR g n := Nat.lt_of_lt_of_le (Nat.lt_succ_self n) (Nat.le_max_left _ _)

def exB : FCfg := exFCfg .adder true
def xv (n : Nat) (b : Bool := true) : Formula := .lit ⟨.named n, b⟩
def xAnd (fs : List Formula) : Formula := Formula.mkAnd canon0 fs
def xOr (fs : List Formula) : Formula := Formula.mkOr canon0 fs

/-- Build formulas one after the other in a new kernel: the state and the handles, last first. -/
def buildAll (fs : List Formula) (s : BSt) : Option (List (Nat × Formula) × BSt) :=
  fs.foldlM (fun (p : List (Nat × Formula) × BSt) f => (build canon0 exB nop f p.2).bind fun q => q.1.map fun x => ((x, f) :: p.1, q.2)) ([], s)

def start (nv size : Nat) : Option BSt := (Kernel.new nv size 7 growR).map fun k => ⟨k, World.fresh fun _ => 0, 0⟩

/-- The assignment of bits. -/
def bits (n : Nat) : Asg := fun v => match v with | .named i => n.testBit i | _ => false

/-- Truth table of a handle over the first `m` named variables. -/
def table (s : BSt) (m x : Nat) : List (Option Bool) := (List.range (2 ^ m)).map fun i => s.k.value x (bits i)

theorem buildAll_reach {fs : List Formula} {s : BSt} (h : BReach canon0 exB (fun _ => 0) s []) (hf : ∀ f ∈ fs, f.Norm ∧ NoCon f ∧ ∀ v, Occ v f → ∃ n, v = .named n) {hs s'} (e : buildAll fs s = some (hs, s')) : BReach canon0 exB (fun _ => 0) s' hs := by
  have gen : ∀ (fs : List Formula) (hs0 : List (Nat × Formula)) (s : BSt), BReach canon0 exB (fun _ => 0) s hs0 → (∀ f ∈ fs, f.Norm ∧ NoCon f ∧ ∀ v, Occ v f → ∃ n, v = .named n) →
      fs.foldlM (fun (p : List (Nat × Formula) × BSt) f => (build canon0 exB nop f p.2).bind fun q => q.1.map fun x => ((x, f) :: p.1, q.2)) (hs0, s) = some (hs, s') → BReach canon0 exB (fun _ => 0) s' hs := by
    intro fs
    induction fs with
    | nil => intro hs0 s h _ e; cases e; exact h
    | cons f fs ih =>
      intro hs0 s h hf e
      simp only [List.foldlM_cons, Option.bind_eq_bind] at e
      obtain ⟨p, e1, e2⟩ := Option.bind_eq_some_iff.1 e
      obtain ⟨q, e3, e4⟩ := Option.bind_eq_some_iff.1 e1
      obtain ⟨x, e5, e6⟩ := Option.map_eq_some_iff.1 e4
      subst e6
      obtain ⟨n1, n2, n3⟩ := hf f (by simp)
      have hin : Input exB s.w.cnt f := ⟨n1, fit_noCon n2, fun v hv => by obtain ⟨n, rfl⟩ := n3 v hv; trivial⟩
      exact ih _ _ (.step h (.build hin (h := nop) (x := x) (by rw [e3, ← e5]))) (fun g hg => hf g (by simp [hg])) e2
  exact gen fs [] s h hf e

theorem start_reach {nv size : Nat} (hs : 3 ≤ size) {s} (e : start nv size = some s) : BReach canon0 exB (fun _ => 0) s [] := by
  obtain ⟨k, ek, rfl⟩ := Option.map_eq_some_iff.1 e
  exact .num .fresh hs growR_lt ek


/-! ### Witnesses -/

/-- Formulas over named variables without constraints. -/
def Plain (f : Formula) : Prop := f.Norm ∧ NoCon f ∧ ∀ v, Occ v f → ∃ n, v = .named n

theorem plain_lit (n : Nat) (b : Bool) : Plain (xv n b) := ⟨.lit _, noCon_lit _, fun v hv => ⟨n, by simpa [xv, eq_comm] using hv⟩⟩

theorem plain_nary {o : Op} {fs : List Formula} (h : ∀ f ∈ fs, Plain f) : Plain (Formula.mkNary canon0 o fs) :=
  ⟨Formula.norm_mkNary _ _ fun f hf => (h f hf).1, .mkNary fun f hf => (h f hf).2.1, fun v hv => by
    obtain ⟨f, hf, ho⟩ := Formula.occ_mkNary hv; exact (h f hf).2.2 v ho⟩

theorem plain_and {fs : List Formula} (h : ∀ f ∈ fs, Plain f) : Plain (xAnd fs) := plain_nary h
theorem plain_or {fs : List Formula} (h : ∀ f ∈ fs, Plain f) : Plain (xOr fs) := plain_nary h

theorem Plain.input {f : Formula} (h : Plain f) (c : AuxTy → Nat) : Input exB c f :=
  ⟨h.1, fit_noCon h.2.1, fun v hv => by obtain ⟨n, rfl⟩ := h.2.2 v hv; trivial⟩

def xF1 : Formula := xAnd [xv 0, xv 1, xv 2]
def xF2 : Formula := xOr [xAnd [xv 0, xv 1 false], xv 2]
def xXor : Formula := xOr [xAnd [xv 0, xv 1 false], xAnd [xv 0 false, xv 1]]

theorem plain_F1 : Plain xF1 := plain_and (by simp [plain_lit])
theorem plain_F2 : Plain xF2 := plain_or (by simpa [plain_lit] using plain_and (by simp [plain_lit]))
theorem plain_xor : Plain xXor := plain_or (by
  simp only [List.mem_cons, List.not_mem_nil, or_false]
  rintro f (rfl | rfl) <;> exact plain_and (by simp [plain_lit]))

/-- The hypotheses of the theorems above are met: a kernel that starts with a node table so small that it has to be
collected and enlarged on the way, with three handles of pairwise different functions. -/
example : ∃ s x y z, BReach canon0 exB (fun _ => 0) s [(z, xXor), (y, xF2), (x, xF1)] ∧ x ≠ y ∧ y ≠ z ∧ x ≠ z ∧ s.k.gbcs ≠ 0 ∧ s.k.size ≠ 3 ∧
    Input exB s.w.cnt xF1 ∧ NoCon xF1 ∧ s.k.idx.length = 3 := by
  have h : ((start 3 3).bind fun s => (buildAll [xF1, xF2, xXor] s).map fun p => (p.1.map (·.1), decide (p.2.k.gbcs ≠ 0 ∧ p.2.k.size ≠ 3), p.2.k.idx.length, p.1.map (·.2))) = some ([14, 8, 10], true, 3, [xXor, xF2, xF1]) := by decide +kernel
  obtain ⟨s, e0, e1⟩ := Option.bind_eq_some_iff.1 h
  obtain ⟨⟨hs, s'⟩, e2, e3⟩ := Option.map_eq_some_iff.1 e1
  simp only [Prod.mk.injEq, decide_eq_true_eq] at e3
  obtain ⟨h1, ⟨h2, h3⟩, h4, h5⟩ := e3
  have hr := buildAll_reach (start_reach (Nat.le_refl 3) e0) (by
    simp only [List.mem_cons, List.not_mem_nil, or_false]
    rintro f (rfl | rfl | rfl)
    exacts [plain_F1, plain_F2, plain_xor]) e2
  match hs, h1, h5, hr with
  | [(z, _), (y, _), (x, _)], h1, h5, hr =>
    simp only [List.map_cons, List.map_nil, List.cons.injEq, and_true] at h1 h5
    obtain ⟨rfl, rfl, rfl⟩ := h1
    obtain ⟨rfl, rfl, rfl⟩ := h5
    exact ⟨s', _, _, _, hr, by decide, by decide, by decide, h2, h3, plain_F1.input _, plain_F1.2.1, h4⟩

/-- One formula built in a new kernel. -/
theorem one_build {nv size : Nat} (hsz : 3 ≤ size) {f : Formula} (hf : Plain f) {α : Type} {K : Nat → BSt → Option α} {a : α}
    (e : ((start nv size).bind fun s => (build canon0 exB nop f s).bind fun q => q.1.bind fun x => K x q.2) = some a) :
    ∃ s x, BReach canon0 exB (fun _ => 0) s [(x, f)] ∧ K x s = some a := by
  obtain ⟨s, e0, e1⟩ := Option.bind_eq_some_iff.1 e
  obtain ⟨⟨o, s'⟩, e2, e3⟩ := Option.bind_eq_some_iff.1 e1
  obtain ⟨x, e4, e5⟩ := Option.bind_eq_some_iff.1 e3
  simp only at e4; subst e4
  exact ⟨s', x, .step (start_reach hsz e0) (.build (hf.input _) e2), e5⟩

/-- **C38** fails for the handles `exists` (`restrict`, `for_all`) returns: they are not referenced, and a later
construction may reuse their nodes.  Here the result of quantifying `x1` in `x0 & x1 & x2` changes its value. -/
theorem C38_unreferenced_result : ∃ s x y s1 z s2 σ, BReach canon0 exB (fun _ => 0) s [(x, xF1)] ∧ existsH canon0 exB x [.named 1] s = some (some y, s1) ∧
    Input exB s1.w.cnt xF2 ∧ build canon0 exB nop xF2 s1 = some (some z, s2) ∧ s1.k.value y σ = some false ∧ s2.k.value y σ = some true := by
  obtain ⟨s, x, hr, e⟩ := one_build (nv := 3) (size := 3) (Nat.le_refl 3) plain_F1 (K := fun x (s : BSt) => (existsH canon0 exB x [.named 1] s).bind fun r => r.1.bind fun y => (build canon0 exB nop xF2 r.2).bind fun t => t.1.map fun _ =>
        (r.2.k.value y (bits 1), t.2.k.value y (bits 1))) (a := (some false, some true)) (by decide +kernel)
  obtain ⟨⟨o, s1⟩, e1, e2⟩ := Option.bind_eq_some_iff.1 e
  obtain ⟨y, e3, e4⟩ := Option.bind_eq_some_iff.1 e2
  simp only at e3; subst e3
  obtain ⟨⟨o, s2⟩, e5, e6⟩ := Option.bind_eq_some_iff.1 e4
  obtain ⟨z, e7, e8⟩ := Option.map_eq_some_iff.1 e6
  simp only at e7; subst e7
  simp only [Prod.mk.injEq] at e8
  exact ⟨s, x, y, s1, z, s2, bits 1, hr, e1, plain_F2.input _, e5, e8.1, e8.2⟩

/-- **C40**: `enumerate_all_models_projected` may return an assignment twice: `x2` in the models of
`x0 xor x1`. -/
theorem C40_projection_duplicates : ∃ s r v ms k', Readable canon0 exB (fun _ => 0) s r ∧ v ∈ s.k.idx ∧ enumModels r (some [v]) s.k = some (ms, k') ∧ ¬ ms.Nodup := by
  have h : ((start 3 50).bind fun s => (buildAll [xXor, xv 2] s).map fun p => (p.1.map (·.2), decide (Var.named 2 ∈ p.2.k.idx), p.1.map fun q => (enumModels q.1 (some [.named 2]) p.2.k).map fun r => decide (r.1.Nodup))) = some ([xv 2, xXor], true, [some true, some false]) := by decide +kernel
  obtain ⟨s, e0, e1⟩ := Option.bind_eq_some_iff.1 h
  obtain ⟨⟨hs, s'⟩, e2, e3⟩ := Option.map_eq_some_iff.1 e1
  have hr := buildAll_reach (start_reach (by decide) e0) (by
    simp only [List.mem_cons, List.not_mem_nil, or_false]
    rintro f (rfl | rfl)
    exacts [plain_xor, plain_lit _ _]) e2
  simp only [Prod.mk.injEq, decide_eq_true_eq] at e3
  obtain ⟨h1, h2, h3⟩ := e3
  match hs, h1, h3, hr with
  | [(z, _), (x, g)], h1, h3, hr =>
    simp only [List.map_cons, List.map_nil, List.cons.injEq, and_true] at h3
    obtain ⟨⟨ms, k'⟩, e4, e5⟩ := Option.map_eq_some_iff.1 h3.2
    exact ⟨s', x, _, ms, k', .held hr (.inr ⟨g, by simp⟩), h2, e4, by simpa using e5⟩

/-- **C40**: `cnf` and `dnf` panic if a kernel variable has no name. -/
theorem C40_normal_form_panics : ∃ s r, Readable canon0 exB (fun _ => 0) s r ∧ normalForm canon0 true r s.k = none := by
  obtain ⟨s, x, hr, e⟩ := one_build (nv := 2) (size := 50) (by decide) (plain_lit 0 true) (K := fun x (s : BSt) => some (normalForm canon0 true x s.k).isNone) (a := true) (by decide +kernel)
  exact ⟨s, x, .held hr (.inr ⟨_, List.mem_singleton.2 rfl⟩), by simpa using e⟩

/-- `restrict` with a variable in both phases ignores it (hence the hypothesis of `C39_restrict`). -/
theorem C39_both_phases : ∃ s x s', BReach canon0 exB (fun _ => 0) s [(x, xF1)] ∧ restrictH canon0 exB x [⟨.named 0, true⟩, ⟨.named 0, false⟩] s = some (some x, s') := by
  obtain ⟨s, x, hr, e⟩ := one_build (nv := 3) (size := 50) (by decide) plain_F1 (K := fun x (s : BSt) => (restrictH canon0 exB x [⟨.named 0, true⟩, ⟨.named 0, false⟩] s).map fun (r : Option Nat × BSt) => decide (r.1 = some x)) (a := true) (by decide +kernel)
  obtain ⟨⟨o, s'⟩, e1, e2⟩ := Option.map_eq_some_iff.1 e
  simp only [decide_eq_true_eq] at e2; subst e2
  exact ⟨s, x, s', hr, e1⟩

/-- Configuration with the ladder encoding of at-most-one constraints. -/
def exL : FCfg := ⟨⟨.ladder, .best, .cardNet, .best⟩, ⟨.adder, ⟨true, true, true⟩⟩, true, true, true, true, true, true, true⟩
def xNotAmo : Formula := .not (.cc ⟨[.named 0, .named 1, .named 2], .le, 1⟩)

/-- **C36** fails for constraints below a negation: the constraint's encoding is negated together with its auxiliary
variables, so the BDD of `~(x0 + x1 + x2 <= 1)` is satisfied by an assignment with only one variable true. -/
theorem C36_negated_constraint : ∃ s x s' σ, BReach canon0 exL (fun _ => 0) s [] ∧ exL.cc.Good ∧ Input exL s.w.cnt xNotAmo ∧ build canon0 exL nop xNotAmo s = some (some x, s') ∧
    s'.k.value x σ = some true ∧ xNotAmo.eval σ = false := by
  have h : ((start 6 50).bind fun s => (build canon0 exL nop xNotAmo s).bind fun q => q.1.map fun x => q.2.k.value x (bits 1)) = some (some true) := by decide +kernel
  obtain ⟨s, e0, e1⟩ := Option.bind_eq_some_iff.1 h
  obtain ⟨⟨o, s'⟩, e2, e3⟩ := Option.bind_eq_some_iff.1 e1
  obtain ⟨x, e4, e5⟩ := Option.map_eq_some_iff.1 e3
  simp only at e4; subst e4
  obtain ⟨k, ek, rfl⟩ := Option.map_eq_some_iff.1 e0
  have hs : ∀ g, Sub g xNotAmo → g = xNotAmo ∨ g = .cc ⟨[.named 0, .named 1, .named 2], .le, 1⟩ := by
    intro g hg
    rcases sub_operands.1 hg with h | ⟨k, hk, hs⟩
    · exact .inl h
    · simp only [xNotAmo, Formula.operands, List.mem_cons, List.not_mem_nil, or_false] at hk
      subst hk
      rcases sub_operands.1 hs with h | ⟨k, hk, hs⟩
      · exact .inr h
      · simp [Formula.operands] at hk
  refine ⟨_, x, s', bits 1, .num .fresh (by decide) growR_lt ek, trivial, ⟨.not (.cc ⟨by decide, by decide, by decide⟩) rfl rfl rfl, ⟨fun c hc => ?_, fun p hp => ?_⟩, fun v hv => ?_⟩, e2, e5, by decide⟩
  · rcases hs _ hc with h | h
    · simp [xNotAmo] at h
    · injection h with h; subst h; exact ⟨by decide, by decide, fun _ => by decide⟩
  · rcases hs _ hp with h | h <;> simp [xNotAmo] at h
  · simp [xNotAmo] at hv
    rcases hv with rfl | rfl | rfl <;> trivial

end Bdd
end Verif
