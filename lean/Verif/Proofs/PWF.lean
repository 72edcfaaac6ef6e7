import Verif.Proofs.Amp
import Mathlib.LinearAlgebra.Matrix.Notation
import Mathlib.Data.Matrix.Basic
import Mathlib.LinearAlgebra.Matrix.ConjTranspose

/-! # Well-formed package states -/

namespace DD

variable {R : Type} [Field R]

/-- `t'` is `t` with some new, unreferenced nodes. -/
structure TExt {n : Nat} (t t' : UTable (Cx R) n) : Prop where
  nvars : t'.nvars = t.nvars
  nbucket : t'.nbucket = t.nbucket
  old : ∀ a ∈ t.all, a ∈ t'.all ∧ t'.mem a = t.mem a
  new : ∀ a, a ∈ t'.all → a ∉ t.all → (t'.mem a).ref = 0
  active : t'.active = t.active
  activeCount : t'.activeNodeCount = t.activeNodeCount

theorem TExt.refl {n : Nat} (t : UTable (Cx R) n) : TExt t t :=
  ⟨rfl, rfl, fun _ h => ⟨h, rfl⟩, fun _ h h' => absurd h h', rfl, rfl⟩

theorem TExt.le {n : Nat} {t t' : UTable (Cx R) n} (h : TExt t t') : Le t t' := by
  intro a ha
  obtain ⟨h1, h2⟩ := h.old a ha
  exact ⟨h1, by rw [h2], by rw [h2]⟩

theorem TExt.trans {n : Nat} {t t' t'' : UTable (Cx R) n} (h : TExt t t') (h' : TExt t' t'') : TExt t t'' := by
  refine ⟨h'.nvars.trans h.nvars, h'.nbucket.trans h.nbucket, ?_, ?_, h'.active.trans h.active,
    h'.activeCount.trans h.activeCount⟩
  · intro a ha
    obtain ⟨h1, h2⟩ := h.old a ha
    obtain ⟨h3, h4⟩ := h'.old a h1
    exact ⟨h3, h4.trans h2⟩
  · intro a ha hna
    by_cases hm : a ∈ t'.all
    · rw [(h'.old a hm).2]; exact h.new a hm hna
    · exact h'.new a ha hm

/-- The same for both tables. -/
def PExt (s s' : Pkg R) : Prop := ∀ k, TExt (s.ut k) (s'.ut k)

theorem PExt.refl (s : Pkg R) : PExt s s := fun k => TExt.refl _
theorem PExt.trans {s s' s'' : Pkg R} (h : PExt s s') (h' : PExt s' s'') : PExt s s'' := fun k => (h k).trans (h' k)
theorem PExt.le {s s' : Pkg R} (h : PExt s s') (k : Kind) : Le (s.ut k) (s'.ut k) := (h k).le
theorem PExt.of_eq {s s' : Pkg R} (h : s'.ut = s.ut) : PExt s s' := by
  intro k; rw [h]; exact TExt.refl _

/-- Every entry of a cache satisfies `Φ`, and an unused cache has no entries (so that `clear` empties it). -/
structure CacheOK {κ ρ : Type} (c : Cache κ ρ) (Φ : κ → ρ → Prop) : Prop where
  entry : ∀ i k r, c.slot i = some (k, r) → Φ k r
  zero : c.count = 0 → ∀ i, c.slot i = none

theorem CacheOK.empty {κ ρ : Type} (Φ : κ → ρ → Prop) : CacheOK Cache.empty Φ :=
  ⟨fun i k r h => by simp [Cache.empty] at h, fun _ _ => rfl⟩

theorem CacheOK.insert {κ ρ : Type} {c : Cache κ ρ} {Φ : κ → ρ → Prop} (h : CacheOK c Φ) (hh : κ → Nat) {k : κ} {r : ρ}
    (hk : Φ k r) : CacheOK (c.insert hh k r) Φ := by
  refine ⟨?_, fun hz => by simp [Cache.insert] at hz⟩
  intro i k' r' hs
  simp only [Cache.insert] at hs
  split at hs
  · simp only [Option.some.injEq, Prod.mk.injEq] at hs
    obtain ⟨rfl, rfl⟩ := hs
    exact hk
  · exact h.entry i k' r' hs

/-- `clear` empties a cache. -/
theorem CacheOK.clear {κ ρ : Type} {c : Cache κ ρ} {Φ : κ → ρ → Prop} (h : CacheOK c Φ) (Ψ : κ → ρ → Prop) :
    CacheOK c.clear Ψ := by
  unfold Cache.clear
  split
  · exact ⟨fun i k r h => by simp at h, fun _ _ => rfl⟩
  · rename_i hc
    have hz : c.count = 0 := by omega
    exact ⟨fun i k r hs => by rw [h.zero hz] at hs; simp at hs, h.zero⟩

theorem CacheOK.mono {κ ρ : Type} {c : Cache κ ρ} {Φ Ψ : κ → ρ → Prop} (h : CacheOK c Φ) (hi : ∀ k r, Φ k r → Ψ k r) :
    CacheOK c Ψ := ⟨fun i k r hs => hi k r (h.entry i k r hs), h.zero⟩

theorem CacheOK.look {κ ρ : Type} [DecidableEq κ] {c : Cache κ ρ} {Φ : κ → ρ → Prop} (h : CacheOK c Φ) {hh : κ → Nat}
    {k : κ} {r : ρ} (hl : Pkg.look hh c k = some r) : Φ k r := by
  unfold Pkg.look Cache.lookup at hl
  cases hs : c.slot (hh k) with
  | none => rw [hs] at hl; simp at hl
  | some kr =>
    obtain ⟨k', r'⟩ := kr
    rw [hs] at hl
    simp only [Bool.and_true, decide_eq_true_eq] at hl
    split at hl
    · rename_i he
      subst he
      simp only [Option.some.injEq] at hl
      subst hl
      exact h.entry _ _ _ hs
    · simp at hl

section rels
variable [LinearOrder R] [IsStrictOrderedRing R]

/-- Entries of the addition table. -/
def AddRel {n : Nat} (t : UTable (Cx R) n) (x : PEdge R × PEdge R) (r : PEdge R) : Prop :=
  ∃ l, Valid t l x.1 ∧ Valid t l x.2 ∧ Valid t l r ∧ ∀ d, amp t l r d = amp t l x.1 d + amp t l x.2 d

/-- Value of a product, entry by entry: sum over the assignments of the contracted index. -/
def mulAmp (tm : UTable (Cx R) 4) {k : Kind} (t : UTable (Cx R) (ar k)) : (l : Nat) → PEdge R → PEdge R →
    (Fin l → Fin (ar k)) → Cx R :=
  match k with
  | .v => fun l x y d => ∑ j : Fin l → Fin 2, amp tm l x (fun i => rc (d i) (j i)) * amp t l y j
  | .m => fun l x y d => ∑ j : Fin l → Fin 2, amp tm l x (fun i => rc (![0, 0, 1, 1] (d i)) (j i)) *
      amp t l y (fun i => rc (j i) (![0, 1, 0, 1] (d i)))

/-- Entries of the multiplication tables. -/
def MulRel (tm : UTable (Cx R) 4) {k : Kind} (t : UTable (Cx R) (ar k)) (x : PEdge R × PEdge R) (r : PEdge R) : Prop :=
  ∃ l, Valid tm l x.1 ∧ Valid t l x.2 ∧ Valid t l r ∧ ∀ d, amp t l r d = mulAmp tm t l x.1 x.2 d

/-- Lower and upper part of a digit string. -/
def lowD {n a b : Nat} (d : Fin (b + a) → Fin n) : Fin b → Fin n := fun i => d (Fin.castAdd a i)
def highD {n a b : Nat} (d : Fin (b + a) → Fin n) : Fin a → Fin n := fun i => d (Fin.natAdd b i)

open Classical in
/-- What `kronecker` uses as the value of its left operand if it is a matrix: as `amp`, but the weight of an edge that
leads to an identity is ignored (Package.hpp:1983-2000). -/
noncomputable def kampM (t : UTable (Cx R) 4) : (l : Nat) → PEdge R → (Fin l → Fin 4) → Cx R
  | 0, e, _ => e.w
  | l + 1, e, d =>
    match e.p with
    | none => e.w
    | some a =>
      if mat t (l + 1) ⟨some a, 1⟩ = 1 then amp t (l + 1) ⟨some a, 1⟩ d
      else e.w * kampM t l ((t.mem a).e (d (Fin.last l))) (Fin.init d)

/-- The value of the left operand of `kronecker` by kind. -/
noncomputable def kamp {k : Kind} (t : UTable (Cx R) (ar k)) : (l : Nat) → PEdge R → (Fin l → Fin (ar k)) → Cx R :=
  match k with
  | .v => amp t
  | .m => kampM t

/-- Entries of the Kronecker table. -/
def KronRel {k : Kind} (t : UTable (Cx R) (ar k)) (x : PEdge R × PEdge R) (r : PEdge R) : Prop :=
  ∃ lx ly, Valid t lx x.1 ∧ Valid t ly x.2 ∧ Valid t (ly + lx) r ∧
    ∀ d, amp t (ly + lx) r d = kamp t lx x.1 (highD d) * amp t ly x.2 (lowD d)

/-- Entries of the inner product table: the left operand is conjugated except for its top weight, which is 1. -/
def InnerRel (t : UTable (Cx R) 2) (x : PEdge R × PEdge R) (r : Cx R) : Prop :=
  ∃ l, Valid t l x.1 ∧ Valid t l x.2 ∧ r = ∑ j, (amp t l x.1 j).conj * amp t l x.2 j

/-- Entries of the transposition table. -/
def TransRel (t : UTable (Cx R) 4) (x r : PEdge R) : Prop :=
  ∃ l, Valid t l x ∧ Valid t l r ∧ mat t l r = (mat t l x).transpose

/-- Entries of the conjugate transposition table. -/
def ConjRel (t : UTable (Cx R) 4) (x r : PEdge R) : Prop :=
  ∃ l, Valid t l x ∧ Valid t l r ∧ mat t l r = (mat t l x).transpose.map Cx.conj

/-- Entries of the identity table. -/
def IdRel (t : UTable (Cx R) 4) (i : Nat) (r : PEdge R) : Prop :=
  Valid t (i + 1) r ∧ mat t (i + 1) r = 1

variable {n : Nat}

theorem AddRel.mono {t t' : UTable (Cx R) n} (h : Le t t') (hc : Children t) {x r} (hr : AddRel t x r) : AddRel t' x r := by
  obtain ⟨l, h1, h2, h3, h4⟩ := hr
  refine ⟨l, h1.mono h, h2.mono h, h3.mono h, fun d => ?_⟩
  rw [amp_mono h hc h1, amp_mono h hc h2, amp_mono h hc h3]; exact h4 d

theorem mulAmp_mono {tm tm' : UTable (Cx R) 4} {k : Kind} {t t' : UTable (Cx R) (ar k)} (hm : Le tm tm')
    (hcm : Children tm) (h : Le t t') (hc : Children t) {l x y} (hx : Valid tm l x) (hy : Valid t l y) (d) :
    mulAmp tm' t' l x y d = mulAmp tm t l x y d := by
  cases k with
  | v => simp only [mulAmp, amp_mono hm hcm hx, amp_mono h hc hy]
  | m => simp only [mulAmp, amp_mono hm hcm hx, amp_mono h hc hy]

theorem MulRel.mono {tm tm' : UTable (Cx R) 4} {k : Kind} {t t' : UTable (Cx R) (ar k)} (hm : Le tm tm')
    (hcm : Children tm) (h : Le t t') (hc : Children t) {x r} (hr : MulRel tm t x r) : MulRel tm' t' x r := by
  obtain ⟨l, h1, h2, h3, h4⟩ := hr
  refine ⟨l, h1.mono hm, h2.mono h, h3.mono h, fun d => ?_⟩
  rw [amp_mono h hc h3, mulAmp_mono hm hcm h hc h1 h2]; exact h4 d

theorem InnerRel.mono {t t' : UTable (Cx R) 2} (h : Le t t') (hc : Children t) {x r} (hr : InnerRel t x r) :
    InnerRel t' x r := by
  obtain ⟨l, h1, h2, h3⟩ := hr
  refine ⟨l, h1.mono h, h2.mono h, ?_⟩
  simp only [amp_mono h hc h1, amp_mono h hc h2]; exact h3

theorem mat_mono {t t' : UTable (Cx R) 4} (h : Le t t') (hc : Children t) {l e} (he : Valid t l e) :
    mat t' l e = mat t l e := by
  funext r c; exact amp_mono h hc he _

theorem kampM_mono {t t' : UTable (Cx R) 4} (h : Le t t') (hc : Children t) : ∀ {l : Nat} {e : PEdge R},
    Valid t l e → ∀ d, kampM t' l e d = kampM t l e d := by
  intro l
  induction l with
  | zero => intro e _ d; rfl
  | succ l ih =>
    intro e hv d
    cases hp : e.p with
    | none => simp only [kampM, hp]
    | some a =>
      rw [valid_some hp] at hv
      have hv' : (t.mem a).v = l := by omega
      have h1 := hc a hv.1 (d (Fin.last l))
      rw [hv'] at h1
      have h2 : Valid t (l + 1) ⟨some a, 1⟩ := ⟨hv.1, hv.2.1, one_ne_zero⟩
      simp only [kampM, hp, mat_mono h hc h2, amp_mono h hc h2, (h a hv.1).2.2, ih h1]

theorem kamp_mono {k : Kind} {t t' : UTable (Cx R) (ar k)} (h : Le t t') (hc : Children t) {l : Nat} {e : PEdge R}
    (he : Valid t l e) (d) : kamp t' l e d = kamp t l e d := by
  cases k with
  | v => exact amp_mono h hc he d
  | m => exact kampM_mono h hc he d

theorem KronRel.mono {k : Kind} {t t' : UTable (Cx R) (ar k)} (h : Le t t') (hc : Children t) {x r}
    (hr : KronRel t x r) : KronRel t' x r := by
  obtain ⟨lx, ly, h1, h2, h3, h4⟩ := hr
  refine ⟨lx, ly, h1.mono h, h2.mono h, h3.mono h, fun d => ?_⟩
  rw [kamp_mono h hc h1, amp_mono h hc h2, amp_mono h hc h3]; exact h4 d

theorem TransRel.mono {t t' : UTable (Cx R) 4} (h : Le t t') (hc : Children t) {x r} (hr : TransRel t x r) :
    TransRel t' x r := by
  obtain ⟨l, h1, h2, h3⟩ := hr
  exact ⟨l, h1.mono h, h2.mono h, by rw [mat_mono h hc h1, mat_mono h hc h2]; exact h3⟩

theorem ConjRel.mono {t t' : UTable (Cx R) 4} (h : Le t t') (hc : Children t) {x r} (hr : ConjRel t x r) :
    ConjRel t' x r := by
  obtain ⟨l, h1, h2, h3⟩ := hr
  exact ⟨l, h1.mono h, h2.mono h, by rw [mat_mono h hc h1, mat_mono h hc h2]; exact h3⟩

theorem IdRel.mono {t t' : UTable (Cx R) 4} (h : Le t t') (hc : Children t) {i r} (hr : IdRel t i r) : IdRel t' i r :=
  ⟨hr.1.mono h, by rw [mat_mono h hc hr.1]; exact hr.2⟩

/-- The matrix of the node at `a` is symmetric. -/
def NodeSymm (t : UTable (Cx R) 4) (a : Nat) : Prop :=
  (mat t ((t.mem a).v + 1) ⟨some a, 1⟩).transpose = mat t ((t.mem a).v + 1) ⟨some a, 1⟩

/-- The matrix of the node at `a` is the identity. -/
def NodeIdent (t : UTable (Cx R) 4) (a : Nat) : Prop := mat t ((t.mem a).v + 1) ⟨some a, 1⟩ = 1

omit [LinearOrder R] [IsStrictOrderedRing R] in
theorem nodeSymm_at {t : UTable (Cx R) 4} {a v : Nat} (h : (t.mem a).v = v) :
    NodeSymm t a ↔ (mat t (v + 1) ⟨some a, 1⟩).transpose = mat t (v + 1) ⟨some a, 1⟩ := by
  subst h; rfl

omit [LinearOrder R] [IsStrictOrderedRing R] in
theorem nodeIdent_at {t : UTable (Cx R) 4} {a v : Nat} (h : (t.mem a).v = v) :
    NodeIdent t a ↔ mat t (v + 1) ⟨some a, 1⟩ = 1 := by
  subst h; rfl

theorem valid_node {t : UTable (Cx R) n} {a v : Nat} (ha : a ∈ t.all) (hv : (t.mem a).v = v) :
    Valid t (v + 1) ⟨some a, 1⟩ := ⟨ha, by rw [hv], one_ne_zero⟩

theorem nodeSymm_mono {t t' : UTable (Cx R) 4} (h : Le t t') (hc : Children t) {a : Nat} (ha : a ∈ t.all) :
    NodeSymm t' a ↔ NodeSymm t a := by
  rw [nodeSymm_at (h a ha).2.1, nodeSymm_at rfl, mat_mono h hc (valid_node ha rfl)]

theorem nodeIdent_mono {t t' : UTable (Cx R) 4} (h : Le t t') (hc : Children t) {a : Nat} (ha : a ∈ t.all) :
    NodeIdent t' a ↔ NodeIdent t a := by
  rw [nodeIdent_at (h a ha).2.1, nodeIdent_at rfl, mat_mono h hc (valid_node ha rfl)]

/-- The marks of stored matrix nodes: a marked node is symmetric (the identity), and unless it is in `X` (nodes under
construction) a symmetric node (an identity) is marked. -/
structure Marks (t : UTable (Cx R) 4) (X : Set Nat) : Prop where
  symm : ∀ a ∈ t.all, (t.mem a).symm = true → NodeSymm t a
  ident : ∀ a ∈ t.all, (t.mem a).ident = true → NodeIdent t a
  symmC : ∀ a ∈ t.all, a ∉ X → NodeSymm t a → (t.mem a).symm = true
  identC : ∀ a ∈ t.all, a ∉ X → NodeIdent t a → (t.mem a).ident = true

/-- Well-formed package states; `X` are matrix nodes whose marks have not been determined yet. -/
structure PWF (P : PCfg R) (s : Pkg R) (X : Set Nat) : Prop where
  tab : ∀ k, DDWF (P.uH k) (s.ut k)
  marks : Marks (s.ut .m) X
  addC : ∀ k, CacheOK (s.addC k) (AddRel (s.ut k))
  mulC : ∀ k, CacheOK (s.mulC k) (MulRel (s.ut .m) (s.ut k))
  kronC : ∀ k, CacheOK (s.kronC k) (KronRel (s.ut k))
  innerC : CacheOK s.innerC (InnerRel (s.ut .v))
  transC : CacheOK s.transC (TransRel (s.ut .m))
  conjC : CacheOK s.conjC (ConjRel (s.ut .m))
  idTab : ∀ i r, s.idTab i = some r → IdRel (s.ut .m) i r

/-- The tables other than the unique tables keep their meaning when nodes are added. -/
theorem PWF.transfer {P : PCfg R} {s s' : Pkg R} {X Y : Set Nat} (h : PWF P s X)
    (htab : ∀ k, DDWF (P.uH k) (s'.ut k)) (hmarks : Marks (s'.ut .m) Y) (hle : ∀ k, Le (s.ut k) (s'.ut k))
    (h1 : s'.addC = s.addC) (h2 : s'.mulC = s.mulC) (h3 : s'.kronC = s.kronC) (h4 : s'.innerC = s.innerC)
    (h5 : s'.transC = s.transC) (h6 : s'.conjC = s.conjC) (h7 : s'.idTab = s.idTab) : PWF P s' Y where
  tab := htab
  marks := hmarks
  addC k := by rw [h1]; exact (h.addC k).mono fun _ _ hr => hr.mono (hle k) (h.tab k).child
  mulC k := by rw [h2]; exact (h.mulC k).mono fun _ _ hr => hr.mono (hle .m) (h.tab .m).child (hle k) (h.tab k).child
  kronC k := by rw [h3]; exact (h.kronC k).mono fun _ _ hr => hr.mono (hle k) (h.tab k).child
  innerC := by rw [h4]; exact h.innerC.mono fun _ _ hr => hr.mono (hle .v) (h.tab .v).child
  transC := by rw [h5]; exact h.transC.mono fun _ _ hr => hr.mono (hle .m) (h.tab .m).child
  conjC := by rw [h6]; exact h.conjC.mono fun _ _ hr => hr.mono (hle .m) (h.tab .m).child
  idTab i r hr := by rw [h7] at hr; exact (h.idTab i r hr).mono (hle .m) (h.tab .m).child

end rels

/-- Sequences of state-changing computations. -/
theorem seqFin_spec {S β : Type} (I : S → Prop) (le : S → S → Prop) (lrefl : ∀ s, le s s)
    (ltrans : ∀ {a b c}, le a b → le b c → le a c) : ∀ (n : Nat) (f : Fin n → S → S × β) (Q : Fin n → S → β → Prop)
    (_ : ∀ i s s' b, le s s' → I s → Q i s b → Q i s' b) (s0 : S) (_ : I s0)
    (_ : ∀ i s, I s → le s0 s → I (f i s).1 ∧ le s (f i s).1 ∧ Q i (f i s).1 (f i s).2),
    I (seqFin n f s0).1 ∧ le s0 (seqFin n f s0).1 ∧ ∀ i, Q i (seqFin n f s0).1 ((seqFin n f s0).2 i) := by
  intro n
  induction n with
  | zero => intro f Q _ s0 h0 _; exact ⟨h0, lrefl _, fun i => i.elim0⟩
  | succ n ih =>
    intro f Q hQ s0 h0 hf
    obtain ⟨h1, h2, h3⟩ := hf 0 s0 h0 (lrefl _)
    obtain ⟨h4, h5, h6⟩ := ih (fun i => f i.succ) (fun i => Q i.succ) (fun i => hQ i.succ) (f 0 s0).1 h1
      (fun i s hs hle => hf i.succ s hs (ltrans h2 hle))
    refine ⟨h4, ltrans h2 h5, ?_⟩
    intro i
    refine Fin.cases ?_ ?_ i
    · exact hQ 0 _ _ _ h5 h1 h3
    · intro j; exact h6 j

end DD
