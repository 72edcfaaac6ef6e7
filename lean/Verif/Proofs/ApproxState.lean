import Verif.Proofs.ApproxNum
import Verif.Proofs.JointGc
import Verif.Props.C08

/-! # Invariant of the states with a tolerance, and the primitive steps -/

namespace DD

open Pkg UTable

variable {R : Type} [Field R] [LinearOrder R] [IsStrictOrderedRing R] [FloorRing R] {J : JCfg R} {τ : R}
variable {s s' s'' : JState R}

/-- What two states agree on: nodes stored in both, numbers known in both. -/
structure Agree (J : JCfg R) (s s' : JState R) : Prop where
  node : ∀ k, ∀ a ∈ (s.tab k).tab.all, a ∈ (s'.tab k).tab.all →
    ((s'.tab k).tab.mem a).e = ((s.tab k).tab.mem a).e ∧ ((s'.tab k).tab.mem a).v = ((s.tab k).tab.mem a).v
  num : ∀ l, s.ct.Live J.C l → s'.ct.Live J.C l → s'.ct.value J.C l = s.ct.value J.C l

/-- Growth: nothing is lost. -/
structure Grow (J : JCfg R) (s s' : JState R) : Prop where
  rel : Agree J s s'
  all : ∀ k, ∀ a ∈ (s.tab k).tab.all, a ∈ (s'.tab k).tab.all
  live : ∀ l, s.ct.Live J.C l → s'.ct.Live J.C l
  nvars : ∀ k, (s'.tab k).tab.nvars = (s.tab k).tab.nvars

theorem Grow.refl (s : JState R) : Grow J s s := ⟨⟨fun _ _ _ _ => ⟨rfl, rfl⟩, fun _ _ _ => rfl⟩, fun _ _ h => h, fun _ h => h, fun _ => rfl⟩

theorem Grow.trans (h : Grow J s s') (h' : Grow J s' s'') : Grow J s s'' := by
  refine ⟨⟨fun k a ha ha' => ?_, fun l hl hl' => ?_⟩, fun k a ha => h'.all k a (h.all k a ha), fun l hl => h'.live l (h.live l hl),
    fun k => (h'.nvars k).trans (h.nvars k)⟩
  · have h1 := h.rel.node k a ha (h.all k a ha)
    have h2 := h'.rel.node k a (h.all k a ha) ha'
    exact ⟨h2.1.trans h1.1, h2.2.trans h1.2⟩
  · exact (h'.rel.num l (h.live l hl) hl').trans (h.rel.num l hl (h.live l hl))

theorem Agree.symm (h : Agree J s s') : Agree J s' s :=
  ⟨fun k a h1 h2 => ⟨(h.node k a h2 h1).1.symm, (h.node k a h2 h1).2.symm⟩, fun l h1 h2 => (h.num l h2 h1).symm⟩

theorem Grow.ofTab {k : NK} (x : UHist (CNum Loc) k.ar) (ha : Agree J s { s with tab := Function.update s.tab k x })
    (hall : ∀ a ∈ (s.tab k).tab.all, a ∈ x.tab.all) (hnv : x.tab.nvars = (s.tab k).tab.nvars) :
    Grow J s { s with tab := Function.update s.tab k x } := by
  refine ⟨ha, fun j a h1 => ?_, fun l hl => hl, fun j => ?_⟩
  · by_cases e : j = k
    · subst e; dsimp only; rw [Function.update_self]; exact hall a h1
    · dsimp only; rw [Function.update_of_ne e]; exact h1
  · by_cases e : j = k
    · subst e; dsimp only; rw [Function.update_self]; exact hnv
    · dsimp only; rw [Function.update_of_ne e]

theorem Agree.cval (h : Agree J s s') {c : CNum Loc} (hc : s.ct.LiveC J.C c) (hc' : s'.ct.LiveC J.C c) :
    s'.ct.cval J.C c = s.ct.cval J.C c := by
  unfold CTab.cval CNum.val TPtr.val
  rw [h.num _ hc.1 hc'.1, h.num _ hc.2 hc'.2]

theorem Grow.liveC (h : Grow J s s') {c : CNum Loc} (hc : s.ct.LiveC J.C c) : s'.ct.LiveC J.C c := ⟨h.live _ hc.1, h.live _ hc.2⟩

theorem Grow.cval (h : Grow J s s') {c : CNum Loc} (hc : s.ct.LiveC J.C c) : s'.ct.cval J.C c = s.ct.cval J.C c :=
  h.rel.cval hc (h.liveC hc)

/-- The node of a diagram over `l` qubits. -/
def JState.NodeOk (s : JState R) (l : Nat) : Option Nat → Prop
  | none => True
  | some a => a ∈ (s.tab .v).tab.all ∧ ((s.tab .v).tab.mem a).v + 1 = l

theorem Grow.nodeOk (h : Grow J s s') {l : Nat} {p : Option Nat} (hp : s.NodeOk l p) : s'.NodeOk l p := by
  cases p with
  | none => trivial
  | some a =>
    have := h.rel.node .v a hp.1 (h.all .v a hp.1)
    exact ⟨h.all .v a hp.1, by rw [this.2]; exact hp.2⟩

/-- Product of the weights below a node, along a path. -/
def JState.namp (J : JCfg R) (s : JState R) : (l : Nat) → Option Nat → (Fin l → Fin 2) → Cx R
  | 0, _, _ => 1
  | _ + 1, none, _ => 1
  | l + 1, some a, d =>
    s.ct.cval J.C (((s.tab .v).tab.mem a).e (d (Fin.last l))).w *
      namp J s l (((s.tab .v).tab.mem a).e (d (Fin.last l))).p (Fin.init d)

theorem vecJ_eq (s : JState R) : ∀ (l : Nat) (e : PtrEdge) (d : Fin l → Fin 2),
    s.vecJ J l e d = s.ct.cval J.C e.w * s.namp J l e.p d := by
  intro l
  induction l with
  | zero => intro e d; show _ = _ * (1 : Cx R); rw [mul_one]; rfl
  | succ l ih =>
    intro e d
    obtain ⟨p, w⟩ := e
    cases p with
    | none => show _ = _ * (1 : Cx R); rw [mul_one]; rfl
    | some a =>
      show _ * amp _ l _ _ = _
      have := ih (((s.tab .v).tab.mem a).e (d (Fin.last l))) (Fin.init d)
      show _ * (s.vecJ J l _ _) = _
      rw [this]; rfl

/-- Bound on the weights of edges out of vector nodes. -/
def kidW (τ : R) : R := 1 + 16 / 5 * τ

/-- Bound on the weights of edges out of vector nodes, with a reserve for rounding. -/
def kidBound (τ : R) : R := 1 + 4 * τ

/-- Bounds on sums: on the weight, and on the error. -/
def addP (τ : R) : Nat → R
  | 0 => 2
  | l + 1 => 3 / 2 * ((1 + 2 * τ) * addP τ l * kidBound τ)

/-- Error of a sum computed by the recursion. -/
def addE (τ : R) : Nat → R
  | 0 => 0
  | l + 1 => ((1 + 2 * τ) * addE τ l + 6 * τ * kidBound τ ^ l) * kidBound τ + 4 * τ * kidBound τ ^ (l + 1) +
      2 * τ * (1 + 3 * addP τ (l + 1)) * kidBound τ ^ l

/-- The node of a diagram of a matrix over `l` qubits. -/
def JState.NodeM (s : JState R) (l : Nat) : Option Nat → Prop
  | none => True
  | some a => a ∈ (s.tab .m).tab.all ∧ ((s.tab .m).tab.mem a).v + 1 = l

/-- An edge of a matrix with a known weight, whose node is stored and just below level `v`. -/
def JState.KnM (J : JCfg R) (τ : R) (s : JState R) (v : Nat) (e : PtrEdge) : Prop :=
  s.ct.LiveC J.C e.w ∧ (∀ b, e.p = some b → b ∈ (s.tab .m).tab.all ∧ ((s.tab .m).tab.mem b).v + 1 = v) ∧
  (e.p = none → τ < 1 → v = 0 ∨ e.w = CNum.zero)

/-- Product of the weights below a node of a matrix, along a path. -/
def JState.nampM (J : JCfg R) (s : JState R) : (l : Nat) → Option Nat → (Fin l → Fin 4) → Cx R
  | 0, _, _ => 1
  | _ + 1, none, _ => 1
  | l + 1, some a, d =>
    s.ct.cval J.C (((s.tab .m).tab.mem a).e (d (Fin.last l))).w *
      nampM J s l (((s.tab .m).tab.mem a).e (d (Fin.last l))).p (Fin.init d)

/-- The vector of an edge. -/
def JState.evec (J : JCfg R) (s : JState R) (l : Nat) (e : ValEdge R) (d : Fin l → Fin 2) : Cx R := e.w * s.namp J l e.p d

/-- The product of the matrix of a node and the vector of a node. -/
def JState.prodV (J : JCfg R) (s : JState R) (l : Nat) (a b : Option Nat) (d : Fin l → Fin 2) : Cx R :=
  ∑ c : Fin l → Fin 2, s.nampM J l a (fun i => rc (d i) (c i)) * s.namp J l b c

/-- The tolerance is small enough for additions. -/
def Small (τ : R) (l : Nat) : Prop := 1000 * ((l : R) + 1) * (3 / 2) ^ l * τ ≤ 1

/-- Error of a sum of vectors if the tolerance is small. -/
def addA (τ : R) (l : Nat) (N : R) : R := 20 * τ * l * (1 + 36 * (τ * (3 / 2) ^ l)) * (1 + N)

/-- The tolerance is small enough for multiplications. -/
def SmallM (τ : R) (l : Nat) : Prop := 1000 * ((l : R) + 1) ^ 2 * (3 / 2) ^ l * τ ≤ 1

/-- Error of a product for nodes. -/
def mulE (τ : R) (l : Nat) (X : R) : R := 40 * τ * (l : R) ^ 2 * kidBound τ ^ l * X

variable [HasSqrt R]

/-- An entry of the cache of `add`. -/
def AddOk (J : JCfg R) (τ : R) (s : JState R) (k : CKey R × CArg R) : Prop :=
  ∃ (l : Nat) (x y r : ValEdge R), k = (JState.addKey x y, .val .v r) ∧ s.NodeOk l x.p ∧ s.NodeOk l y.p ∧ s.NodeOk l r.p ∧
    (r.p = none → l = 0 ∨ r.w = 0) ∧
    (∀ U, 1 ≤ U → mag x.w ≤ U → mag y.w ≤ U → mag r.w ≤ addP τ l * U ∧
      ∀ d, mag (r.w * s.namp J l r.p d - (x.w * s.namp J l x.p d + y.w * s.namp J l y.p d)) ≤ addE τ l * U) ∧
    (Small τ l → ∀ d, mag (s.evec J l r d - (s.evec J l x d + s.evec J l y d)) ≤
      addA τ l (vnorm (s.evec J l x) + vnorm (s.evec J l y)))

/-- An entry of the cache of `transpose`: the node of the result is at the level of that of the operand. -/
def TrOk (τ : R) (s : JState R) (k : CKey R × CArg R) : Prop :=
  ∃ (a r : PtrEdge) (c : Nat), k = (([.ptr .m a], []), .ptr .m r) ∧ a.p = some c ∧ c ∈ (s.tab .m).tab.all ∧
    (∀ b, r.p = some b → b ∈ (s.tab .m).tab.all ∧ ((s.tab .m).tab.mem b).v = ((s.tab .m).tab.mem c).v) ∧
    (r.p = none → τ < 1 → r.w = CNum.zero)

/-- The product of bounds on rows and columns. -/
def kappa (K : Nat → R) (l : Nat) : R := ∏ j ∈ Finset.range l, K j

/-- An entry of the cache of `multiply`. -/
def MulOk (J : JCfg R) (τ : R) (s : JState R) (k : CKey R × CArg R) : Prop :=
  ∃ (l : Nat) (a b : Option Nat) (r : ValEdge R), k = (JState.mulKey a b, .val .v r) ∧ s.NodeM l a ∧ s.NodeOk l b ∧ s.NodeOk l r.p ∧
    (r.p = none → l = 0 ∨ r.w = 0) ∧ (SmallM τ l → ∀ K B, (∀ j, 1 ≤ K j) → 0 ≤ B → s.RowCol J K l a → s.NormLe J B l b →
      ∀ d, mag (s.evec J l r d - s.prodV J l a b d) ≤ mulE τ l (kappa K l * (1 + B)))

/-- An entry of the table of identities: a diagram with weight one for the identity. -/
def IdOk (J : JCfg R) (τ : R) (s : JState R) (k : CKey R × CArg R) : Prop :=
  ∃ (m : Nat) (e : PtrEdge), k = (JState.idKey m, .ptr .m e) ∧ e.w = CNum.one ∧ s.KnM J τ (m + 1) e ∧
    s.RowCol J (fun _ => 1 + 30 * τ) (m + 1) e.p ∧
    ∀ r : Fin (m + 1) → Fin 2, ∑ c : Fin (m + 1) → Fin 2,
      mag (s.nampM J (m + 1) e.p (fun i => rc (r i) (c i)) - if r = c then 1 else 0) ≤ 60 * τ * ((m : R) + 1)

/-- The inner product of the vectors of two nodes. -/
def JState.innN (J : JCfg R) (s : JState R) (l : Nat) (a b : Option Nat) : Cx R :=
  ∑ d : Fin l → Fin 2, (s.namp J l a d).conj * s.namp J l b d

/-- An entry of the cache of `innerProduct`. -/
def InnOk (J : JCfg R) (τ : R) (s : JState R) (k : CKey R × CArg R) : Prop :=
  ∃ (l : Nat) (a b : Option Nat) (z : Cx R), k = (JState.innKey a b, .val .v ⟨none, z⟩) ∧ s.NodeOk l a ∧ s.NodeOk l b ∧
    ∀ B, 0 ≤ B → 1000 * ((l : R) + 1) * (1 + B) * τ ≤ 1 → s.NormLe J B l a → s.NormLe J B l b →
      mag (z - s.innN J l a b) ≤ 40 * τ * l * (1 + B) * (vnorm (s.namp J l a) * vnorm (s.namp J l b))

/-- The successors of a vector node: well-formed, with bounded weights whose norm is not far below one. -/
def JState.KidsV (J : JCfg R) (τ : R) (s : JState R) (a : Nat) : Prop :=
  (∀ i, s.ValidV J ((s.tab .v).tab.mem a).v (((s.tab .v).tab.mem a).e i) ∧
    mag (s.ct.cval J.C (((s.tab .v).tab.mem a).e i).w) ≤ kidW τ) ∧
  1 ≤ HasSqrt.sqrt ((s.ct.cval J.C (((s.tab .v).tab.mem a).e (0 : Fin 2)).w).mag2 +
    (s.ct.cval J.C (((s.tab .v).tab.mem a).e (1 : Fin 2)).w).mag2) + 6 * τ

/-- The invariant. -/
structure TInv (J : JCfg R) (τ : R) (s : JState R) : Prop where
  rnd : J.Rounds τ
  reach : JReach J (· = τ) s
  kidsV : ∀ a ∈ (s.tab .v).tab.all, s.KidsV J τ a
  kidsM : ∀ a ∈ (s.tab .m).tab.all, ∀ i, s.KnM J τ ((s.tab .m).tab.mem a).v (((s.tab .m).tab.mem a).e i)
  cache : ∀ i k, (s.cache .vectorAdd).slot i = some k → AddOk J τ s k
  tr : ∀ i k, (s.cache .matrixTranspose).slot i = some k → TrOk τ s k
  mul : ∀ i k, (s.cache .matrixVectorMultiplication).slot i = some k → MulOk J τ s k
  ident : ∀ i k, (s.cache .idTable).slot i = some k → IdOk J τ s k
  inn : ∀ i k, (s.cache .vectorInnerProduct).slot i = some k → InnOk J τ s k

theorem TInv.kids (h : TInv J τ s) : ∀ a ∈ (s.tab .v).tab.all, ∀ i,
    s.ValidV J ((s.tab .v).tab.mem a).v (((s.tab .v).tab.mem a).e i) ∧
    mag (s.ct.cval J.C (((s.tab .v).tab.mem a).e i).w) ≤ kidW τ := fun a ha => (h.kidsV a ha).1

section
omit [HasSqrt R]

theorem JState.ValidV.live {l : Nat} {e : PtrEdge} (h : s.ValidV J l e) : s.ct.LiveC J.C e.w := ⟨h.1, h.2.1⟩

theorem JState.ValidV.node {l : Nat} {e : PtrEdge} (h : s.ValidV J l e) : s.NodeOk l e.p := by
  obtain ⟨_, _, h⟩ := h
  unfold JState.NodeOk
  cases hp : e.p with
  | none => trivial
  | some a => rw [hp] at h; exact h

theorem JState.ValidV.none {l : Nat} {e : PtrEdge} (h : s.ValidV J l e) (hp : e.p = none) : l = 0 ∨ e.w = CNum.zero := by
  obtain ⟨_, _, h⟩ := h
  rw [hp] at h; exact h

theorem JState.ValidV.intro {l : Nat} {e : PtrEdge} (h1 : s.ct.LiveC J.C e.w) (h2 : s.NodeOk l e.p)
    (h3 : e.p = Option.none → l = 0 ∨ e.w = CNum.zero) : s.ValidV J l e := by
  refine ⟨h1.1, h1.2, ?_⟩
  cases hp : e.p with
  | none => exact h3 hp
  | some a => rw [hp] at h2; exact h2

theorem Grow.validV (h : Grow J s s') {l : Nat} {e : PtrEdge} (he : s.ValidV J l e) : s'.ValidV J l e :=
  JState.ValidV.intro (h.liveC (JState.ValidV.live he)) (h.nodeOk (JState.ValidV.node he)) (JState.ValidV.none he)

theorem CStep.tolEq {C : CCfg R} {t t' : CTab R} (hC : C.Good) (h : t.WF C) (ht : t.tol = τ) (hs : CStep C (· = τ) t t') :
    t'.tol = τ := by
  cases hs with
  | lookup v hv =>
    have o := CTab.lookup_spec hC h hv
    generalize t.lookup C v = r at o
    cases o with
    | hit same => exact same.tol.trans ht
    | miss link => exact link.tol.trans ht
  | incRef l hl => unfold CTab.incRef; split_ifs <;> exact ht
  | decRef l hl hd =>
    unfold CTab.decRef at hd
    split_ifs at hd <;> (simp only [Option.some.injEq] at hd; subst hd; exact ht)
  | garbageCollect force =>
    by_cases hrun : ((!force && decide (t.count < t.gcLimit)) || decide (t.count ≤ 1)) = true
    · rw [CTab.gc_skip hrun]; exact ht
    · exact (CTab.gc_run_spec hC.nb h hrun).tol.trans ht
  | clear => exact ht
  | setTolerance σ hσ => exact hσ

theorem CReach.tolEq {C : CCfg R} {t : CTab R} (hC : C.Good) (hτ : 0 ≤ τ) (hr : CReach C (· = τ) t) : t.tol = τ := by
  induction hr with
  | create σ h =>
    subst h
    have o := CTab.lookup_spec hC (CTab.init_wf hC (τ := σ) hτ) (v := 1 / 2) (by positivity)
    unfold CTab.create
    generalize CTab.lookup C (CTab.init C σ) (1 / 2) = r at o
    cases o with
    | hit same => exact same.tol
    | miss link => exact link.tol
  | step hr hs ih => exact CStep.tolEq hC (hr.wf (by rintro _ rfl; exact hτ) hC) ih hs

/-- Below a node stored in both states everything is the same. -/
theorem namp_agree (hc : ∀ a ∈ (s.tab .v).tab.all, ∀ i, s.ValidV J ((s.tab .v).tab.mem a).v (((s.tab .v).tab.mem a).e i))
    (hc' : ∀ a ∈ (s'.tab .v).tab.all, ∀ i, s'.ValidV J ((s'.tab .v).tab.mem a).v (((s'.tab .v).tab.mem a).e i))
    (h : Agree J s s') : ∀ (l : Nat) (p : Option Nat) (d : Fin l → Fin 2), s.NodeOk l p → s'.NodeOk l p →
    s'.namp J l p d = s.namp J l p d := by
  intro l
  induction l with
  | zero => intro p d _ _; rfl
  | succ l ih =>
    intro p d hp hp'
    cases p with
    | none => rfl
    | some a =>
      have hn := h.node .v a hp.1 hp'.1
      have v1 := hc a hp.1 (d (Fin.last l))
      have v2 := hc' a hp'.1 (d (Fin.last l))
      have hl : ((s.tab .v).tab.mem a).v = l := by have := hp.2; omega
      have hl' : ((s'.tab .v).tab.mem a).v = l := by have := hp'.2; omega
      rw [hl] at v1
      rw [hl', hn.1] at v2
      show s'.ct.cval J.C (((s'.tab .v).tab.mem a).e (d (Fin.last l))).w * s'.namp J l _ _ = _
      rw [hn.1, h.cval (JState.ValidV.live v1) (JState.ValidV.live v2), ih _ _ (JState.ValidV.node v1) (JState.ValidV.node v2)]
      rfl


theorem Agree.nodeOk (h : Agree J s s') {l : Nat} {p : Option Nat} (hp : s.NodeOk l p)
    (hp' : ∀ a, p = some a → a ∈ (s'.tab .v).tab.all) : s'.NodeOk l p := by
  cases p with
  | none => trivial
  | some a => exact ⟨hp' a rfl, by rw [(h.node .v a hp.1 (hp' a rfl)).2]; exact hp.2⟩

theorem Agree.nodeM (h : Agree J s s') {l : Nat} {p : Option Nat} (hp : s.NodeM l p)
    (hp' : ∀ a, p = some a → a ∈ (s'.tab .m).tab.all) : s'.NodeM l p := by
  cases p with
  | none => trivial
  | some a => exact ⟨hp' a rfl, by rw [(h.node .m a hp.1 (hp' a rfl)).2]; exact hp.2⟩

theorem JState.KnM.node {l : Nat} {e : PtrEdge} (h : s.KnM J τ l e) : s.NodeM l e.p := by
  unfold JState.NodeM
  cases hp : e.p with
  | none => trivial
  | some a => exact h.2.1 a hp

/-- Below a matrix node stored in both states everything is the same. -/
theorem nampM_agree (hc : ∀ a ∈ (s.tab .m).tab.all, ∀ i, s.KnM J τ ((s.tab .m).tab.mem a).v (((s.tab .m).tab.mem a).e i))
    (hc' : ∀ a ∈ (s'.tab .m).tab.all, ∀ i, s'.KnM J τ ((s'.tab .m).tab.mem a).v (((s'.tab .m).tab.mem a).e i))
    (h : Agree J s s') : ∀ (l : Nat) (p : Option Nat) (d : Fin l → Fin 4), s.NodeM l p → s'.NodeM l p →
    s'.nampM J l p d = s.nampM J l p d := by
  intro l
  induction l with
  | zero => intro p d _ _; rfl
  | succ l ih =>
    intro p d hp hp'
    cases p with
    | none => rfl
    | some a =>
      have hn := h.node .m a hp.1 hp'.1
      have v1 := hc a hp.1 (d (Fin.last l))
      have v2 := hc' a hp'.1 (d (Fin.last l))
      have hl : ((s.tab .m).tab.mem a).v = l := by have := hp.2; omega
      have hl' : ((s'.tab .m).tab.mem a).v = l := by have := hp'.2; omega
      rw [hl] at v1
      rw [hl', hn.1] at v2
      show s'.ct.cval J.C (((s'.tab .m).tab.mem a).e (d (Fin.last l))).w * s'.nampM J l _ _ = _
      rw [hn.1]
      exact congrArg₂ (· * ·) (h.cval v1.1 v2.1) (ih _ _ v1.node v2.node)

theorem SameVal.value {C : CCfg R} {t t' : CTab R} (h : CTab.SameVal t t') (l : Loc) : t'.value C l = t.value C l := by
  cases l <;> simp [CTab.value, h.val]

theorem incRefC_sv {C : CCfg R} {t : CTab R} (c : CNum Loc) : CTab.SameVal t (t.incRefC C c) := by
  unfold CTab.incRefC
  split_ifs
  · exact (CTab.incRef_sv _).trans (CTab.incRef_sv _)
  · exact .rfl'

theorem incRefL_sv {C : CCfg R} (L : List (CNum Loc)) : ∀ t : CTab R, CTab.SameVal t (t.incRefL C L) := by
  induction L with
  | nil => intro t; exact .rfl'
  | cons c L ih => intro t; exact (incRefC_sv c).trans (ih _)

theorem decRefC_sv {C : CCfg R} {t t' : CTab R} {c : CNum Loc} (h : t.decRefC C c = some t') : CTab.SameVal t t' := by
  unfold CTab.decRefC at h
  split_ifs at h
  · obtain ⟨u, h1, h2⟩ := Option.bind_eq_some_iff.1 h
    exact (CTab.decRef_sv h1).trans (CTab.decRef_sv h2)
  · simp only [Option.some.injEq] at h; subst h; exact .rfl'

theorem decRefL_sv {C : CCfg R} (L : List (CNum Loc)) : ∀ {t t' : CTab R}, t.decRefL C L = some t' → CTab.SameVal t t' := by
  induction L with
  | nil => intro t t' h; simp only [CTab.decRefL, Option.some.injEq] at h; subst h; exact .rfl'
  | cons c L ih =>
    intro t t' h
    obtain ⟨u, h1, h2⟩ := Option.bind_eq_some_iff.1 h
    exact (decRefC_sv h1).trans (ih h2)

/-- The tables of vectors are the same, and so are the numbers. -/
theorem Agree.of_eq (h1 : ∀ k a, ((s'.tab k).tab.mem a).e = ((s.tab k).tab.mem a).e ∧ ((s'.tab k).tab.mem a).v = ((s.tab k).tab.mem a).v)
    (h2 : ∀ l, s'.ct.value J.C l = s.ct.value J.C l) : Agree J s s' := ⟨fun k a _ _ => h1 k a, fun l _ _ => h2 l⟩

/-- No step changes what stays. -/
theorem JStep.agree (hJ : J.Good) {tols : R → Prop} (htol : ∀ τ, tols τ → 0 ≤ τ) {pin : Option Nat} (h : JInv J tols pin s)
    (hs : JStep J tols s s') : Agree J s s' := by
  have hw := h.ct.wf htol hJ.C
  cases hs with
  | lookup v hv =>
    refine ⟨fun _ _ _ _ => ⟨rfl, rfl⟩, fun l hl _ => ?_⟩
    exact (CTab.lookup_keeps hJ.C hw hv hl).2.1
  | setTolerance τ hτ => exact .of_eq (fun _ _ => ⟨rfl, rfl⟩) (fun l => by cases l <;> rfl)
  | mk k v es ident symm hv hes hk =>
    refine ⟨fun j a ha _ => ?_, fun _ _ _ => rfl⟩
    by_cases hkv : j = k
    · subst hkv
      dsimp only
      rw [Function.update_self]
      obtain ⟨_, _, _, hm, _⟩ := mkNodeBy_spec (sameEdges_refl J s) hJ.U.growth ((h.tab j).inv hJ.U).uwf v es ident symm hv
      dsimp only
      rw [hm a ha]
      exact ⟨rfl, rfl⟩
    · dsimp only
      rw [Function.update_of_ne hkv]
      exact ⟨rfl, rfl⟩
  | take k =>
    refine .of_eq (fun j a => ?_) (fun _ => rfl)
    by_cases hkv : j = k
    · subst hkv
      dsimp only
      rw [Function.update_self]
      obtain ⟨_, _, _, _, _, _, _, hmem, _⟩ := getNode_spec hJ.U.growth ((h.tab j).inv hJ.U).uwf
      dsimp only
      rw [hmem]; exact ⟨rfl, rfl⟩
    · dsimp only
      rw [Function.update_of_ne hkv]
      exact ⟨rfl, rfl⟩
  | takeBack k =>
    refine .of_eq (fun j a => ?_) (fun _ => rfl)
    by_cases hkv : j = k
    · subst hkv
      dsimp only
      rw [Function.update_self]
      obtain ⟨_, _, _, _, _, _, _, hmem, _⟩ := getNode_spec hJ.U.growth ((h.tab j).inv hJ.U).uwf
      show (((s.tab j).tab.getNode J.U).1.mem a).e = _ ∧ (((s.tab j).tab.getNode J.U).1.mem a).v = _
      rw [hmem]; exact ⟨rfl, rfl⟩
    · dsimp only
      rw [Function.update_of_ne hkv]
      exact ⟨rfl, rfl⟩
  | mark k b ident symm =>
    refine .of_eq (fun j a => ?_) (fun _ => rfl)
    by_cases hkv : j = k
    · subst hkv
      dsimp only
      rw [Function.update_self]
      have := mark_mem (s.tab j).tab b ident symm a
      exact ⟨this.1, this.2.1⟩
    · dsimp only
      rw [Function.update_of_ne hkv]
      exact ⟨rfl, rfl⟩
  | incRef k e he =>
    refine .of_eq (fun j a => ?_) (fun l => SameVal.value (incRefL_sv _ _) l)
    by_cases hkv : j = k
    · subst hkv
      dsimp only
      rw [Function.update_self]
      have sp : IncSpec J.U (s.tab j).tab e ((s.tab j).tab.incRef J.U e).1 ((s.tab j).tab.incRef J.U e).2 := by
        apply incRefF_spec J.U _ _ _ ((h.tab j).inv hJ.U).closed
        intro b hb
        exact ⟨(known_ptr.1 he).2 b hb, by simp [UTable.lvl, hb]⟩
      exact ⟨sp.shape.e a, sp.shape.v a⟩
    · dsimp only
      rw [Function.update_of_ne hkv]
      exact ⟨rfl, rfl⟩
  | decRef k e he r hr t ht =>
    refine .of_eq (fun j a => ?_) (fun l => SameVal.value (decRefL_sv _ ht) l)
    by_cases hkv : j = k
    · subst hkv
      dsimp only
      rw [Function.update_self]
      obtain ⟨r', hr', sp⟩ := ((h.tab j).inv hJ.U).dec_exists hJ.U he
      rw [hr] at hr'
      simp only [Option.some.injEq] at hr'
      subst hr'
      exact ⟨sp.shape.e a, sp.shape.v a⟩
    · dsimp only
      rw [Function.update_of_ne hkv]
      exact ⟨rfl, rfl⟩
  | incNum c hr hi => exact .of_eq (fun _ _ => ⟨rfl, rfl⟩) (fun l => SameVal.value (incRefC_sv _) l)
  | decNum c hc t ht => exact .of_eq (fun _ _ => ⟨rfl, rfl⟩) (fun l => SameVal.value (decRefC_sv ht) l)
  | insert c key r hk hres hkey hr hid => exact .of_eq (fun _ _ => ⟨rfl, rfl⟩) (fun l => rfl)
  | garbageCollect force =>
    unfold JState.garbageCollect
    split_ifs
    · exact .of_eq (fun _ _ => ⟨rfl, rfl⟩) (fun l => rfl)
    · obtain ⟨g1, _, g3⟩ := gcNodes_rest (J := J) (s := { s with ct := (s.ct.garbageCollect J.C force).1 })
        (if 0 < (s.ct.garbageCollect J.C force).2 then true else force) (s.ct.garbageCollect J.C force).2
      dsimp only
      refine .of_eq (fun j a => ?_) (fun l => ?_)
      · rw [g3]
        dsimp only
        rw [gc_mem]
        exact ⟨rfl, rfl⟩
      · rw [g1]
        cases l with
        | cell a =>
          show (s.ct.garbageCollect J.C force).1.val a = s.ct.val a
          rw [(cgc_facts hJ.C hw force).2.1]
        | _ => rfl
  | resize nq hn => exact .of_eq (fun _ _ => ⟨rfl, rfl⟩) (fun l => rfl)
  | clearComputeTables => exact .of_eq (fun _ _ => ⟨rfl, rfl⟩) (fun l => rfl)
  | reset =>
    refine ⟨fun k a _ ha => ?_, fun l _ hl => ?_⟩
    · have : a ∈ ((s.tab k).tab.clear J.U).all := ha
      rw [uclear_all] at this
      simp at this
    · cases l with
      | cell a =>
        have hl' : a ∈ (s.ct.clear J.C).stored J.C := hl
        obtain ⟨k, hk⟩ := ((CTab.clear_wf hJ.C hw).mem_stored hJ.C.nb).1 hl'
        rw [CTab.clear_bucket hJ.C.nb hw] at hk
        simp at hk
      | _ => rfl

end


theorem zero_tol {τ : R} (hτ : 0 ≤ τ) : ∀ σ, σ = τ → 0 ≤ σ := by rintro _ rfl; exact hτ

theorem TInv.tol (hJ : J.Good) (hτ : 0 ≤ τ) (h : TInv J τ s) : s.ct.tol = τ := by
  obtain ⟨pin, hi⟩ := h.reach.inv hJ (zero_tol hτ)
  exact CReach.tolEq hJ.C hτ hi.ct

theorem TInv.valid (h : TInv J τ s) : ∀ a ∈ (s.tab .v).tab.all, ∀ i,
    s.ValidV J ((s.tab .v).tab.mem a).v (((s.tab .v).tab.mem a).e i) := fun a ha i => (h.kids a ha i).1

/-- Entries of the cache of `add` refer to stored nodes. -/
theorem cache_known (hJ : J.Good) (hτ : 0 ≤ τ) (h : JReach J (· = τ) s) {i : Nat} {x y r : ValEdge R}
    (he : (s.cache .vectorAdd).slot i = some (JState.addKey x y, .val .v r)) :
    (∀ a, x.p = some a → a ∈ (s.tab .v).tab.all) ∧ (∀ a, y.p = some a → a ∈ (s.tab .v).tab.all) ∧
    (∀ a, r.p = some a → a ∈ (s.tab .v).tab.all) := by
  obtain ⟨pin, hi⟩ := h.inv hJ (zero_tol hτ)
  obtain ⟨_, _, h3, h4, _⟩ := hi.cache _ i _ _ he
  refine ⟨fun a ha => ?_, fun a ha => ?_, fun a ha => ?_⟩
  · exact h3 (.val .v x) (by simp [JState.addKey]) (.node .v a) (by simp [CArg.refs, nodeRefs, ha])
  · exact h3 (.val .v y) (by simp [JState.addKey]) (.node .v a) (by simp [CArg.refs, nodeRefs, ha])
  · exact h4 .v a (by simp [CArg.refs, nodeRefs, ha])

/-- Entries of the cache of `multiply` refer to stored nodes. -/
theorem cache_knownM (hJ : J.Good) (hτ : 0 ≤ τ) (h : JReach J (· = τ) s) {i : Nat} {a b : Option Nat} {r : ValEdge R}
    (he : (s.cache .matrixVectorMultiplication).slot i = some (JState.mulKey a b, .val .v r)) :
    (∀ c, a = some c → c ∈ (s.tab .m).tab.all) ∧ (∀ c, b = some c → c ∈ (s.tab .v).tab.all) ∧
    (∀ c, r.p = some c → c ∈ (s.tab .v).tab.all) := by
  obtain ⟨pin, hi⟩ := h.inv hJ (zero_tol hτ)
  obtain ⟨_, _, h3, h4, _⟩ := hi.cache _ i _ _ he
  refine ⟨fun c hc => ?_, fun c hc => ?_, fun c hc => ?_⟩
  · exact h3 (.ptr .m ⟨a, CNum.one⟩) (by simp [JState.mulKey]) (.node .m c) (by simp [CArg.refs, ptrRefs, nodeRefs, hc])
  · exact h3 (.ptr .v ⟨b, CNum.one⟩) (by simp [JState.mulKey]) (.node .v c) (by simp [CArg.refs, ptrRefs, nodeRefs, hc])
  · exact h4 .v c (by simp [CArg.refs, nodeRefs, hc])

/-- The norms of nodes stored in both states. -/
theorem normLe_agree (hc : ∀ a ∈ (s.tab .v).tab.all, ∀ i, s.ValidV J ((s.tab .v).tab.mem a).v (((s.tab .v).tab.mem a).e i))
    (hc' : ∀ a ∈ (s'.tab .v).tab.all, ∀ i, s'.ValidV J ((s'.tab .v).tab.mem a).v (((s'.tab .v).tab.mem a).e i))
    (h : Agree J s s') {B : R} : ∀ (l : Nat) (p : Option Nat), s.NodeOk l p → s'.NodeOk l p → s'.NormLe J B l p → s.NormLe J B l p := by
  intro l
  induction l with
  | zero => intro p _ _ _; trivial
  | succ l ih =>
    intro p hp hp' hn'
    cases p with
    | none => trivial
    | some a =>
      have hn := h.node .v a hp.1 hp'.1
      refine ⟨?_, fun i => ?_⟩
      · have e : s'.vecJ J (l + 1) ⟨some a, CNum.one⟩ = s.vecJ J (l + 1) ⟨some a, CNum.one⟩ := by
          funext d
          rw [vecJ_eq, vecJ_eq]
          dsimp only
          rw [namp_agree hc hc' h (l + 1) (some a) d hp hp']
          rfl
        rw [← e]; exact hn'.1
      · have v1 := hc a hp.1 i
        have v2 := hc' a hp'.1 i
        have hl : ((s.tab .v).tab.mem a).v = l := by have := hp.2; omega
        have hl' : ((s'.tab .v).tab.mem a).v = l := by have := hp'.2; omega
        rw [hl] at v1
        rw [hl', hn.1] at v2
        have := hn'.2 i
        rw [hn.1] at this
        exact ih _ v1.node v2.node this

/-- The weights of nodes stored in both states. -/
theorem rowCol_agree (hc : ∀ a ∈ (s.tab .m).tab.all, ∀ i, s.KnM J τ ((s.tab .m).tab.mem a).v (((s.tab .m).tab.mem a).e i))
    (hc' : ∀ a ∈ (s'.tab .m).tab.all, ∀ i, s'.KnM J τ ((s'.tab .m).tab.mem a).v (((s'.tab .m).tab.mem a).e i))
    (h : Agree J s s') {K : Nat → R} : ∀ (l : Nat) (p : Option Nat), s.NodeM l p → s'.NodeM l p → s'.RowCol J K l p →
    s.RowCol J K l p := by
  intro l
  induction l with
  | zero => intro p _ _ _; trivial
  | succ l ih =>
    intro p hp hp' hn'
    cases p with
    | none => trivial
    | some a =>
      have hn := h.node .m a hp.1 hp'.1
      have hl : ((s.tab .m).tab.mem a).v = l := by have := hp.2; omega
      have hl' : ((s'.tab .m).tab.mem a).v = l := by have := hp'.2; omega
      have e : ∀ i : Fin 4, s'.ct.cval J.C (((s'.tab .m).tab.mem a).e i).w = s.ct.cval J.C (((s.tab .m).tab.mem a).e i).w := by
        intro i
        have v1 := hc a hp.1 i
        have v2 := hc' a hp'.1 i
        rw [hn.1] at v2 ⊢
        exact h.cval v1.1 v2.1
      refine ⟨fun i => ?_, fun i => ?_⟩
      · have := hn'.1 i
        rw [e, e, e, e] at this
        exact this
      · have v1 := hc a hp.1 i
        have v2 := hc' a hp'.1 i
        rw [hl] at v1
        rw [hl', hn.1] at v2
        have := hn'.2 i
        rw [hn.1] at this
        exact ih _ v1.node v2.node this

/-- Transfer of the invariant: all nodes that are not new, and all entries of the cache, were there before. -/
theorem TInv.keep (hJ : J.Good) (hτ : 0 ≤ τ) (h : TInv J τ s) (hr : JReach J (· = τ) s') (ha : Agree J s s')
    (hk : ∀ a ∈ (s'.tab .v).tab.all, a ∈ (s.tab .v).tab.all ∨ s'.KidsV J τ a)
    (hm : ∀ a ∈ (s'.tab .m).tab.all, a ∈ (s.tab .m).tab.all ∨
      ∀ i, s'.KnM J τ ((s'.tab .m).tab.mem a).v (((s'.tab .m).tab.mem a).e i))
    (hc : ∀ i k, (s'.cache .vectorAdd).slot i = some k → (s.cache .vectorAdd).slot i = some k ∨ AddOk J τ s' k)
    (hc' : ∀ i k, (s'.cache .matrixTranspose).slot i = some k → (s.cache .matrixTranspose).slot i = some k ∨ TrOk τ s' k)
    (hc'' : ∀ i k, (s'.cache .matrixVectorMultiplication).slot i = some k →
      (s.cache .matrixVectorMultiplication).slot i = some k ∨ MulOk J τ s' k)
    (hid : ∀ i k, (s'.cache .idTable).slot i = some k → (s.cache .idTable).slot i = some k ∨ IdOk J τ s' k)
    (hin : ∀ i k, (s'.cache .vectorInnerProduct).slot i = some k → (s.cache .vectorInnerProduct).slot i = some k ∨ InnOk J τ s' k := by
      exact fun i k hs => Or.inl hs) :
    TInv J τ s' := by
  obtain ⟨pin, hi⟩ := hr.inv hJ (zero_tol hτ)
  have kidsV : ∀ a ∈ (s'.tab .v).tab.all, s'.KidsV J τ a := by
    intro a ha'
    rcases hk a ha' with h1 | h1
    · have hn := ha.node .v a h1 ha'
      have ev : ∀ i : Fin 2, s'.ct.cval J.C (((s.tab .v).tab.mem a).e i).w = s.ct.cval J.C (((s.tab .v).tab.mem a).e i).w := by
        intro i
        have hl := hi.nodes .v a ha' i
        rw [hn.1] at hl
        exact ha.cval (h.kids a h1 i).1.live hl
      refine ⟨fun i => ?_, ?_⟩
      · have hl := hi.nodes .v a ha' i
        have hcl := (((hi.tab .v).inv hJ.U).closed a ha' i)
        obtain ⟨v1, v2⟩ := h.kids a h1 i
        rw [hn.1, hn.2] at *
        refine ⟨JState.ValidV.intro hl ?_ v1.none, ?_⟩
        · exact ha.nodeOk v1.node (fun b hb => (hcl b hb).1)
        · exact (congrArg mag (ev i)).trans_le v2
      · rw [hn.1, ev, ev]
        exact (h.kidsV a h1).2
    · exact h1
  have kidsM : ∀ a ∈ (s'.tab .m).tab.all, ∀ i, s'.KnM J τ ((s'.tab .m).tab.mem a).v (((s'.tab .m).tab.mem a).e i) := by
    intro a ha'
    rcases hm a ha' with h1 | h1
    · intro i
      have hn := ha.node .m a h1 ha'
      have hl := hi.nodes .m a ha' i
      have hcl := (((hi.tab .m).inv hJ.U).closed a ha' i)
      obtain ⟨v1, v2, v3⟩ := h.kidsM a h1 i
      rw [hn.1, hn.2] at *
      refine ⟨hl, fun b hb => ?_, v3⟩
      obtain ⟨b1, b2⟩ := v2 b hb
      have hb' := (hcl b hb).1
      exact ⟨hb', by rw [(ha.node .m b b1 hb').2]; exact b2⟩
    · exact h1
  have valid' : ∀ a ∈ (s'.tab .v).tab.all, ∀ i, s'.ValidV J ((s'.tab .v).tab.mem a).v (((s'.tab .v).tab.mem a).e i) :=
    fun a ha i => ((kidsV a ha).1 i).1
  refine ⟨h.rnd, hr, kidsV, kidsM, fun i k hs => ?_, fun i k hs => ?_, fun i k hs => ?_, fun i k hs => ?_, fun i k hs => ?_⟩
  · rcases hc i k hs with h1 | h1
    · obtain ⟨l, x, y, r, rfl, hx, hy, hr', hz, hU, hF⟩ := h.cache i k h1
      obtain ⟨k1, k2, k3⟩ := cache_known hJ hτ hr hs
      have e := fun d p hp hp' => namp_agree h.valid valid' ha l p d hp hp'
      have e' : ∀ z : ValEdge R, s.NodeOk l z.p → s'.NodeOk l z.p → s'.evec J l z = s.evec J l z := by
        intro z hz hz'
        funext d
        unfold JState.evec
        rw [e d _ hz hz']
      refine ⟨l, x, y, r, rfl, ha.nodeOk hx k1, ha.nodeOk hy k2, ha.nodeOk hr' k3, hz, fun U h1 h2 h3 => ⟨(hU U h1 h2 h3).1, fun d => ?_⟩,
        ?_⟩
      · rw [e d _ hx (ha.nodeOk hx k1), e d _ hy (ha.nodeOk hy k2), e d _ hr' (ha.nodeOk hr' k3)]
        exact (hU U h1 h2 h3).2 d
      · rw [e' _ hx (ha.nodeOk hx k1), e' _ hy (ha.nodeOk hy k2), e' _ hr' (ha.nodeOk hr' k3)]
        exact hF
    · exact h1
  · rcases hc' i k hs with h1 | h1
    · obtain ⟨a, r, c, rfl, hac, mc, hb, hz⟩ := h.tr i k h1
      obtain ⟨_, _, h3, h4, _⟩ := hi.cache _ i _ _ hs
      have mc' := h3 (.ptr .m a) (by simp) (.node .m c) (by simp [CArg.refs, ptrRefs, nodeRefs, hac])
      refine ⟨a, r, c, rfl, hac, mc', fun b hr => ?_, hz⟩
      obtain ⟨mb, hv⟩ := hb b hr
      have mb' := h4 .m b (by simp [CArg.refs, ptrRefs, nodeRefs, hr])
      refine ⟨mb', ?_⟩
      rw [(ha.node .m b mb mb').2, (ha.node .m c mc mc').2]
      exact hv
    · exact h1
  · rcases hc'' i k hs with h1 | h1
    · obtain ⟨l, a, b, r, rfl, hA, hB, hr', hz, hF⟩ := h.mul i k h1
      obtain ⟨k1, k2, k3⟩ := cache_knownM hJ hτ hr hs
      have oA := ha.nodeM hA k1
      have oB := ha.nodeOk hB k2
      have oR := ha.nodeOk hr' k3
      refine ⟨l, a, b, r, rfl, oA, oB, oR, hz, fun hsm K B hK hB0 hrc hnl d => ?_⟩
      have := hF hsm K B hK hB0 (rowCol_agree h.kidsM kidsM ha l a hA oA hrc) (normLe_agree h.valid valid' ha l b hB oB hnl) d
      have e1 : s'.evec J l r d = s.evec J l r d := by
        unfold JState.evec; rw [namp_agree h.valid valid' ha l _ d hr' oR]
      have e2 : s'.prodV J l a b d = s.prodV J l a b d := by
        unfold JState.prodV
        refine Finset.sum_congr rfl (fun c _ => ?_)
        rw [namp_agree h.valid valid' ha l _ c hB oB, nampM_agree h.kidsM kidsM ha l _ _ hA oA]
      rw [e1, e2]
      exact this
    · exact h1
  · rcases hid i k hs with h1 | h1
    · obtain ⟨m, e, rfl, hw, hk1, hF1, hF2⟩ := h.ident i k h1
      obtain ⟨_, _, _, h4, h5, _⟩ := hi.cache _ i _ _ hs
      have kn := known_ptr.1 (h5 (by simp))
      have oA := ha.nodeM hk1.node kn.2
      refine ⟨m, e, rfl, hw, ⟨kn.1, fun b hb => ?_, hk1.2.2⟩, ?_, fun r => ?_⟩
      · rw [hb] at oA; exact oA
      · exact rowCol_agree kidsM h.kidsM ha.symm _ _ oA hk1.node hF1
      · refine (Finset.sum_congr rfl (fun c _ => ?_)).trans_le (hF2 r)
        rw [nampM_agree h.kidsM kidsM ha _ _ _ hk1.node oA]
    · exact h1
  · rcases hin i k hs with h1 | h1
    · obtain ⟨l, a, b, z, rfl, hA, hB, hF⟩ := h.inn i k h1
      obtain ⟨_, _, h3, _⟩ := hi.cache _ i _ _ hs
      have oA := ha.nodeOk hA (fun c hc => h3 (.ptr .v ⟨a, CNum.one⟩) (by simp [JState.innKey]) (.node .v c)
        (by simp [CArg.refs, ptrRefs, nodeRefs, hc]))
      have oB := ha.nodeOk hB (fun c hc => h3 (.ptr .v ⟨b, CNum.one⟩) (by simp [JState.innKey]) (.node .v c)
        (by simp [CArg.refs, ptrRefs, nodeRefs, hc]))
      refine ⟨l, a, b, z, rfl, oA, oB, fun B hB0 hsm h1 h2 => ?_⟩
      have := hF B hB0 hsm (normLe_agree h.valid valid' ha l a hA oA h1) (normLe_agree h.valid valid' ha l b hB oB h2)
      have e1 : s'.namp J l a = s.namp J l a := funext fun d => namp_agree h.valid valid' ha l _ d hA oA
      have e2 : s'.namp J l b = s.namp J l b := funext fun d => namp_agree h.valid valid' ha l _ d hB oB
      have e3 : s'.innN J l a b = s.innN J l a b := by unfold JState.innN; rw [e1, e2]
      rw [e1, e2, e3]
      exact this
    · exact h1

theorem Grow.namp (h : TInv J τ s) (h' : TInv J τ s') (g : Grow J s s') {l : Nat} {p : Option Nat} (d : Fin l → Fin 2)
    (hp : s.NodeOk l p) : s'.namp J l p d = s.namp J l p d :=
  namp_agree h.valid h'.valid g.rel l p d hp (g.nodeOk hp)

section
variable [LawfulSqrt R]

theorem TInv.ok (hJ : J.Good) (hτ : 0 ≤ τ) (h : TInv J τ s) : RndOk J.fl s.ct.tol := by
  rw [h.tol hJ hτ]; exact h.rnd.ok

theorem kidW_one (hτ : 0 ≤ τ) : 1 ≤ kidW τ := by unfold kidW; linarith

theorem kidW_pow (hτ : 0 ≤ τ) (l : Nat) : 1 ≤ kidW τ ^ l := one_le_pow₀ (kidW_one hτ)

theorem kidW_le (hτ : 0 ≤ τ) : kidW τ ≤ kidBound τ := by unfold kidW kidBound; linarith

theorem kidW_rho (hτ : 0 ≤ τ) : kidW τ * rho τ * rho τ ≤ kidBound τ := by
  have h0 := rho_one hτ
  have h1 := rho_le τ
  have h2 := rho_le' τ
  have h3 : rho τ * rho τ ≤ 1 + 51 / 25 * (τ / 25) := by nlinarith
  have h4 : rho τ * rho τ ≤ 26 / 25 * (26 / 25) := by nlinarith
  unfold kidW kidBound
  nlinarith

theorem kidW_rho' (hτ : 0 ≤ τ) : kidW τ * rho τ ≤ kidBound τ := by
  have := kidW_rho hτ
  have h0 := rho_one hτ
  have h1 := kidW_one hτ
  nlinarith [mul_nonneg (sub_nonneg.2 h0) (mul_nonneg (by linarith : 0 ≤ kidW τ) (by linarith : 0 ≤ rho τ))]

theorem kidBound_one (hτ : 0 ≤ τ) : 1 ≤ kidBound τ := by unfold kidBound; linarith

theorem kidBound_pow (hτ : 0 ≤ τ) (l : Nat) : 1 ≤ kidBound τ ^ l := one_le_pow₀ (kidBound_one hτ)

/-- The product of the weights below a node. -/
theorem namp_bound' (hτ : 0 ≤ τ) (h : TInv J τ s) : ∀ (l : Nat) (p : Option Nat) (d : Fin l → Fin 2), s.NodeOk l p →
    mag (s.namp J l p d) ≤ kidW τ ^ l := by
  intro l
  induction l with
  | zero => intro p d _; show mag (1 : Cx R) ≤ _; rw [mag_one, pow_zero]
  | succ l ih =>
    intro p d hp
    cases p with
    | none => show mag (1 : Cx R) ≤ _; rw [mag_one]; exact kidW_pow hτ _
    | some a =>
      obtain ⟨v1, v2⟩ := h.kids a hp.1 (d (Fin.last l))
      have hl : ((s.tab .v).tab.mem a).v = l := by have := hp.2; omega
      rw [hl] at v1
      have := mag_mono_mul v2 (ih _ (Fin.init d) v1.node)
      rw [pow_succ']
      exact this

theorem namp_bound (hτ : 0 ≤ τ) (h : TInv J τ s) (l : Nat) (p : Option Nat) (d : Fin l → Fin 2) (hp : s.NodeOk l p) :
    mag (s.namp J l p d) ≤ kidBound τ ^ l :=
  (namp_bound' hτ h l p d hp).trans (pow_le_pow_left₀ (by linarith [kidW_one hτ]) (kidW_le hτ) l)

/-- Looking up a number. -/
theorem lookup_grow (hJ : J.Good) (hτ : 0 ≤ τ) (h : TInv J τ s) {v : R} (hv : 0 ≤ v) :
    TInv J τ { s with ct := (s.ct.lookup J.C v).1 } ∧ Grow J s { s with ct := (s.ct.lookup J.C v).1 } ∧
    (s.ct.lookup J.C v).1.Live J.C (s.ct.lookup J.C v).2 ∧
    |(s.ct.lookup J.C v).1.value J.C (s.ct.lookup J.C v).2 - v| ≤ τ := by
  obtain ⟨pin, hi⟩ := h.reach.inv hJ (zero_tol hτ)
  have hst : JStep J (· = τ) s { s with ct := (s.ct.lookup J.C v).1 } := .lookup v hv
  have ha := hst.agree hJ (zero_tol hτ) hi
  have hw := hi.ct.wf (zero_tol hτ) hJ.C
  have acc := C01_lookup_accurate hJ.C (hi.ct.mono (zero_tol hτ)) hv
  dsimp only at acc
  rw [h.tol hJ hτ] at acc
  exact ⟨h.keep hJ hτ (h.reach.step hst) ha (fun a ha => Or.inl ha) (fun a ha => Or.inl ha) (fun i k hs => Or.inl hs)
      (fun i k hs => Or.inl hs) (fun i k hs => Or.inl hs) (fun i k hs => Or.inl hs),
    ⟨ha, fun _ a ha => ha, fun l hl => (CTab.lookup_keeps hJ.C hw hv hl).1, fun _ => rfl⟩, acc.1, acc.2⟩

theorem lookupSigned_grow (hJ : J.Good) (hτ : 0 ≤ τ) (h : TInv J τ s) (x : R) :
    TInv J τ { s with ct := (s.ct.lookupSigned J.C x).1 } ∧ Grow J s { s with ct := (s.ct.lookupSigned J.C x).1 } ∧
    (s.ct.lookupSigned J.C x).1.Live J.C (s.ct.lookupSigned J.C x).2.loc ∧
    |(s.ct.lookupSigned J.C x).2.val ((s.ct.lookupSigned J.C x).1.value J.C) - x| ≤ τ := by
  unfold CTab.lookupSigned
  split_ifs with h1 h2
  · refine ⟨h, .refl s, trivial, ?_⟩
    rw [h.tol hJ hτ] at h2
    show |(0 : R) - x| ≤ τ
    rw [zero_sub, abs_neg]; exact h2.le
  · obtain ⟨a1, a2, a3, a4⟩ := lookup_grow hJ hτ h (abs_nonneg x)
    refine ⟨a1, a2, a3, ?_⟩
    dsimp only
    show |-((s.ct.lookup J.C |x|).1.value J.C (s.ct.lookup J.C |x|).2) - x| ≤ τ
    generalize (s.ct.lookup J.C |x|).1.value J.C (s.ct.lookup J.C |x|).2 = y at a4
    rw [abs_of_neg h1] at a4
    rw [← abs_neg]
    convert a4 using 2
    ring
  · obtain ⟨a1, a2, a3, a4⟩ := lookup_grow hJ hτ h (not_lt.1 h1)
    exact ⟨a1, a2, a3, a4⟩

/-- Looking up a complex number. -/
theorem lookupC_grow' (hJ : J.Good) (hτ : 0 ≤ τ) (h : TInv J τ s) (z : Cx R) :
    TInv J τ (s.lookupC J z).1 ∧ Grow J s (s.lookupC J z).1 ∧ (s.lookupC J z).1.ct.LiveC J.C (s.lookupC J z).2 ∧
    mag ((s.lookupC J z).1.ct.cval J.C (s.lookupC J z).2 - z) ≤ 29 / 20 * τ := by
  obtain ⟨a1, a2, a3, a4⟩ := lookupSigned_grow hJ hτ h z.re
  obtain ⟨b1, b2, b3, b4⟩ := lookupSigned_grow hJ hτ a1 z.im
  refine ⟨b1, a2.trans b2, ⟨b2.live _ a3, b3⟩, mag_of_comp'' hτ ?_ b4⟩
  have : (s.ct.lookupSigned J.C z.re).2.val ((s.lookupC J z).1.ct.value J.C) =
      (s.ct.lookupSigned J.C z.re).2.val ((s.ct.lookupSigned J.C z.re).1.value J.C) := by
    unfold TPtr.val
    rw [show (s.lookupC J z).1.ct.value J.C _ = _ from b2.rel.num _ a3 (b2.live _ a3)]
  show |(s.ct.lookupSigned J.C z.re).2.val ((s.lookupC J z).1.ct.value J.C) - z.re| ≤ τ
  rw [this]; exact a4

theorem lookupC_grow (hJ : J.Good) (hτ : 0 ≤ τ) (h : TInv J τ s) (z : Cx R) :
    TInv J τ (s.lookupC J z).1 ∧ Grow J s (s.lookupC J z).1 ∧ (s.lookupC J z).1.ct.LiveC J.C (s.lookupC J z).2 ∧
    mag ((s.lookupC J z).1.ct.cval J.C (s.lookupC J z).2 - z) ≤ 3 / 2 * τ := by
  obtain ⟨a1, a2, a3, a4⟩ := lookupC_grow' hJ hτ h z
  exact ⟨a1, a2, a3, a4.trans (by linarith)⟩

/-- Fetching a cell. -/
theorem takeV_grow (hJ : J.Good) (hτ : 0 ≤ τ) (h : TInv J τ s) : TInv J τ (s.takeV J) ∧ Grow J s (s.takeV J) := by
  obtain ⟨pin, hi⟩ := h.reach.inv hJ (zero_tol hτ)
  have hst : JStep J (· = τ) s (s.takeV J) := .take .v
  have ha := hst.agree hJ (zero_tol hτ) hi
  obtain ⟨_, _, _, hall, _, hnv, _⟩ := getNode_spec hJ.U.growth ((hi.tab .v).inv hJ.U).uwf
  have ht : (s.takeV J).tab .v = { s.tab .v with tab := ((s.tab .v).tab.getNode J.U).1 } :=
    Function.update_self (β := fun k : NK => UHist (CNum Loc) k.ar) NK.v _ s.tab
  have hall' : ((s.takeV J).tab .v).tab.all = (s.tab .v).tab.all := by rw [ht]; exact hall
  refine ⟨h.keep hJ hτ (h.reach.step hst) ha (fun a ha => Or.inl (by rwa [hall'] at ha)) (fun a ha => Or.inl ha)
      (fun i k hs => Or.inl hs) (fun i k hs => Or.inl hs) (fun i k hs => Or.inl hs) (fun i k hs => Or.inl hs), .ofTab _ ha (fun a ha => by rw [hall]; exact ha) hnv⟩

/-- Making a node: the edges of the node found or made are close to those asked for. -/
theorem nodeV_grow (hJ : J.Good) (hτ : 0 ≤ τ) (h : TInv J τ s) {l : Nat} (hl : l < (s.tab .v).tab.nvars) {es : Fin 2 → PtrEdge}
    (hv : ∀ i, s.ValidV J l (es i)) (hw : ∀ i, mag (s.ct.cval J.C (es i).w) ≤ kidW τ)
    (hlow : 1 ≤ HasSqrt.sqrt ((s.ct.cval J.C (es 0).w).mag2 + (s.ct.cval J.C (es 1).w).mag2) + 6 * τ) :
    TInv J τ (s.nodeV J l es).1 ∧ Grow J s (s.nodeV J l es).1 ∧ (s.nodeV J l es).1.NodeOk (l + 1) (some (s.nodeV J l es).2) ∧
    ∀ i, ((((s.nodeV J l es).1.tab .v).tab.mem (s.nodeV J l es).2).e i).p = (es i).p ∧
      mag ((s.nodeV J l es).1.ct.cval J.C ((((s.nodeV J l es).1.tab .v).tab.mem (s.nodeV J l es).2).e i).w -
        s.ct.cval J.C (es i).w) ≤ 3 / 2 * τ := by
  obtain ⟨pin, hi⟩ := h.reach.inv hJ (zero_tol hτ)
  have hst : JStep J (· = τ) s (s.nodeV J l es).1 := by
    refine .mk .v l es false false hl (fun i b hb => ?_) (fun i => ?_)
    · have := (hv i).node
      rw [hb] at this
      exact ⟨this.1, by have := this.2; omega⟩
    · rw [known_ptr]
      refine ⟨(hv i).live, fun b hb => ?_⟩
      have := (hv i).node
      rw [hb] at this
      exact this.1
  have ha := hst.agree hJ (zero_tol hτ) hi
  have ht : (s.nodeV J l es).1.tab .v =
      { s.tab .v with tab := ((s.tab .v).tab.mkNodeBy (s.sameEdges J) (J.H .v) J.U l es false false).1 } :=
    Function.update_self (β := fun k : NK => UHist (CNum Loc) k.ar) NK.v _ s.tab
  obtain ⟨_, hnv, _, hm, _, _, _, hlv, hsame, hcase⟩ :=
    mkNodeBy_spec (sameEdges_refl J s) hJ.U.growth ((hi.tab .v).inv hJ.U).uwf l es false false hl
  set q := (s.nodeV J l es).2 with hq
  have hq' : ((s.tab .v).tab.mkNodeBy (s.sameEdges J) (J.H .v) J.U l es false false).2 = q := rfl
  rw [hq'] at hcase hlv hsame
  have hall : ∀ a ∈ (s.tab .v).tab.all,
      a ∈ ((s.tab .v).tab.mkNodeBy (s.sameEdges J) (J.H .v) J.U l es false false).1.all := by
    intro a ha
    rcases hcase with ⟨_, h2⟩ | ⟨_, h2, _⟩
    · rw [h2]; exact ha
    · exact h2.symm.mem_iff.1 (List.mem_cons_of_mem _ ha)
  have hqa : q ∈ ((s.nodeV J l es).1.tab .v).tab.all := by
    rw [ht]
    rcases hcase with ⟨h1, h2⟩ | ⟨_, h2, _⟩
    · dsimp only; rw [h2]; exact h1
    · exact h2.symm.mem_iff.1 List.mem_cons_self
  have g : Grow J s (s.nodeV J l es).1 := .ofTab _ ha hall hnv
  have hT : TInv J τ (s.nodeV J l es).1 := by
    refine h.keep hJ hτ (h.reach.step hst) ha (fun a ha' => ?_) (fun a ha => Or.inl ha) (fun i k hs => Or.inl hs)
      (fun i k hs => Or.inl hs) (fun i k hs => Or.inl hs) (fun i k hs => Or.inl hs)
    rw [ht] at ha'
    rcases hcase with ⟨_, h2⟩ | ⟨h1, h2, h3, _⟩
    · left; dsimp only at ha'; rwa [h2] at ha'
    · rcases List.mem_cons.1 (h2.mem_iff.1 ha') with h4 | h4
      · right
        subst h4
        unfold JState.KidsV
        rw [ht]
        dsimp only
        rw [h3]
        exact ⟨fun i => ⟨g.validV (hv i), hw i⟩, hlow⟩
      · exact Or.inl h4
  refine ⟨hT, g, ⟨hqa, by rw [ht]; dsimp only; rw [hlv]⟩, fun i => ?_⟩
  rw [ht]
  dsimp only
  unfold JState.sameEdges at hsame
  have hs := of_decide_eq_true hsame i
  refine ⟨hs.1, ?_⟩
  have hsw := hs.2
  unfold NumEnv.eqC at hsw
  rw [Bool.and_eq_true] at hsw
  have comp : ∀ p p' : TPtr Loc, (⟨.zero, .one, s.ct.tol⟩ : NumEnv Loc R).eqP (s.ct.value J.C) p p' = true →
      |p.val (s.ct.value J.C) - p'.val (s.ct.value J.C)| ≤ τ := by
    intro p p' hp
    unfold NumEnv.eqP NumEnv.eqV at hp
    simp only [Bool.or_eq_true, decide_eq_true_eq] at hp
    rw [h.tol hJ hτ] at hp
    rcases hp with rfl | hp | hp
    · rw [sub_self, abs_zero]; exact hτ
    · rw [hp, sub_self, abs_zero]; exact hτ
    · exact hp
  exact mag_of_comp' hτ (comp _ _ hsw.1) (comp _ _ hsw.2)

end

end DD
