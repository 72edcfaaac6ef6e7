import Verif.Proofs.ApproxCopyRoot
import Verif.Props.C74

/-!
# C83: copying diagrams with a tolerance

Serializing a vector and reading it back, and transferring it to another package, keep the moduli of the amplitudes up to a multiple of the tolerance. The phases
are kept for steady diagrams (CopySpec.lean). In general they are not: numbers are looked up again, and then another one of the two weights of a node may be the
one that `normalize` makes real.
-/

namespace DD

open Pkg

section copy

variable {R : Type} [Field R] [LinearOrder R] [IsStrictOrderedRing R] [FloorRing R] [HasSqrt R] [LawfulSqrt R]
variable {J : JCfg R} {τ δ : R} {o s : JState R}

/-- **C83, partial.** A vector of a reachable package is written, and reading it in another reachable package gives a copy whose amplitudes have the same
moduli up to the tolerance; for steady diagrams also their phases are the same. The other diagrams of that package stay as they are.
Missing: the phases in general, which are wrong (`C83_serialize_false`). -/
theorem C83_serialize_partial (hJ : J.Good) (hτ : 0 ≤ τ) (hR : J.Rounds τ) (hro : TReach J τ o) (hrs : TReach J τ s) (hty : o.Tidy J) (hd0 : 0 ≤ δ)
    (hδ : δ + 5 * τ ≤ 1 / 100) {n : Nat} (hn : n ≤ (s.tab .v).tab.nvars) (hz : 1000 * ((n : R) + 1) * τ ≤ 1) {e : PtrEdge} (hv : o.ValidV J n e)
    (hp : e.p ≠ none) (hw : o.ct.cval J.C e.w ≠ 0) (hs : o.SumsLe J δ n e.p) (binary : Bool) :
    ∃ recs s' e', SerializesV binary (o.tabV J .v) ⟨e.p, o.ct.cval J.C e.w⟩ recs ∧
      (∀ recs', SerializesV binary (o.tabV J .v) ⟨e.p, o.ct.cval J.C e.w⟩ recs' → recs' = recs) ∧
      s.deserialize J .v (o.ct.cval J.C e.w) recs = some (s', e') ∧ TReach J τ s' ∧ s.Keeps J s' ∧ CopyOk J τ δ o n e s' e' := by
  have ho := hro.inv hJ hR hτ
  have hi := hrs.inv hJ hR hτ
  obtain ⟨a, ha⟩ := Option.ne_none_iff_exists'.1 hp
  obtain ⟨N, hrun, hN, hsum⟩ := order_spec (g := true) ho hty hv ha hw (Or.inl rfl) hs
  obtain ⟨s1, nodes, r, e1, i1, g1, r1, -, hres⟩ := readLoop_spec hJ hτ ho hty hd0 hδ binary hi hz hn hN hsum
  obtain ⟨i2, g2, r2, v2, b2, c2⟩ := scale_spec hJ hτ ho i1 hd0 hδ hz hv ha (hres N a rfl)
  refine ⟨records binary (o.tabV J .v) (N ++ [a]), (s1.scaleC J (o.ct.cval J.C e.w) r).1, (s1.scaleC J (o.ct.cval J.C e.w) r).2, .node hp hrun, ?_, ?_,
    r2 (r1 hrs), (g1.trans g2).keeps hJ hτ hi i2, v2, b2, c2⟩
  · intro recs' h'
    cases h' with
    | terminal h' => exact absurd h' hp
    | node _ h' => rw [Trav.Runs.unique (n := 1) h' hrun]
  · unfold JState.deserialize
    rw [e1]

/-- **C83, partial.** The same for `transfer` of vectors of at least three qubits (for fewer qubits it may use an empty stack, C45). -/
theorem C83_transfer_partial (hJ : J.Good) (hτ : 0 ≤ τ) (hR : J.Rounds τ) (hro : TReach J τ o) (hrs : TReach J τ s) (hty : o.Tidy J) (hd0 : 0 ≤ δ)
    (hδ : δ + 5 * τ ≤ 1 / 100) {n : Nat} (hn : n ≤ (s.tab .v).tab.nvars) (h3 : 3 ≤ n) (hz : 1000 * ((n : R) + 1) * τ ≤ 1) {e : PtrEdge}
    (hv : o.ValidV J n e) (hp : e.p ≠ none) (hw : o.ct.cval J.C e.w ≠ 0) (hs : o.SumsLe J δ n e.p) :
    ∃ s' e', JState.Transfers J .v o s e (s', e') ∧ (∀ r, JState.Transfers J .v o s e r → r = (s', e')) ∧ TReach J τ s' ∧ s.Keeps J s' ∧
      CopyOk J τ δ o n e s' e' := by
  have ho := hro.inv hJ hR hτ
  have hi := hrs.inv hJ hR hτ
  obtain ⟨a, ha⟩ := Option.ne_none_iff_exists'.1 hp
  obtain ⟨N, hrun, hN, hsum⟩ := order_spec (g := false) ho hty hv ha hw (Or.inr h3) hs
  obtain ⟨s1, mapped, r, e1, i1, g1, r1, -, hres⟩ := transferLoopJ_spec hJ hτ ho hd0 hδ hi hz hn hN hsum
  obtain ⟨i2, g2, r2, v2, b2, c2⟩ := scale_spec hJ hτ ho i1 hd0 hδ hz hv ha (hres N a rfl)
  refine ⟨(s1.scaleC J (o.ct.cval J.C e.w) r).1, (s1.scaleC J (o.ct.cval J.C e.w) r).2, .node hp hrun e1, ?_,
    r2 (r1 hrs), (g1.trans g2).keeps hJ hτ hi i2, v2, b2, c2⟩
  intro r' h'
  cases h' with
  | terminal h' => exact absurd h' hp
  | node _ ho' hl' =>
    rw [Trav.Runs.unique (n := 1) ho' hrun, e1] at hl'
    cases hl'
    rfl

/-! ### Diagrams of classical states -/

/-- All vector nodes have one edge of weight one; the other one is zero. -/
def PlainV (s : JState R) : Prop :=
  ∀ a ∈ (s.tab .v).tab.all, ∃ i : Fin 2, (((s.tab .v).tab.mem a).e i).w = CNum.one ∧ ∀ j, j ≠ i → ((s.tab .v).tab.mem a).e j = JState.zeroP

omit [LawfulSqrt R] in
theorem nodeV_plain (hJ : J.Good) (hτ : 0 ≤ τ) (h : TInv J τ s) (hp : PlainV s) {l : Nat} (hl : l < (s.tab .v).tab.nvars) {es : Fin 2 → PtrEdge}
    (he : ∃ i : Fin 2, (es i).w = CNum.one ∧ ∀ j, j ≠ i → es j = JState.zeroP) : PlainV (s.nodeV J l es).1 := by
  obtain ⟨pin, hi⟩ := h.reach.inv hJ (zero_tol hτ)
  have ht : (s.nodeV J l es).1.tab .v =
      { s.tab .v with tab := ((s.tab .v).tab.mkNodeBy (s.sameEdges J) (J.H .v) J.U l es false false).1 } :=
    Function.update_self (β := fun k : NK => UHist (CNum Loc) k.ar) NK.v _ s.tab
  obtain ⟨_, hnv, _, hm, _, _, _, hlv, hsame, hcase⟩ :=
    mkNodeBy_spec (sameEdges_refl J s) hJ.U.growth ((hi.tab .v).inv hJ.U).uwf l es false false hl
  intro a ha
  rw [ht] at ha ⊢
  dsimp only at ha ⊢
  rcases hcase with ⟨_, h2⟩ | ⟨h1, h2, h3, _⟩
  · rw [h2] at ha
    rw [hm a ha]; exact hp a ha
  · rcases List.mem_cons.1 (h2.mem_iff.1 ha) with h4 | h4
    · rw [h4, h3]; exact he
    · rw [hm a h4]; exact hp a h4

theorem plain_basis (hJ : J.Good) (hτ : 0 ≤ τ) (hsq : SqOk J τ) (h : TInv J τ s) (hp : PlainV s) (b : Nat → Bool) : ∀ n : Nat,
    n ≤ (s.tab .v).tab.nvars → 1000 * ((n : R) + 1) * τ ≤ 1 →
    PlainV (s.basisLoop J (fun i => if b i then .one else .zero) n).1 ∧ (s.basisLoop J (fun i => if b i then .one else .zero) n).2.w = CNum.one := by
  intro n
  induction n with
  | zero => intro _ _; exact ⟨hp, rfl⟩
  | succ n ih =>
    intro hn hz
    push_cast at hz
    have hz' : 1000 * ((n : R) + 1) * τ ≤ 1 := by linarith
    obtain ⟨p1, p2⟩ := ih (by omega) hz'
    obtain ⟨a1, a2, a3⟩ := basisLoop_acc hJ hτ hsq h (fun i => if b i then .one else .zero) n (by omega) hz'
    set r := s.basisLoop J (fun i => if b i then .one else .zero) n with hr
    have ht : r.1.ct.tol = τ := a1.tol hJ hτ
    have n0 : (0 : R) ≤ n := Nat.cast_nonneg n
    have nt : 0 ≤ (n : R) * τ := mul_nonneg n0 hτ
    have z1 : r.1.ct.zeroV (r.1.ct.cval J.C CNum.one) = false := by
      rw [cval_one]
      have : ¬ (1 : R) ≤ τ := by intro h; linarith
      simp [CTab.zeroV, CTab.approxZero, ht, this]
    have z0 : r.1.ct.zeroV (r.1.ct.cval J.C CNum.zero) = true := by
      rw [cval_zero]
      simp [CTab.zeroV, CTab.approxZero, ht, hτ]
    have hl : n < (r.1.tab .v).tab.nvars := by rw [a2.nvars .v]; omega
    have l1 : JState.lookupN J r.1 CNum.one = (r.1, CNum.one) := by
      unfold JState.lookupN
      rw [if_neg (by decide), if_pos rfl]
    rw [JState.basisLoop, ← hr]
    cases hb : b n with
    | false =>
      simp only [Bool.false_eq_true, if_false, JState.basisKids]
      unfold JState.makeU
      simp only [Matrix.cons_val_zero, Matrix.cons_val_one, p2, z1, JState.zeroP, z0, l1, Bool.false_eq_true, if_false, if_true]
      exact ⟨nodeV_plain hJ hτ a1 p1 hl ⟨0, rfl, fun j hj => by
        have : j = 1 := by omega
        subst this; rfl⟩, trivial⟩
    | true =>
      simp only [if_true, JState.basisKids]
      unfold JState.makeU
      simp only [Matrix.cons_val_zero, Matrix.cons_val_one, p2, z1, JState.zeroP, z0, l1, Bool.false_eq_true, if_false, if_true]
      exact ⟨nodeV_plain hJ hτ a1 p1 hl ⟨1, rfl, fun j hj => by
        have : j = 0 := by omega
        subst this; rfl⟩, trivial⟩

omit [IsStrictOrderedRing R] [LawfulSqrt R] in
theorem PlainV.val [IsStrictOrderedRing R] (hp : PlainV s) {a : Nat} (ha : a ∈ (s.tab .v).tab.all) :
    ∃ i : Fin 2, s.ct.cval J.C (((s.tab .v).tab.mem a).e i).w = 1 ∧
      ∀ j, j ≠ i → s.ct.cval J.C (((s.tab .v).tab.mem a).e j).w = 0 ∧ (((s.tab .v).tab.mem a).e j).p = none := by
  obtain ⟨i, h1, h2⟩ := hp a ha
  refine ⟨i, by rw [h1, cval_one], fun j hj => ?_⟩
  rw [h2 j hj]
  exact ⟨cval_zero .., rfl⟩

theorem PlainV.tidy (hp : PlainV s) : s.Tidy J := by
  intro a ha i b hb
  obtain ⟨j, h1, h2⟩ := hp.val (J := J) ha
  by_cases hij : i = j
  · subst hij; rw [h1]; exact one_ne_zero
  · rw [(h2 i hij).2] at hb; cases hb

theorem PlainV.steady (h : TInv J τ s) (hp : PlainV s) : ∀ (l : Nat) (p : Option Nat), s.NodeOk l p → s.Steady J l p
  | 0, _, _ => trivial
  | _ + 1, none, _ => trivial
  | l + 1, some a, ⟨ha, hl⟩ => by
    obtain ⟨j, h1, h2⟩ := hp.val (J := J) ha
    refine ⟨Or.inl fun i => ?_, fun i => ?_⟩
    · by_cases hij : i = j
      · subst hij; rw [h1]; exact ⟨rfl, zero_le_one⟩
      · rw [(h2 i hij).1]; exact ⟨rfl, le_refl _⟩
    · have := (h.kids a ha i).1.node
      rw [Nat.succ.inj hl] at this
      exact PlainV.steady h hp l _ this

theorem PlainV.sums (h : TInv J τ s) (hp : PlainV s) : ∀ (l : Nat) (p : Option Nat), s.NodeOk l p → s.SumsLe J 0 l p
  | 0, _, _ => trivial
  | _ + 1, none, _ => trivial
  | l + 1, some a, ⟨ha, hl⟩ => by
    obtain ⟨j, h1, h2⟩ := hp.val (J := J) ha
    refine ⟨?_, fun i => ?_⟩
    · rcases (show j = 0 ∨ j = 1 by omega) with rfl | rfl
      · rw [h1, (h2 1 (by decide)).1]; simp [Cx.mag2]
      · rw [h1, (h2 0 (by decide)).1]; simp [Cx.mag2]
    · have := (h.kids a ha i).1.node
      rw [Nat.succ.inj hl] at this
      exact PlainV.sums h hp l _ this

end copy

namespace Ex

/-- The hypotheses are met: the state |101⟩ in a new package with the default tolerance is steady. -/
theorem C83_steady_example : ∃ o e, TReach JR (1 / 2 ^ 42) o ∧ o.Tidy JR ∧ o.ValidV JR 3 e ∧ e.p ≠ none ∧ o.ct.cval JR.C e.w = 1 ∧
    o.SumsLe JR 0 3 e.p ∧ o.Steady JR 3 e.p ∧ (∀ d, mag (o.vecJ JR 3 e d - if d = ![1, 0, 1] then 1 else 0) ≤ 1 / 2 ^ 36) := by
  have hτ : (0 : ℝ) ≤ 1 / 2 ^ 42 := by norm_num
  have hz : 1000 * (((3 : Nat) : ℝ) + 1) * (1 / 2 ^ 42) ≤ 1 := by norm_num
  have hn : ((jr (1 / 2 ^ 42) 3).tab .v).tab.nvars = 3 := rfl
  have hi := (jr_reach (1 / 2 ^ 42) 3).inv JR_good (JR_rounds hτ) hτ
  obtain ⟨s', e, h1, h2, h3, -, h5⟩ := C74_bits JR_good hτ (JR_rounds hτ) (JR_sq hτ) (jr_reach (1 / 2 ^ 42) 3) (n := 3) hn.ge hz
    (state := [true, false, true]) (by decide)
  have hp0 : PlainV (jr (1 / 2 ^ 42) 3) := by
    intro a ha
    rw [show ((jr (1 / 2 ^ 42) 3).tab .v).tab.all = [] from init_all ..] at ha
    cases ha
  obtain ⟨p1, p2⟩ := plain_basis JR_good hτ (JR_sq hτ) hi hp0 (fun i => [true, false, true].getD i false) 3 hn.ge hz
  unfold JState.makeBasisState at h1
  rw [if_neg (by rw [hn]; decide)] at h1
  have h1 := Option.some.inj h1
  rw [h1] at p1 p2
  have hi' := h2.inv JR_good (JR_rounds hτ) hτ
  refine ⟨s', e, h2, p1.tidy, h3, fun hp => ?_, by rw [p2, cval_one], p1.sums hi' 3 _ h3.node, p1.steady hi' 3 _ h3.node, fun d => ?_⟩
  · rcases h3.none hp with h | h
    · cases h
    · rw [h] at p2; cases p2
  · refine le_trans (le_of_eq ?_) ((h5 d).trans (by norm_num))
    have : (fun i : Fin 3 => if [true, false, true][i.val]'(by simp) then 1 else 0) = (![1, 0, 1] : Fin 3 → Fin 2) := by decide
    rw [this]

/-- Both kinds of copies of this state to a new package are accurate. -/
example : ∃ o e recs s₁ e₁ s₂ e₂, TReach JR (1 / 2 ^ 42) o ∧ o.ValidV JR 3 e ∧ SerializesV false (o.tabV JR .v) ⟨e.p, o.ct.cval JR.C e.w⟩ recs ∧
    (jr (1 / 2 ^ 42) 3).deserialize JR .v (o.ct.cval JR.C e.w) recs = some (s₁, e₁) ∧ JState.Transfers JR .v o (jr (1 / 2 ^ 42) 3) e (s₂, e₂) ∧
    (∀ d, mag (s₁.vecJ JR 3 e₁ d - o.vecJ JR 3 e d) ≤ 1 / 2 ^ 34) ∧ ∀ d, mag (s₂.vecJ JR 3 e₂ d - o.vecJ JR 3 e d) ≤ 1 / 2 ^ 34 := by
  obtain ⟨o, e, h1, h2, h3, h4, h5, h6, h7, -⟩ := C83_steady_example
  have hτ : (0 : ℝ) ≤ 1 / 2 ^ 42 := by norm_num
  have hz : 1000 * (((3 : Nat) : ℝ) + 1) * (1 / 2 ^ 42) ≤ 1 := by norm_num
  obtain ⟨recs, s₁, e₁, a1, -, a3, -, -, a6⟩ := C83_serialize_partial JR_good hτ (JR_rounds hτ) h1 (jr_reach (1 / 2 ^ 42) 3) h2 le_rfl (by norm_num)
    (n := 3) (le_refl 3) hz h3 h4 (by rw [h5]; exact one_ne_zero) h6 false
  obtain ⟨s₂, e₂, b1, -, -, -, b5⟩ := C83_transfer_partial JR_good hτ (JR_rounds hτ) h1 (jr_reach (1 / 2 ^ 42) 3) h2 le_rfl (by norm_num)
    (n := 3) (le_refl 3) (le_refl 3) hz h3 h4 (by rw [h5]; exact one_ne_zero) h6
  have hb : (((3 : Nat) : ℝ) + 1) * (2 * 0 + 25 * (1 / 2 ^ 42)) * (1 + mag (o.ct.cval JR.C e.w)) ≤ 1 / 2 ^ 34 := by
    rw [h5, mag_one]; norm_num
  exact ⟨o, e, recs, s₁, e₁, s₂, e₂, h1, h3, a1, a3, b1, fun d => (a6.amplitudes h7 d).trans hb, fun d => (b5.amplitudes h7 d).trans hb⟩

end Ex

section run

variable {R : Type} [Field R] [LinearOrder R]

/-- At most `m` executions of the loop of the traversal. -/
def Trav.go {n : Nat} (g : Bool) (t : UTable (Cx R) (n + 1)) (f : Nat) : Nat → Trav R → Option (List Nat)
  | 0, _ => none
  | m + 1, s =>
    match Trav.step g t f s with
    | none => none
    | some s' => if s'.stack = [] then some s'.done else Trav.go g t f m s'

theorem Trav.go_runs {n : Nat} {g : Bool} {t : UTable (Cx R) (n + 1)} {f : Nat} : ∀ {m : Nat} {s : Trav R} {d : List Nat},
    Trav.go g t f m s = some d → Trav.Runs g t f s d
  | 0, _, _, h => by cases h
  | m + 1, s, d, h => by
    rw [Trav.go] at h
    cases hs : Trav.step g t f s with
    | none => rw [hs] at h; cases h
    | some s' =>
      rw [hs] at h
      dsimp only at h
      split_ifs at h with h0
      · cases h; exact .stop hs h0
      · exact .more hs h0 (Trav.go_runs h)

end run

namespace Ex

/-- A new package for three qubits with the default tolerance of the code (2^-42). -/
def jt : JState ℚ := JState.init JQ (1 / 2 ^ 42) 3 (fun _ => 1) (fun _ => ⟨0, fun _ => ⟨none, CNum.zero⟩, 0, false, false⟩)

/-- The numbers whose square roots occur in the run. -/
def roots : List (ℚ × ℚ) :=
  let a : ℚ := 20856638145128
  let b : ℚ := 20856638145135
  let c : ℚ := 29495740530353
  [(400 / 841, 20 / 29), (441 / 841, 21 / 29), (400 / 841 * (a / c) ^ 2, 20 / 29 * (a / c)), (400 / 841 * (b / c) ^ 2, 20 / 29 * (b / c)),
    ((a / c) ^ 2, a / c), ((b / c) ^ 2, b / c), (1, 1)]

/-- These are square roots. -/
theorem roots_ok : ∀ p ∈ roots, 0 ≤ p.2 ∧ p.2 * p.2 = p.1 := by decide +kernel

local instance sqrtCopy : HasSqrt ℚ := ⟨fun q => ((roots.find? (fun p => p.1 = q)).map (·.2)).getD 0⟩

/-- A state of two qubits: three amplitudes are not zero. -/
def st : List (Cx ℚ) :=
  [⟨20 / 29 * (20856638145128 / 29495740530353) * (3 / 5), 20 / 29 * (20856638145128 / 29495740530353) * (4 / 5)⟩,
   ⟨20 / 29 * (20856638145135 / 29495740530353) * -(748999 / 1251001), 20 / 29 * (20856638145135 / 29495740530353) * -(1002000 / 1251001)⟩,
   ⟨21 / 29, 0⟩, 0]

/-- The basis states of two qubits in the order of the amplitudes. -/
def dirs : List (Fin 2 → Fin 2) := [![0, 0], ![1, 0], ![0, 1], ![1, 1]]

theorem sum_dirs (f : (Fin 2 → Fin 2) → Cx ℚ) : ∑ d, f d = (dirs.map f).sum := by
  have : (Finset.univ : Finset (Fin 2 → Fin 2)) = dirs.toFinset := by decide
  rw [this, List.sum_toFinset _ (by decide)]

theorem sum_dirs' (f : (Fin 2 → Fin 2) → ℚ) : ∑ d, f d = (dirs.map f).sum := by
  have : (Finset.univ : Finset (Fin 2 → Fin 2)) = dirs.toFinset := by decide
  rw [this, List.sum_toFinset _ (by decide)]

/-- What is computed of the original (`s`, `e`) and the copy (`s'`, `e'`). -/
def badCopy (s : JState ℚ) (e : PtrEdge) (s' : JState ℚ) (e' : PtrEdge) : Bool :=
  decide (dirs.map (s.vecJ JQ 2 e) = st) && decide ((dirs.map (fun d => (s.vecJ JQ 2 e d).mag2)).sum = 1) &&
    decide (|(dirs.map (fun d => (s'.vecJ JQ 2 e' d).mag2)).sum - 1| ≤ 1 / 2 ^ 40) &&
    decide (((dirs.map (fun d => (s.vecJ JQ 2 e d).conj * s'.vecJ JQ 2 e' d)).sum).mag2 < 1 / 400)

def chkS : Bool :=
  match jt.makeStateFromVector JQ st with
  | none => false
  | some p =>
    match Trav.go (n := 1) true (p.1.tabV JQ .v) ((p.1.tabV JQ .v).lvl ⟨p.2.p, p.1.ct.cval JQ.C p.2.w⟩) 10 ⟨some ⟨p.2.p, p.1.ct.cval JQ.C p.2.w⟩, [], []⟩ with
    | none => false
    | some order =>
      match jt.deserialize JQ .v (p.1.ct.cval JQ.C p.2.w) (records true (p.1.tabV JQ .v) order) with
      | none => false
      | some d => decide (p.2.p ≠ none) && badCopy p.1 p.2 d.1 d.2

def chkT : Bool :=
  match jt.makeStateFromVector JQ st with
  | none => false
  | some p =>
    match Trav.go (n := 1) false (p.1.tabV JQ .v) ((p.1.tabV JQ .v).lvl ⟨p.2.p, p.1.ct.cval JQ.C p.2.w⟩) 10 ⟨some ⟨p.2.p, p.1.ct.cval JQ.C p.2.w⟩, [], []⟩ with
    | none => false
    | some order =>
      match JState.transferLoop JQ .v p.1 order jt (fun _ => none) JState.zeroP with
      | none => false
      | some d => decide (p.2.p ≠ none) &&
          badCopy p.1 p.2 (JState.scaleC JQ d.1 (p.1.ct.cval JQ.C p.2.w) d.2.2).1 (JState.scaleC JQ d.1 (p.1.ct.cval JQ.C p.2.w) d.2.2).2

set_option maxRecDepth 100000 in
theorem chkS_ok : chkS = true := by decide +kernel

set_option maxRecDepth 100000 in
theorem chkT_ok : chkT = true := by decide +kernel

theorem bad_spec {s : JState ℚ} {e : PtrEdge} {s' : JState ℚ} {e' : PtrEdge} (h : badCopy s e s' e' = true) :
    dirs.map (s.vecJ JQ 2 e) = st ∧ ∑ d, (s.vecJ JQ 2 e d).mag2 = 1 ∧ |∑ d, (s'.vecJ JQ 2 e' d).mag2 - 1| ≤ 1 / 2 ^ 40 ∧
      (∑ d, (s.vecJ JQ 2 e d).conj * s'.vecJ JQ 2 e' d).mag2 < 1 / 400 := by
  unfold badCopy at h
  simp only [Bool.and_eq_true, decide_eq_true_eq] at h
  rw [sum_dirs, sum_dirs', sum_dirs']
  exact ⟨h.1.1.1, h.1.1.2, h.1.2, h.2⟩

/-- With the default tolerance, reading back a serialized state may give a state that is almost orthogonal to it: here the state `st`, which
the package stores exactly, becomes a state of norm one up to 2⁻⁴⁰, and the fidelity is below 1/400. -/
theorem C83_serialize_false : ∃ s e recs s' e', jt.makeStateFromVector JQ st = some (s, e) ∧ dirs.map (s.vecJ JQ 2 e) = st ∧
    SerializesV true (s.tabV JQ .v) ⟨e.p, s.ct.cval JQ.C e.w⟩ recs ∧ jt.deserialize JQ .v (s.ct.cval JQ.C e.w) recs = some (s', e') ∧
    ∑ d, (s.vecJ JQ 2 e d).mag2 = 1 ∧ |∑ d, (s'.vecJ JQ 2 e' d).mag2 - 1| ≤ 1 / 2 ^ 40 ∧
    (∑ d, (s.vecJ JQ 2 e d).conj * s'.vecJ JQ 2 e' d).mag2 < 1 / 400 := by
  have h := chkS_ok
  unfold chkS at h
  split at h
  · cases h
  · rename_i p hp
    split at h
    · cases h
    · rename_i order ho
      split at h
      · cases h
      · rename_i d hd
        rw [Bool.and_eq_true, decide_eq_true_eq] at h
        obtain ⟨h0, h1⟩ := h
        obtain ⟨b1, b2, b3, b4⟩ := bad_spec h1
        exact ⟨p.1, p.2, _, d.1, d.2, hp, b1, .node h0 (Trav.go_runs (n := 1) ho), hd, b2, b3, b4⟩

/-- The same happens if the state is transferred to a new package. -/
theorem C83_transfer_false : ∃ s e s' e', jt.makeStateFromVector JQ st = some (s, e) ∧ dirs.map (s.vecJ JQ 2 e) = st ∧
    JState.Transfers JQ .v s jt e (s', e') ∧
    ∑ d, (s.vecJ JQ 2 e d).mag2 = 1 ∧ |∑ d, (s'.vecJ JQ 2 e' d).mag2 - 1| ≤ 1 / 2 ^ 40 ∧
    (∑ d, (s.vecJ JQ 2 e d).conj * s'.vecJ JQ 2 e' d).mag2 < 1 / 400 := by
  have h := chkT_ok
  unfold chkT at h
  split at h
  · cases h
  · rename_i p hp
    split at h
    · cases h
    · rename_i order ho
      split at h
      · cases h
      · rename_i d hd
        rw [Bool.and_eq_true, decide_eq_true_eq] at h
        obtain ⟨h0, h1⟩ := h
        obtain ⟨b1, b2, b3, b4⟩ := bad_spec h1
        exact ⟨p.1, p.2, _, _, hp, b1, .node h0 (Trav.go_runs (n := 1) ho) hd, b2, b3, b4⟩

/-- A unitary matrix, up to the tolerance. -/
def al : Cx ℚ := ⟨6238626641379 * 3 / (8822750406821 * 5), 6238626641379 * 4 / (8822750406821 * 5)⟩
@[inherit_doc al] def be : Cx ℚ := ⟨6238626641380 * 5 / (8822750406821 * 13), 6238626641380 * (-12) / (8822750406821 * 13)⟩
@[inherit_doc al] def U : Fin 4 → Cx ℚ := ![al, -be.conj, be, al.conj]


theorem U_unitary : IsUnitary (mat2 U) := by
  constructor <;> (
    ext1 a b
    rw [Matrix.mul_apply, Fin.sum_univ_two]
    revert a b
    simp only [Fin.forall_fin_two]
    refine ⟨⟨?_, ?_⟩, ?_, ?_⟩ <;> simp [dagger, mat2, U, al, be, Cx.ext_iff, Cx.conj] <;> norm_num)

def chkM : Bool :=
  match jt.makeGateDD JQ U 2 [⟨1, true⟩] 0 with
  | none => false
  | some p =>
    match jt.deserialize JQ .m (p.1.ct.cval JQ.C p.2.w) (serializeM true (p.1.tabV JQ .m) ⟨p.2.p, p.1.ct.cval JQ.C p.2.w⟩) with
    | none => false
    | some d => decide (p.1.matJ JQ 2 p.2 ![0, 0] ![0, 0] = al) && decide (p.1.matJ JQ 2 p.2 ![0, 1] ![0, 1] = 1) &&
        decide ((d.1.matJ JQ 2 d.2 ![0, 1] ![0, 1]) = 1) && decide (1 < (d.1.matJ JQ 2 d.2 ![0, 0] ![0, 0] - al).mag2)

set_option maxRecDepth 100000 in
theorem chkM_ok : chkM = true := by decide +kernel

/-- Copies of matrices are not accurate either: the block of a controlled gate where the gate is applied (qubit 1 is 0) gets another phase, while the other
block is the identity as before. -/
theorem C83_matrix_false : IsUnitary (mat2 U) ∧ ∃ s e s' e', jt.makeGateDD JQ U 2 [⟨1, true⟩] 0 = some (s, e) ∧
    jt.deserialize JQ .m (s.ct.cval JQ.C e.w) (serializeM true (s.tabV JQ .m) ⟨e.p, s.ct.cval JQ.C e.w⟩) = some (s', e') ∧
    s.matJ JQ 2 e ![0, 0] ![0, 0] = U 0 ∧ s.matJ JQ 2 e ![0, 1] ![0, 1] = 1 ∧
    s'.matJ JQ 2 e' ![0, 1] ![0, 1] = 1 ∧ 1 < (s'.matJ JQ 2 e' ![0, 0] ![0, 0] - U 0).mag2 := by
  refine ⟨U_unitary, ?_⟩
  have h := chkM_ok
  unfold chkM at h
  split at h
  · cases h
  · rename_i p hp
    split at h
    · cases h
    · rename_i d hd
      simp only [Bool.and_eq_true, decide_eq_true_eq] at h
      exact ⟨p.1, p.2, d.1, d.2, hp, hd, h.1.1.1, h.1.1.2, h.1.2, h.2⟩

end Ex
end DD
