import Verif.Props.C68
import Verif.GateSpec
import Verif.Proofs.Use

/-!
# C74: gates, identities and basis states are accurate up to the tolerance

In a package with tolerance `τ` and rounded arithmetic, `makeIdent`, `makeGateDD`, `makeZeroState` and `makeBasisState` produce diagrams of
what they should up to a multiple of `τ` that grows linearly with the number of qubits, after any history, and they leave all other
diagrams alone. In contrast to `makeDDFromMatrix` (C61) the error is proportional to `τ`.
-/

namespace DD

open Pkg

variable {R : Type} [Field R] [LinearOrder R] [IsStrictOrderedRing R] [FloorRing R] [HasSqrt R] [LawfulSqrt R]
variable {J : JCfg R} {τ : R} {s : JState R}

/-- The diagrams of `s` still exist in `s'` and represent the same vectors and matrices, and the number of qubits of the package is the
same. -/
def JState.Keeps (J : JCfg R) (s s' : JState R) : Prop :=
  (∀ l e, s.ValidV J l e → s'.ValidV J l e ∧ s'.vecJ J l e = s.vecJ J l e) ∧
  (∀ l e, s.ValidM J l e → s'.ValidM J l e ∧ s'.matJ J l e = s.matJ J l e) ∧ ∀ k, (s'.tab k).tab.nvars = (s.tab k).tab.nvars

theorem Grow.keeps (hJ : J.Good) (hτ : 0 ≤ τ) {s' : JState R} (h : TInv J τ s) (h' : TInv J τ s') (g : Grow J s s') : s.Keeps J s' := by
  refine ⟨fun l e' hv => ⟨g.validV hv, ?_⟩, fun l e' hv => ⟨g.validM hv, g.matJ hJ hτ h hv⟩, g.nvars⟩
  funext d
  rw [vecJ_eq, vecJ_eq, g.cval hv.live, g.namp h h' d hv.node]

omit [LinearOrder R] [IsStrictOrderedRing R] [FloorRing R] [HasSqrt R] [LawfulSqrt R] in
theorem kn_validM [LinearOrder R] [IsStrictOrderedRing R] [FloorRing R] {s : JState R} (hτ1 : τ < 1) {l : Nat} {e : PtrEdge} (h : s.KnM J τ l e) : s.ValidM J l e := by
  refine ⟨h.1.1, h.1.2, ?_⟩
  obtain ⟨p, w⟩ := e
  cases p with
  | none => exact h.2.2 rfl hτ1
  | some a => exact h.2.1 a rfl

omit [FloorRing R] [HasSqrt R] [LawfulSqrt R] in
theorem lt_one_of_small (hτ : 0 ≤ τ) {n : Nat} (hz : 1000 * ((n : R) + 1) * τ ≤ 1) : τ < 1 := by
  have : 0 ≤ (n : R) * τ := by positivity
  have e : 1000 * ((n : R) + 1) * τ = 1000 * ((n : R) * τ) + 1000 * τ := by ring
  linarith

/-- **C74.** `makeIdent` for `n` qubits: every row of the matrix is that of the identity up to `60 n τ`, in the sum norm. -/
theorem C74_ident (hJ : J.Good) (hτ : 0 ≤ τ) (hR : J.Rounds τ) (hr : TReach J τ s) {n : Nat} (hn : n ≤ (s.tab .m).tab.nvars)
    (hz : 1000 * ((n : R) + 1) * τ ≤ 1) :
    TReach J τ (s.makeIdent J n).1 ∧ (s.makeIdent J n).1.ValidM J n (s.makeIdent J n).2 ∧ s.Keeps J (s.makeIdent J n).1 ∧
    ∀ r, ∑ c, mag ((s.makeIdent J n).1.matJ J n (s.makeIdent J n).2 r c - (1 : Matrix (Fin n → Fin 2) (Fin n → Fin 2) (Cx R)) r c) ≤
      60 * τ * n := by
  have hi := hr.inv hJ hR hτ
  obtain ⟨a1, a2, a3, a4⟩ := makeIdent_acc hJ hτ hi hz hn
  refine ⟨hr.step (.makeIdent n hn hz), kn_validM (lt_one_of_small hτ hz) a3.kn, a2.keeps hJ hτ hi a1, fun r => ?_⟩
  refine le_trans (le_of_eq (Finset.sum_congr rfl fun c _ => ?_)) (a3.err r)
  rw [matJ_eq, one_apply_rc]

/-- **C74.** `makeGateDD`: every row of the matrix is that of the controlled gate up to `120 (n + 1) τ`, in the sum norm. The weights of
the diagram are such that multiplying it by a vector is accurate (C68). -/
theorem C74_gate (hJ : J.Good) (hτ : 0 ≤ τ) (hR : J.Rounds τ) (hr : TReach J τ s) {n : Nat} (hn : n ≤ (s.tab .m).tab.nvars)
    (hz : 1000 * ((n : R) + 1) * τ ≤ 1) {U : Fin 4 → Cx R} (hU : GateOk τ U) {controls : List Ctrl} {target : Fin n}
    (hc : GoodControls controls target n) :
    ∃ s' e, s.makeGateDD J U n controls target = some (s', e) ∧ TReach J τ s' ∧ s'.ValidM J n e ∧ s.Keeps J s' ∧
      (∀ r, ∑ c, mag (s'.matJ J n e r c - gateMat (fun a b => U (rc a b)) controls target r c) ≤ 120 * τ * ((n : R) + 1)) ∧
      mag (s'.ct.cval J.C e.w) ≤ 1 + 3 / 2 * τ ∧
      ∃ K : Nat → R, (∀ j, 1 ≤ K j) ∧ s'.RowCol J K n e.p ∧ ∏ j ∈ Finset.range n, K j ≤ 53 / 25 := by
  have hi := hr.inv hJ hR hτ
  obtain ⟨r, e1, a1, a2, a3⟩ := makeGate_acc hJ hτ hi hc.sorted target.isLt hc.target hz hn hU.1 hU.2
  refine ⟨r.1, r.2, e1, hr.step (.makeGate U n controls target r.2 hc hU hz e1), kn_validM (lt_one_of_small hτ hz) a3.gr.kn,
    a2.keeps hJ hτ hi a1, fun q => ?_, a3.le, gateK τ target, fun j => by have := gateK_lo hτ target j; linarith, a3.gr.rc, ?_⟩
  · refine le_trans (le_of_eq (Finset.sum_congr rfl fun c _ => ?_)) (a3.gr.err q)
    rw [matJ_eq, highVal_gateMat target.isLt hc.target]
  · exact gateK_kappa hτ target hz

omit [IsStrictOrderedRing R] [HasSqrt R] [LawfulSqrt R] in
theorem C74_gate_reject {n : Nat} (hn : n > (s.tab .m).tab.nvars) (U : Fin 4 → Cx R) (controls : List Ctrl) (target : Nat) :
    s.makeGateDD J U n controls target = none := by
  unfold JState.makeGateDD; rw [if_pos hn]

theorem unitary_entries {U : Fin 4 → Cx R} (hU : IsUnitary (mat2 U)) : (∀ i, mag (U i) ≤ 1) ∧ ∃ i, 7 / 10 ≤ mag (U i) := by
  have h0 := congrFun (congrFun hU.1 0) 0
  have h1 := congrFun (congrFun hU.1 1) 1
  simp only [Matrix.mul_apply, Fin.sum_univ_two, dagger, mat2] at h0 h1
  have e0 : mag (U 0) * mag (U 0) + mag (U 2) * mag (U 2) = 1 := by
    rw [mag_sq, mag_sq]
    have := congrArg Cx.re h0
    simp [Cx.conj] at this
    simp only [Cx.mag2]
    linarith
  have e1 : mag (U 1) * mag (U 1) + mag (U 3) * mag (U 3) = 1 := by
    rw [mag_sq, mag_sq]
    have := congrArg Cx.re h1
    simp [Cx.conj] at this
    simp only [Cx.mag2]
    linarith
  have le1 : ∀ a b : R, 0 ≤ a → a * a + b * b = 1 → a ≤ 1 := by
    intro a b ha h
    by_contra hn
    push Not at hn
    have := mul_lt_mul'' hn hn (by norm_num) (by norm_num)
    have := mul_self_nonneg b
    linarith
  refine ⟨fun i => ?_, ?_⟩
  · fin_cases i
    · exact le1 _ _ (mag_nonneg _) e0
    · exact le1 _ _ (mag_nonneg _) e1
    · exact le1 _ (mag (U 0)) (mag_nonneg _) (by rw [add_comm]; exact e0)
    · exact le1 _ (mag (U 1)) (mag_nonneg _) (by rw [add_comm]; exact e1)
  · by_contra hn
    push Not at hn
    have h0 := mul_self_le_mul_self (mag_nonneg (U 0)) (hn 0).le
    have h2 := mul_self_le_mul_self (mag_nonneg (U 2)) (hn 2).le
    norm_num at h0 h2
    linarith

/-- **C74.** Unitary matrices with rounded entries satisfy what is assumed of gates. -/
theorem C74_rounded (hτ : 0 ≤ τ) (hτ1 : τ ≤ 1) {U V : Fin 4 → Cx R} (hV : IsUnitary (mat2 V)) (hU : NearGate τ U V) : GateOk τ U := by
  obtain ⟨h1, i, h2⟩ := unitary_entries hV
  refine ⟨fun i => ?_, i, ?_⟩
  · have := mag_le_add (U i) (V i)
    have := h1 i
    have := hU i
    linarith
  · have := mag_le_add (V i) (U i)
    rw [mag_sub_comm] at this
    have := hU i
    linarith

omit [FloorRing R] in
theorem NearGate.refl (hτ : 0 ≤ τ) (U : Fin 4 → Cx R) : NearGate τ U U := by
  intro i
  rw [sub_self, mag_zero]
  linarith

/-- **C74.** Unitary matrices satisfy what is assumed of gates. -/
theorem C74_unitary (hτ : 0 ≤ τ) {U : Fin 4 → Cx R} (hU : IsUnitary (mat2 U)) : GateOk τ U := by
  obtain ⟨h1, i, h2⟩ := unitary_entries hU
  exact ⟨fun i => (h1 i).trans (by linarith), i, by linarith⟩

/-- **C74.** `makeBasisState`: all amplitudes are those of the product state up to `12 n τ`. -/
theorem C74_basis (hJ : J.Good) (hτ : 0 ≤ τ) (hR : J.Rounds τ) (hs : SqOk J τ) (hr : TReach J τ s) {n : Nat} (hn : n ≤ (s.tab .v).tab.nvars)
    (hz : 1000 * ((n : R) + 1) * τ ≤ 1) {state : List Basis} (hl : n ≤ state.length) :
    ∃ s' e, s.makeBasisStates J n state = some (s', e) ∧ TReach J τ s' ∧ s'.ValidV J n e ∧ s.Keeps J s' ∧
      ∀ d, mag (s'.vecJ J n e d - ∏ i : Fin n, basisAmp (state[i.val]'(by omega)) (d i)) ≤ 12 * τ * n := by
  have hi := hr.inv hJ hR hτ
  obtain ⟨a1, a2, a3⟩ := basisLoop_acc hJ hτ hs hi (fun i => state.getD i .zero) n hn hz
  have e1 : s.makeBasisStates J n state = some (s.basisLoop J (fun i => state.getD i .zero) n) := by
    unfold JState.makeBasisStates
    rw [if_neg (by omega), if_neg (by omega)]
  refine ⟨_, _, e1, hr.step (.makeBasisStates n state _ hs hz e1), a3.valid, a2.keeps hJ hτ hi a1, fun d => ?_⟩
  refine le_trans (le_of_eq ?_) (a3.vecJ d)
  congr 2
  refine Finset.prod_congr rfl fun i _ => ?_
  have : state.getD i .zero = state[i.val]'(by omega) := by
    rw [List.getD, List.getElem?_eq_getElem (by omega)]; rfl
  rw [this]

omit [IsStrictOrderedRing R] [FloorRing R] [HasSqrt R] [LawfulSqrt R] in
theorem prod_bits {n : Nat} [IsStrictOrderedRing R] [FloorRing R] [HasSqrt R] [LawfulSqrt R] (b : Fin n → Bool) (d : Fin n → Fin 2) :
    ∏ i : Fin n, basisAmp (R := R) (if b i then .one else .zero) (d i) = if d = fun i => if b i then 1 else 0 then 1 else 0 := by
  have h1 : ∀ i, basisAmp (R := R) (if b i then .one else .zero) (d i) = if d i = (if b i then 1 else 0) then 1 else 0 := by
    intro i
    generalize d i = q
    revert q
    cases b i <;> (rw [Fin.forall_fin_two]; constructor <;> simp [basisAmp])
  rw [Finset.prod_congr rfl (fun i _ => h1 i), Finset.prod_ite_zero]
  simp only [Finset.mem_univ, forall_const, Finset.prod_const_one]
  congr 1
  rw [eq_iff_iff]
  exact ⟨fun h => funext h, fun h i => by rw [h]⟩

/-- **C74.** `makeBasisState` for bits: all amplitudes are those of the computational basis state up to `12 n τ`. -/
theorem C74_bits (hJ : J.Good) (hτ : 0 ≤ τ) (hR : J.Rounds τ) (hs : SqOk J τ) (hr : TReach J τ s) {n : Nat} (hn : n ≤ (s.tab .v).tab.nvars)
    (hz : 1000 * ((n : R) + 1) * τ ≤ 1) {state : List Bool} (hl : n ≤ state.length) :
    ∃ s' e, s.makeBasisState J n state = some (s', e) ∧ TReach J τ s' ∧ s'.ValidV J n e ∧ s.Keeps J s' ∧
      ∀ d, mag (s'.vecJ J n e d - if d = fun i => if state[i.val]'(by omega) then 1 else 0 then 1 else 0) ≤ 12 * τ * n := by
  have hi := hr.inv hJ hR hτ
  obtain ⟨a1, a2, a3⟩ := basisLoop_acc hJ hτ hs hi (fun i => if state.getD i false then .one else .zero) n hn hz
  have e1 : s.makeBasisState J n state = some (s.basisLoop J (fun i => if state.getD i false then .one else .zero) n) := by
    unfold JState.makeBasisState
    rw [if_neg (by omega)]
  refine ⟨_, _, e1, hr.step (.makeBasisState n state _ hs hz e1), a3.valid, a2.keeps hJ hτ hi a1, fun d => ?_⟩
  have := a3.vecJ d
  rw [prod_bits (fun i : Fin n => state.getD i false)] at this
  refine le_trans (le_of_eq ?_) this
  have : ∀ i : Fin n, state.getD i false = state[i.val]'(by omega) := fun i => by
    rw [List.getD, List.getElem?_eq_getElem (by omega)]; rfl
  simp only [this]

/-- **C74.** `makeZeroState`. -/
theorem C74_zero (hJ : J.Good) (hτ : 0 ≤ τ) (hR : J.Rounds τ) (hs : SqOk J τ) (hr : TReach J τ s) {n : Nat} (hn : n ≤ (s.tab .v).tab.nvars)
    (hz : 1000 * ((n : R) + 1) * τ ≤ 1) :
    ∃ s' e, s.makeZeroState J n = some (s', e) ∧ TReach J τ s' ∧ s'.ValidV J n e ∧ s.Keeps J s' ∧
      ∀ d, mag (s'.vecJ J n e d - if d = fun _ => 0 then 1 else 0) ≤ 12 * τ * n := by
  have hi := hr.inv hJ hR hτ
  obtain ⟨a1, a2, a3⟩ := basisLoop_acc hJ hτ hs hi (fun _ => .zero) n hn hz
  have e1 : s.makeZeroState J n = some (s.basisLoop J (fun _ => .zero) n) := by
    unfold JState.makeZeroState
    rw [if_neg (by omega)]
  refine ⟨_, _, e1, hr.step (.makeZeroState n _ hs hz e1), a3.valid, a2.keeps hJ hτ hi a1, fun d => ?_⟩
  have := a3.vecJ d
  have p := prod_bits (R := R) (fun _ : Fin n => false) d
  simp only [Bool.false_eq_true, if_false] at p
  rw [p] at this
  exact this

omit [LawfulSqrt R] in
/-- States that do not fit into the package, or for which too few qubits are given, are rejected. -/
theorem C74_reject {n : Nat} :
    (n > (s.tab .v).tab.nvars → s.makeZeroState J n = none ∧ (∀ state, s.makeBasisState J n state = none) ∧
      ∀ state, s.makeBasisStates J n state = none) ∧
    ∀ state : List Basis, state.length < n → s.makeBasisStates J n state = none := by
  refine ⟨fun h => ⟨?_, fun state => ?_, fun state => ?_⟩, fun state h => ?_⟩
  · unfold JState.makeZeroState; rw [if_pos h]
  · unfold JState.makeBasisState; rw [if_pos h]
  · unfold JState.makeBasisStates; rw [if_pos h]
  · unfold JState.makeBasisStates; rw [if_pos h, ite_self]

end DD

namespace DD.Ex

open Pkg

theorem JR_sq {τ : ℝ} (hτ : 0 ≤ τ) : SqOk JR τ := by
  unfold SqOk
  have : JR.C.sq = HasSqrt.sqrt (1 / 2 : ℝ) := rfl
  rw [this, sub_self, abs_zero]
  exact hτ

/-- The Hadamard gate. -/
noncomputable def hadU : Fin 4 → Cx ℝ := ![⟨Real.sqrt (1 / 2), 0⟩, ⟨Real.sqrt (1 / 2), 0⟩, ⟨Real.sqrt (1 / 2), 0⟩, ⟨-Real.sqrt (1 / 2), 0⟩]

theorem hadU_unitary : IsUnitary (mat2 hadU) := by
  have h := Real.mul_self_sqrt (by norm_num : (0 : ℝ) ≤ 1 / 2)
  unfold hadU
  generalize Real.sqrt (1 / 2) = q at h
  constructor <;> (
    ext1 a b
    rw [Matrix.mul_apply, Fin.sum_univ_two]
    revert a b
    simp only [Fin.forall_fin_two]
    refine ⟨⟨?_, ?_⟩, ?_, ?_⟩ <;> simp [dagger, mat2, Cx.ext_iff, Cx.conj] <;> linarith)

/-- With the tolerance of the package: a Hadamard gate on qubit 1 of 3, with a positive control above and a negative one below, after the
state |+⟩|1⟩|L⟩ has been built. -/
example : ∃ s x g, TReach JR (1 / 2 ^ 42) s ∧ s.ValidV JR 3 x ∧ s.ValidM JR 3 g ∧
    (∀ d, mag (s.vecJ JR 3 x d - ∏ i : Fin 3, basisAmp (![.left, .one, .plus] i) (d i)) ≤ 36 / 2 ^ 42) ∧
    ∀ r, ∑ c, mag (s.matJ JR 3 g r c - gateMat (fun a b => hadU (rc a b)) [⟨0, true⟩, ⟨2, false⟩] (1 : Fin 3) r c) ≤ 480 / 2 ^ 42 := by
  obtain ⟨s1, x, -, r1, v1, k1, b1⟩ := C74_basis JR_good (by norm_num) (JR_rounds (by norm_num)) (JR_sq (by norm_num)) (jr_reach (1 / 2 ^ 42) 3)
    (n := 3) (le_refl 3) (by norm_num) (state := [.left, .one, .plus]) (by simp)
  have n1 : 3 ≤ (s1.tab .m).tab.nvars := by rw [k1.2.2 .m]; exact le_refl 3
  obtain ⟨s2, g, -, r2, v2, k2, b2, -⟩ := C74_gate JR_good (by norm_num) (JR_rounds (by norm_num)) r1 (n := 3) n1 (by norm_num)
    (C74_unitary (by norm_num) hadU_unitary) (controls := [⟨0, true⟩, ⟨2, false⟩]) (target := 1) (by constructor <;> decide)
  refine ⟨s2, x, g, r2, (k2.1 3 x v1).1, v2, fun d => ?_, fun r => (b2 r).trans (by norm_num)⟩
  rw [(k2.1 3 x v1).2]
  refine le_trans (le_of_eq ?_) ((b1 d).trans (by norm_num))
  congr 3
  funext i
  fin_cases i <;> rfl

/-- The square roots that occur in the run. -/
local instance : HasSqrt ℚ := ⟨fun q => if q = 9 / 25 then 3 / 5 else if q = 16 / 25 then 4 / 5 else q⟩

/-- A run with rational numbers and a tolerance: a rotation on qubit 0 controlled by qubit 1, applied to |10⟩. -/
def gateRun : Option (List (Cx ℚ)) := do
  let p ← jm.makeBasisState JQ 2 [false, true]
  let q ← p.1.makeGateDD JQ ![⟨3 / 5, 0⟩, ⟨0, 4 / 5⟩, ⟨0, 4 / 5⟩, ⟨3 / 5, 0⟩] 2 [⟨1, false⟩] 0
  return [q.1.vecJ JQ 2 p.2 ![0, 0], q.1.vecJ JQ 2 p.2 ![0, 1],
    q.1.matJ JQ 2 q.2 ![0, 0] ![0, 0], q.1.matJ JQ 2 q.2 ![1, 0] ![0, 0], q.1.matJ JQ 2 q.2 ![1, 1] ![0, 1], q.1.matJ JQ 2 q.2 ![0, 1] ![0, 1]]

example : gateRun = some [0, 1, 1, 0, ⟨0, 4 / 5⟩, ⟨3 / 5, 0⟩] := by decide +kernel

end DD.Ex
