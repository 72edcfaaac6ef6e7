import Verif.Props.C75
import Verif.Model.Gates

/-!
# C84: two-qubit gates are accurate up to the tolerance

In a package with tolerance `τ` and rounded arithmetic, `makeTwoQubitGateDD` produces a diagram of the gate up to a multiple of `τ` that grows
linearly with the number of qubits, after any history, and multiplying it by a state is accurate. This holds for all two-qubit gates of
GateMatrixDefinitions.hpp with rounded entries.
-/

namespace DD

open Pkg

variable {R : Type} [Field R] [LinearOrder R] [IsStrictOrderedRing R] [FloorRing R] [HasSqrt R] [LawfulSqrt R]
variable {J : JCfg R} {τ : R} {s : JState R}

/-- **C84.** `makeTwoQubitGateDD`: every row of the matrix is that of the gate up to `(40 + 38 K) (n + 1) τ`, in the sum norm, where `K` bounds the
sums of the weights of a row or column of the nodes at the smaller target. -/
theorem C84_gate (hJ : J.Good) (hτ : 0 ≤ τ) (hR : J.Rounds τ) (hr : TReach J τ s) {n : Nat} (hn : n ≤ (s.tab .m).tab.nvars)
    (hz : 1000 * ((n : R) + 1) * τ ≤ 1) (h128 : n < 128) {K : R} (hK : 2 + 56 * τ ≤ K) {U : Fin 4 → Fin 4 → Cx R}
    (hU : TwoGateOk (τ / 20) (3 / 5) K U) {t0 t1 : Fin n} (ht : t0 ≠ t1) :
    ∃ s' e, s.makeTwoQubitGateDD J U n t0 t1 = some (s', e) ∧ TReach J τ s' ∧ s'.ValidM J n e ∧ s.Keeps J s' ∧
      (∀ r, ∑ c, mag (s'.matJ J n e r c - twoMat U t0 t1 r c) ≤ (40 + 38 * K) * τ * ((n : R) + 1)) ∧
      mag (s'.ct.cval J.C e.w) ≤ 1 + 3 / 2 * τ ∧
      ∃ L : Nat → R, (∀ j, 1 ≤ L j) ∧ s'.RowCol J L n e.p ∧ ∏ j ∈ Finset.range n, L j ≤ 54 / 25 * K := by
  have hi := hr.inv hJ hR hτ
  have hne : (t0 : Nat) ≠ t1 := fun e => ht (Fin.ext e)
  obtain ⟨r, e1, a1, a2, a3, a4⟩ := makeTwo_acc hJ hτ hi hne t0.isLt t1.isLt hz hn hK hU
  have he := upperLines_eq (hi := max (t0 : Nat) t1) h128 (by omega)
  generalize max (t0 : Nat) t1 + 1 + upperLines n (max (t0 : Nat) t1) = m at he a3
  subst he
  refine ⟨r.1, r.2, e1, hr.step (.makeTwoQubitGate U m t0 t1 K r.2 ht hK hU hz e1), kn_validM (lt_one_of_small hτ hz) a3.kn,
    a2.keeps hJ hτ hi a1, fun q => ?_, a4, twoK τ K (min t0 t1) (max t0 t1), fun j => by linarith [twoK_lo hτ hK (min t0 t1) (max t0 t1) j], a3.rc, ?_⟩
  · refine le_trans (le_of_eq (Finset.sum_congr rfl fun c _ => ?_)) (a3.err q)
    rw [matJ_eq, tw_twoMat t0.isLt t1.isLt]
  · have hlt : min (t0 : Nat) t1 < max (t0 : Nat) t1 := by omega
    have k := twoK_kappa hτ hK hlt hz
    rw [if_pos (by omega), if_pos (by omega)] at k
    refine k.trans ?_
    have e0 : 1000 * ((m : R) + 1) * τ = 1000 * ((m : R) * τ) + 1000 * τ := by ring
    have m0 := mul_nonneg (Nat.cast_nonneg (α := R) m) hτ
    have : K * (2 + 56 * τ) ≤ K * (2056 / 1000) := mul_le_mul_of_nonneg_left (by linarith) (by linarith)
    linarith

/-- **C84.** Gates with a large entry, or only one entry, in every block are as accurate as one-qubit gates. -/
theorem C84_sharp (hJ : J.Good) (hτ : 0 ≤ τ) (hR : J.Rounds τ) (hr : TReach J τ s) {n : Nat} (hn : n ≤ (s.tab .m).tab.nvars)
    (hz : 1000 * ((n : R) + 1) * τ ≤ 1) (h128 : n < 128) {U : Fin 4 → Fin 4 → Cx R}
    (hU : TwoGateOk (τ / 20) (3 / 5) (2 + 56 * τ) U) {t0 t1 : Fin n} (ht : t0 ≠ t1) :
    ∃ s' e, s.makeTwoQubitGateDD J U n t0 t1 = some (s', e) ∧ TReach J τ s' ∧ s'.ValidM J n e ∧ s.Keeps J s' ∧
      ∀ r, ∑ c, mag (s'.matJ J n e r c - twoMat U t0 t1 r c) ≤ 120 * τ * ((n : R) + 1) := by
  obtain ⟨s', e, h1, h2, h3, h4, h5, -⟩ := C84_gate hJ hτ hR hr hn hz h128 le_rfl hU ht
  refine ⟨s', e, h1, h2, h3, h4, fun r => (h5 r).trans ?_⟩
  have e0 : 1000 * ((n : R) + 1) * τ = 1000 * ((n : R) * τ) + 1000 * τ := by ring
  have m0 := mul_nonneg (Nat.cast_nonneg (α := R) n) hτ
  have h6 : (40 + 38 * (2 + 56 * τ)) * (τ * ((n : R) + 1)) ≤ 120 * (τ * ((n : R) + 1)) :=
    mul_le_mul_of_nonneg_right (by linarith) (by positivity)
  linarith

omit [IsStrictOrderedRing R] [HasSqrt R] [LawfulSqrt R] in
theorem C84_reject {n : Nat} (hn : n > (s.tab .m).tab.nvars) (U : Fin 4 → Fin 4 → Cx R) (t0 t1 : Nat) :
    s.makeTwoQubitGateDD J U n t0 t1 = none := by
  unfold JState.makeTwoQubitGateDD; rw [if_pos hn]

/-- **C84.** Rounding the entries of a gate. -/
theorem C84_rounded (hτ : 0 ≤ τ) (hτ1 : τ ≤ 1) {K : R} {U V : Fin 4 → Fin 4 → Cx R} (hV : TwoGateOk 0 (7 / 10) K V) (h : NearTwoGate τ U V) :
    TwoGateOk (τ / 20) (3 / 5) K U := by
  have le : ∀ i j, mag (U i j) ≤ mag (V i j) + τ / 20 := by
    intro i j
    have := mag_le_add (U i j) (V i j)
    have := (h i j).1
    linarith
  have ge : ∀ i j, mag (V i j) ≤ mag (U i j) + τ / 20 := by
    intro i j
    have h1 := mag_le_add (V i j) (U i j)
    rw [mag_sub_comm] at h1
    have := (h i j).1
    linarith
  have blk : ∀ f g : Fin 2 → Fin 2 → Fin 4, BlockOk 0 (7 / 10) K (fun i j => V (f i j) (g i j)) →
      BlockOk (τ / 20) (3 / 5) K (fun i j => U (f i j) (g i j)) := by
    rintro f g (⟨i, j, hc⟩ | ⟨k, l, hk⟩ | ⟨hK, a, ha⟩)
    · exact Or.inl ⟨i, j, by linarith [ge (f i j) (g i j)]⟩
    · exact Or.inr (Or.inl ⟨k, l, fun i j hij => (h _ _).2 (hk i j hij)⟩)
    · refine Or.inr (Or.inr ⟨hK, a, fun i j => (ha i j).imp (h _ _).2 (fun h1 => ?_)⟩)
      have h2 := abs_le.1 h1
      exact abs_le.2 ⟨by linarith [ge (f i j) (g i j)], by linarith [le (f i j) (g i j)]⟩
  obtain ⟨h1, ⟨i, j, h2⟩, h3⟩ := hV
  refine ⟨fun i j => by linarith [le i j, h1 i j], ⟨i, j, by linarith [ge i j]⟩, fun p q => ⟨?_, ?_⟩⟩
  · exact blk (fun i _ => pair p i) (fun _ j => pair q j) (h3 p q).1
  · exact blk (fun i _ => pair i p) (fun _ j => pair j q) (h3 p q).2

omit [FloorRing R] in
theorem blockOk_entries {c K : R} {u : Fin 2 → Fin 2 → Cx R} (h : ∀ i j, u i j = 0 ∨ c ≤ mag (u i j)) : BlockOk 0 c K u := by
  by_cases hz : ∀ i j, u i j = 0
  · exact Or.inr (Or.inl ⟨0, 0, fun i j _ => hz i j⟩)
  · push Not at hz
    obtain ⟨i, j, hij⟩ := hz
    exact Or.inl ⟨i, j, (h i j).resolve_left hij⟩

omit [FloorRing R] in
/-- The rows of the matrices of two gates with almost the same entries. -/
theorem near_rows_two (hτ : 0 ≤ τ) {n : Nat} {U V : Fin 4 → Fin 4 → Cx R} (h : NearTwoGate τ U V) {t0 t1 : Fin n} (ht : t0 ≠ t1) (r : Fin n → Fin 2) :
    ∑ c, mag (twoMat U t0 t1 r c - twoMat V t0 t1 r c) ≤ τ / 5 := by
  classical
  have key : ∀ c, mag (twoMat U t0 t1 r c - twoMat V t0 t1 r c) ≤
      ∑ b : Fin 2 × Fin 2, if c = Function.update (Function.update r t0 b.1) t1 b.2 then τ / 20 else 0 := by
    intro c
    have p0 : ∀ b ∈ (Finset.univ : Finset (Fin 2 × Fin 2)), (0 : R) ≤ if c = Function.update (Function.update r t0 b.1) t1 b.2 then τ / 20 else 0 := by
      intro b _; split_ifs <;> linarith
    unfold twoMat
    split_ifs with a1
    · refine le_trans (h _ _).1 (le_trans (le_of_eq ?_) (Finset.single_le_sum p0 (Finset.mem_univ (c t0, c t1))))
      rw [if_pos]
      funext i
      by_cases hi : i = t1
      · subst hi; simp
      · rw [Function.update_of_ne hi]
        by_cases hj : i = t0
        · subst hj; simp
        · rw [Function.update_of_ne hj]; exact (a1 i hj hi).symm
    · rw [sub_self, mag_zero]; exact Finset.sum_nonneg p0
  refine (Finset.sum_le_sum fun c _ => key c).trans (le_of_eq ?_)
  rw [Finset.sum_comm]
  simp only [Finset.sum_ite_eq', Finset.mem_univ, if_true]
  simp
  ring

/-- **C84.** Applying a two-qubit gate to a state: `multiply` of the diagram of the gate by the diagram of a state whose norm is at most 3/2 yields
the product of the intended matrix `V` and the state up to a multiple of `τ`. `B` bounds the norms of the nodes of the state (1 if they are
normalised). -/
theorem C84_apply (hJ : J.Good) (hτ : 0 ≤ τ) (hR : J.Rounds τ) (hr : TReach J τ s) {n : Nat} (hm : n ≤ (s.tab .m).tab.nvars)
    (hn : 1000 * ((n : R) + 1) ^ 2 * (3 / 2) ^ n * τ ≤ 1) (h128 : n < 128) {K : R} (hK : 2 + 56 * τ ≤ K) {U V : Fin 4 → Fin 4 → Cx R}
    (hV : TwoGateOk 0 (7 / 10) K V) (hUV : NearTwoGate τ U V) {t0 t1 : Fin n} (ht : t0 ≠ t1)
    {B : R} (hB : 0 ≤ B) {x : PtrEdge} (hx : s.ValidV J n x) (hxB : s.NormLe J B n x.p) (hv : vnorm (s.vecJ J n x) ≤ 3 / 2) :
    ∃ s2 e, s.makeTwoQubitGateDD J U n t0 t1 = some (s2, e) ∧ TReach J τ (s2.multiply J e x).1 ∧
      (s2.multiply J e x).1.ValidV J n (s2.multiply J e x).2 ∧
      ∀ d, mag ((s2.multiply J e x).1.vecJ J n (s2.multiply J e x).2 d - (twoMat V t0 t1).mulVec (s.vecJ J n x) d) ≤
        232 * K * τ * ((n : R) + 1) ^ 2 * (1 + B) := by
  have hz := smallM_small hτ hn
  have hτ1' := (lt_one_of_small hτ hz).le
  have hU := C84_rounded hτ hτ1' hV hUV
  have hi := hr.inv hJ hR hτ
  obtain ⟨s2, e, h1, r2, v2, k2, b2, w2, L, hL, hLr, hLp⟩ := C84_gate hJ hτ hR hr hm hz h128 hK hU ht
  have i2 := r2.inv hJ hR hτ
  have gr : Grow J s s2 := by
    obtain ⟨r, e1, -, a2, -⟩ := makeTwo_acc hJ hτ hi (fun e => ht (Fin.ext e)) t0.isLt t1.isLt hz hm hK hU
    rw [h1] at e1
    rw [← Option.some.inj e1] at a2
    exact a2
  obtain ⟨vx2, ex2⟩ := k2.1 n x hx
  have hxB2 := gr.normLe hi i2 hx.node hxB
  obtain ⟨m1, -, m3, -⟩ := multiply_acc hJ hτ i2 v2 vx2
  have n0 : (0 : R) ≤ n := Nat.cast_nonneg n
  have hτ1 : 1000 * τ ≤ 1 := by
    have : 1000 * ((n : R) + 1) * τ = 1000 * ((n : R) * τ) + 1000 * τ := by ring
    have := mul_nonneg n0 hτ
    linarith
  have hw := state_weight_le hτ i2 hz vx2 (by rw [ex2]; exact hv)
  have hmul := C68_multiply hJ hτ hR r2 hn v2 vx2 hL hLr hB hxB2 (X := 1 + 3 / 2 * τ) (Y := 8 / 5) (by linarith) (by norm_num) w2 hw
  refine ⟨s2, e, h1, r2.step (.multiply n e x v2 vx2), m3, fun d => ?_⟩
  have hd := hmul d
  set M := ((n : R) + 1) ^ 2 with hM
  have M1 : (n : R) + 1 ≤ M := by rw [hM]; nlinarith
  have M0 : 0 ≤ M := by linarith
  have K0 : 2 ≤ K := by linarith
  have b3 : ∀ r, ∑ c, mag (s2.matJ J n e r c - twoMat V t0 t1 r c) ≤ (40 + 38 * K) * τ * ((n : R) + 1) + τ / 5 := by
    intro r
    have q1 : ∀ c ∈ Finset.univ, mag (s2.matJ J n e r c - twoMat V t0 t1 r c) ≤
        mag (s2.matJ J n e r c - twoMat U t0 t1 r c) + mag (twoMat U t0 t1 r c - twoMat V t0 t1 r c) := fun c _ => mag_tri _ _ _
    have q2 := Finset.sum_le_sum q1
    rw [Finset.sum_add_distrib] at q2
    linarith [b2 r, near_rows_two hτ hUV ht r]
  have p0 : 0 ≤ τ * M * (1 + B) := by positivity
  have h2 : 41 * τ * M * ((∏ j ∈ Finset.range n, L j) * (1 + B)) * ((1 + 3 / 2 * τ) * (8 / 5)) ≤ 143 * K * (τ * M * (1 + B)) := by
    have a1 : (∏ j ∈ Finset.range n, L j) * ((1 + 3 / 2 * τ) * (8 / 5)) ≤ 54 / 25 * K * (803 / 500) :=
      mul_le_mul hLp (by linarith) (by linarith) (by linarith)
    have a3 := mul_le_mul_of_nonneg_left a1 p0
    have e1 : 41 * τ * M * ((∏ j ∈ Finset.range n, L j) * (1 + B)) * ((1 + 3 / 2 * τ) * (8 / 5)) =
        41 * (τ * M * (1 + B) * ((∏ j ∈ Finset.range n, L j) * ((1 + 3 / 2 * τ) * (8 / 5)))) := by ring
    rw [e1]
    have a4 : 0 ≤ K * (τ * M * (1 + B)) := by positivity
    linarith
  have h3 : mag ((s2.matJ J n e).mulVec (s2.vecJ J n x) d - (twoMat V t0 t1).mulVec (s.vecJ J n x) d) ≤ 88 * K * (τ * M * (1 + B)) := by
    rw [ex2]
    have e1 : (s2.matJ J n e).mulVec (s.vecJ J n x) d - (twoMat V t0 t1).mulVec (s.vecJ J n x) d =
        ∑ c, (s2.matJ J n e d c - twoMat V t0 t1 d c) * s.vecJ J n x c := by
      unfold Matrix.mulVec dotProduct
      rw [← Finset.sum_sub_distrib]
      exact Finset.sum_congr rfl fun c _ => by ring
    rw [e1]
    refine (mag_sum _ _).trans ?_
    have h4 : ∑ c, mag ((s2.matJ J n e d c - twoMat V t0 t1 d c) * s.vecJ J n x c) ≤ ∑ c, mag (s2.matJ J n e d c - twoMat V t0 t1 d c) * (3 / 2) := by
      refine Finset.sum_le_sum fun c _ => ?_
      rw [mag_mul]
      exact mul_le_mul_of_nonneg_left ((mag_le_vnorm _ c).trans hv) (mag_nonneg _)
    rw [← Finset.sum_mul] at h4
    have h5 := mul_le_mul_of_nonneg_right (b3 d) (by norm_num : (0 : R) ≤ 3 / 2)
    have h6 : τ * ((n : R) + 1) ≤ τ * M * (1 + B) := by
      have q1 := mul_le_mul_of_nonneg_left M1 hτ
      have q2 : 0 ≤ τ * M * B := by positivity
      linarith
    have h8 : τ * 1 ≤ τ * ((n : R) + 1) := mul_le_mul_of_nonneg_left (by linarith) hτ
    have h9 := mul_le_mul_of_nonneg_left h6 (by linarith : 0 ≤ 40 + 38 * K)
    have h10 := mul_le_mul_of_nonneg_right K0 p0
    have e9 : (40 + 38 * K) * τ * ((n : R) + 1) = (40 + 38 * K) * (τ * ((n : R) + 1)) := by ring
    rw [e9] at h5
    refine h4.trans (h5.trans ?_)
    linarith
  refine (mag_tri _ ((s2.matJ J n e).mulVec (s2.vecJ J n x) d) _).trans ?_
  have e8 : 232 * K * τ * M * (1 + B) = 232 * K * (τ * M * (1 + B)) := by ring
  rw [e8]
  have : 0 ≤ K * (τ * M * (1 + B)) := by positivity
  linarith

section

open Gates Real

theorem mag_of_sq {z : Cx ℝ} {a : ℝ} (h : z.mag2 = a * a) (ha : 0 ≤ a) : mag z = a := by
  unfold mag; rw [h]; exact Real.sqrt_mul_self ha

theorem mag_onRe (x : ℝ) : mag (⟨x, 0⟩ : Cx ℝ) = |x| := mag_of_sq (by simp [Cx.mag2]) (abs_nonneg _)

theorem mag_onIm (x : ℝ) : mag (⟨0, x⟩ : Cx ℝ) = |x| := mag_of_sq (by simp [Cx.mag2]) (abs_nonneg _)

theorem mag_cs {c s : ℝ} (h : c ^ 2 + s ^ 2 = 1) : mag (⟨c, s⟩ : Cx ℝ) = 1 := mag_of_sq (by simp only [Cx.mag2]; linarith) zero_le_one

theorem mag_cs_mul {c s : ℝ} (x : ℝ) (h : c ^ 2 + s ^ 2 = 1) : mag (⟨c * x, s * x⟩ : Cx ℝ) = |x| :=
  mag_of_sq (by simp only [Cx.mag2]; rw [abs_mul_abs_self]; linear_combination x * x * h) (abs_nonneg _)

theorem cs_big {c s : ℝ} (h : c ^ 2 + s ^ 2 = 1) : 7 / 10 ≤ |c| ∨ 7 / 10 ≤ |s| := by
  by_contra hc
  push Not at hc
  have h1 := sq_abs c
  have h2 := sq_abs s
  nlinarith [abs_nonneg c, abs_nonneg s]

theorem twoGateOk_entries {K : ℝ} {U : Fin 4 → Fin 4 → Cx ℝ} (h : ∀ i j, U i j = 0 ∨ mag (U i j) = 1 ∨ mag (U i j) = sqrt12)
    (h0 : ∃ i j, U i j ≠ 0) : TwoGateOk 0 (7 / 10) K U := by
  have h : ∀ i j, U i j = 0 ∨ 7 / 10 ≤ mag (U i j) ∧ mag (U i j) ≤ 1 := by
    obtain ⟨-, h1, h2⟩ := sqrt12_num (R := ℝ)
    intro i j
    rcases h i j with h | h | h
    · exact Or.inl h
    · rw [h]; norm_num
    · rw [h]; exact Or.inr ⟨by linarith, by linarith⟩
  refine ⟨fun i j => ?_, ?_, fun p q => ⟨blockOk_entries fun i j => (h _ _).imp id And.left, blockOk_entries fun i j => (h _ _).imp id And.left⟩⟩
  · rcases h i j with h | h
    · rw [h]; simp [mag_zero]
    · linarith [h.2]
  · obtain ⟨i, j, h0⟩ := h0
    exact ⟨i, j, ((h i j).resolve_left h0).1⟩

theorem blockOk_same {K : ℝ} {u : Fin 2 → Fin 2 → Cx ℝ} (hK : 26 ≤ K) (a : ℝ) (h : ∀ i j, u i j = 0 ∨ mag (u i j) = a) :
    BlockOk 0 (7 / 10) K u :=
  Or.inr (Or.inr ⟨hK, a, fun i j => (h i j).imp id fun h => by simp [h]⟩)

theorem blockOk_big {K : ℝ} {u : Fin 2 → Fin 2 → Cx ℝ} (i j : Fin 2) (h : 7 / 10 ≤ mag (u i j)) : BlockOk 0 (7 / 10) K u := Or.inl ⟨i, j, h⟩

theorem blockOk_single {K : ℝ} {u : Fin 2 → Fin 2 → Cx ℝ} (k l : Fin 2) (h : ∀ i j, (i, j) ≠ (k, l) → u i j = 0) : BlockOk 0 (7 / 10) K u :=
  Or.inr (Or.inl ⟨k, l, h⟩)

/-- **C84.** The fixed gates, and the rotation `RZZ`, satisfy the assumption. -/
theorem C84_gates (K θ : ℝ) :
    TwoGateOk 0 (7 / 10) K CXmat ∧ TwoGateOk 0 (7 / 10) K CZmat ∧ TwoGateOk 0 (7 / 10) K SWAPmat ∧ TwoGateOk 0 (7 / 10) K iSWAPmat ∧
    TwoGateOk 0 (7 / 10) K iSWAPinvmat ∧ TwoGateOk 0 (7 / 10) K ECRmat ∧ TwoGateOk 0 (7 / 10) K DCXmat ∧ TwoGateOk 0 (7 / 10) K (RZZmat θ) := by
  have hs : |(sqrt12 : ℝ)| = sqrt12 := abs_of_pos sqrt12_pos
  have hθ := cos_sq_add_sin_sq (θ / 2)
  refine ⟨?_, ?_, ?_, ?_, ?_, ?_, ?_, twoGateOk_entries (fun i j => ?_) ⟨0, 0, ?_⟩⟩
  iterate 5
    refine twoGateOk_entries (fun i j => ?_) ⟨0, 0, by simp [CXmat, CZmat, SWAPmat, iSWAPmat, iSWAPinvmat, one, Cx.ext_iff]⟩
    fin_cases i <;> fin_cases j <;>
      simp [CXmat, CZmat, SWAPmat, iSWAPmat, iSWAPinvmat, one, mone, Gates.i, mi, Gates.zero, mag_onRe, mag_onIm, Cx.ext_iff]
  · refine twoGateOk_entries (fun i j => ?_) ⟨0, 2, by simp [ECRmat, SQRT2_2, Cx.ext_iff, sqrt12_pos.ne']⟩
    fin_cases i <;> fin_cases j <;>
      simp [ECRmat, SQRT2_2, iSQRT2_2, miSQRT2_2, Gates.zero, mag_onRe, mag_onIm, Cx.ext_iff, hs]
  · refine twoGateOk_entries (fun i j => ?_) ⟨0, 0, by simp [DCXmat, one, Cx.ext_iff]⟩
    fin_cases i <;> fin_cases j <;> simp [DCXmat, one, Gates.zero, mag_onRe, Cx.ext_iff]
  · have h1 := mag_cs hθ
    have h2 := mag_cs (c := cos (θ / 2)) (s := -sin (θ / 2)) (by linarith)
    fin_cases i <;> fin_cases j <;> simp [RZZmat, Gates.zero, Cx.ext_iff, h1, h2]
  · intro h
    have h2 := mag_cs (c := cos (θ / 2)) (s := -sin (θ / 2)) (by linarith)
    rw [show (⟨cos (θ / 2), -sin (θ / 2)⟩ : Cx ℝ) = 0 from h, mag_zero] at h2
    norm_num at h2

/-- **C84.** The gates `XXMinusYY` and `XXPlusYY` satisfy the assumption for all angles. -/
theorem C84_gates_xxyy (K θ β : ℝ) : TwoGateOk 0 (7 / 10) K (XXMinusYYmat θ β) ∧ TwoGateOk 0 (7 / 10) K (XXPlusYYmat θ β) := by
  have h1 : |cos (θ / 2)| ≤ 1 := abs_cos_le_one _
  have h2 : |sin (θ / 2)| ≤ 1 := abs_sin_le_one _
  have hβ := cos_sq_add_sin_sq β
  have h3 := mag_cs_mul (c := sin β) (s := -cos β) (sin (θ / 2)) (by linarith)
  have h4 := mag_cs_mul (c := -sin β) (s := -cos β) (sin (θ / 2)) (by linarith)
  constructor
  · refine ⟨fun i j => ?_, ⟨1, 1, ?_⟩, fun p q => ?_⟩
    · fin_cases i <;> fin_cases j <;>
        simp only [XXMinusYYmat, one, Gates.zero, Matrix.cons_val, Fin.isValue, Fin.zero_eta, Fin.mk_one, Fin.reduceFinMk, mag_onRe, h3, h4] <;> norm_num [h1, h2]
    · simp [XXMinusYYmat, one, mag_onRe]; norm_num
    · fin_cases p <;> fin_cases q <;> refine ⟨?_, ?_⟩ <;>
      first
      | refine blockOk_big 0 0 ?_
        simp [pair, XXMinusYYmat, one, mag_onRe]; norm_num; done
      | refine blockOk_big 1 1 ?_
        simp [pair, XXMinusYYmat, one, mag_onRe]; norm_num; done
      | refine blockOk_single 0 1 ?_
        simp [Fin.forall_fin_two, pair, XXMinusYYmat, Gates.zero, Cx.ext_iff]; done
      | refine blockOk_single 1 0 ?_
        simp [Fin.forall_fin_two, pair, XXMinusYYmat, Gates.zero, Cx.ext_iff]; done
  · refine ⟨fun i j => ?_, ⟨0, 0, ?_⟩, fun p q => ?_⟩
    · fin_cases i <;> fin_cases j <;>
        simp only [XXPlusYYmat, one, Gates.zero, Matrix.cons_val, Fin.isValue, Fin.zero_eta, Fin.mk_one, Fin.reduceFinMk, mag_onRe, h3, h4] <;> norm_num [h1, h2]
    · simp [XXPlusYYmat, one, mag_onRe]; norm_num
    · fin_cases p <;> fin_cases q <;> refine ⟨?_, ?_⟩ <;>
      first
      | refine blockOk_big 0 0 ?_
        simp [pair, XXPlusYYmat, one, mag_onRe]; norm_num; done
      | refine blockOk_big 1 1 ?_
        simp [pair, XXPlusYYmat, one, mag_onRe]; norm_num; done
      | refine blockOk_single 0 1 ?_
        simp [Fin.forall_fin_two, pair, XXPlusYYmat, Gates.zero, Cx.ext_iff]; done
      | refine blockOk_single 1 0 ?_
        simp [Fin.forall_fin_two, pair, XXPlusYYmat, Gates.zero, Cx.ext_iff]; done

/-- **C84.** The rotations `RXX`, `RYY` and `RZX` satisfy the assumption for all angles with `K = 26`. -/
theorem C84_gates_rot {K : ℝ} (hK : 26 ≤ K) (θ : ℝ) :
    TwoGateOk 0 (7 / 10) K (RXXmat θ) ∧ TwoGateOk 0 (7 / 10) K (RYYmat θ) ∧ TwoGateOk 0 (7 / 10) K (RZXmat θ) := by
  have h1 : |cos (θ / 2)| ≤ 1 := abs_cos_le_one _
  have h2 : |sin (θ / 2)| ≤ 1 := abs_sin_le_one _
  have hb := cs_big (cos_sq_add_sin_sq (θ / 2))
  refine ⟨⟨fun i j => ?_, ?_, fun p q => ?_⟩, ⟨fun i j => ?_, ?_, fun p q => ?_⟩, ⟨fun i j => ?_, ?_, fun p q => ?_⟩⟩
  · fin_cases i <;> fin_cases j <;>
      simp only [RXXmat, Gates.zero, Matrix.cons_val, Fin.isValue, Fin.zero_eta, Fin.mk_one, Fin.reduceFinMk, mag_onRe, mag_onIm, abs_neg] <;> norm_num [h1, h2]
  · rcases hb with hb | hb
    · exact ⟨0, 0, by simpa [RXXmat, mag_onRe] using hb⟩
    · exact ⟨0, 3, by simpa [RXXmat, mag_onIm] using hb⟩
  · fin_cases p <;> fin_cases q <;> refine ⟨?_, ?_⟩ <;>
    first
    | refine blockOk_same hK |cos (θ / 2)| ?_
      simp [Fin.forall_fin_two, pair, RXXmat, Gates.zero, Cx.ext_iff, mag_onRe]; done
    | refine blockOk_same hK |sin (θ / 2)| ?_
      simp [Fin.forall_fin_two, pair, RXXmat, Gates.zero, Cx.ext_iff, mag_onIm]; done
  · fin_cases i <;> fin_cases j <;>
      simp only [RYYmat, Gates.zero, Matrix.cons_val, Fin.isValue, Fin.zero_eta, Fin.mk_one, Fin.reduceFinMk, mag_onRe, mag_onIm, abs_neg] <;> norm_num [h1, h2]
  · rcases hb with hb | hb
    · exact ⟨0, 0, by simpa [RYYmat, mag_onRe] using hb⟩
    · exact ⟨0, 3, by simpa [RYYmat, mag_onIm] using hb⟩
  · fin_cases p <;> fin_cases q <;> refine ⟨?_, ?_⟩ <;>
    first
    | refine blockOk_same hK |cos (θ / 2)| ?_
      simp [Fin.forall_fin_two, pair, RYYmat, Gates.zero, Cx.ext_iff, mag_onRe]; done
    | refine blockOk_same hK |sin (θ / 2)| ?_
      simp [Fin.forall_fin_two, pair, RYYmat, Gates.zero, Cx.ext_iff, mag_onIm]; done
  · fin_cases i <;> fin_cases j <;>
      simp only [RZXmat, Gates.zero, Matrix.cons_val, Fin.isValue, Fin.zero_eta, Fin.mk_one, Fin.reduceFinMk, mag_onRe, mag_onIm, abs_neg] <;> norm_num [h1, h2]
  · rcases hb with hb | hb
    · exact ⟨0, 0, by simpa [RZXmat, mag_onRe] using hb⟩
    · exact ⟨0, 1, by simpa [RZXmat, mag_onIm] using hb⟩
  · fin_cases p <;> fin_cases q <;> refine ⟨?_, ?_⟩ <;>
    first
    | refine blockOk_same hK |cos (θ / 2)| ?_
      simp [Fin.forall_fin_two, pair, RZXmat, Gates.zero, Cx.ext_iff, mag_onRe]; done
    | refine blockOk_same hK |sin (θ / 2)| ?_
      simp [Fin.forall_fin_two, pair, RZXmat, Gates.zero, Cx.ext_iff, mag_onIm]; done
    | rcases hb with hb | hb
      · refine blockOk_big 0 0 ?_
        simpa [pair, RZXmat, mag_onRe] using hb
      · refine blockOk_big 0 1 ?_
        simpa [pair, RZXmat, mag_onIm] using hb
end

end DD

namespace DD.Ex

open Pkg Gates

/-- With the tolerance of the package: the gate `iSWAP` on qubits 2 and 0 of 3, applied to the state |0…0⟩. -/
example : ∃ s x s2 e, TReach JR (1 / 2 ^ 42) s ∧ s.ValidV JR 3 x ∧ s.makeTwoQubitGateDD JR iSWAPmat 3 2 0 = some (s2, e) ∧
    (∀ d, mag (s.vecJ JR 3 x d - if d = fun _ => 0 then 1 else 0) ≤ 36 / 2 ^ 42) ∧
    ∀ d, mag ((s2.multiply JR e x).1.vecJ JR 3 (s2.multiply JR e x).2 d - (twoMat iSWAPmat 2 0).mulVec (s.vecJ JR 3 x) d) ≤ 1 / 10 ^ 6 := by
  have hτ : (0 : ℝ) ≤ 1 / 2 ^ 42 := by norm_num
  obtain ⟨s, x, -, r1, v1, k1, b1⟩ := C74_zero JR_good hτ (JR_rounds hτ) (JR_sq hτ) (jr_reach (1 / 2 ^ 42) 3) (n := 3) (le_refl 3) (by norm_num)
  have n1 : 3 ≤ (s.tab .m).tab.nvars := by rw [k1.2.2 .m]; exact le_refl 3
  have hv : vnorm (s.vecJ JR 3 x) ≤ 3 / 2 := by
    have h1 := vnorm_sup (f := fun d => s.vecJ JR 3 x d - if d = fun _ => 0 then 1 else 0) (by norm_num) b1
    have h2 := vnorm_add (fun d : Fin 3 → Fin 2 => if d = fun _ => 0 then (1 : Cx ℝ) else 0) (fun d => s.vecJ JR 3 x d - if d = fun _ => 0 then 1 else 0)
    have e0 : (fun d : Fin 3 → Fin 2 => (if d = fun _ => 0 then (1 : Cx ℝ) else 0) + (s.vecJ JR 3 x d - if d = fun _ => 0 then 1 else 0)) =
        s.vecJ JR 3 x := by funext d; ring
    have h3 : vnorm (fun d : Fin 3 → Fin 2 => if d = fun _ => 0 then (1 : Cx ℝ) else 0) ≤ 1 := by
      refine vnorm_le zero_le_one (le_of_eq ?_)
      rw [Finset.sum_eq_single (fun _ => 0)]
      · simp [Cx.mag2]
      · intro d _ hd; simp [hd, Cx.mag2]
      · intro h; exact absurd (Finset.mem_univ _) h
    rw [e0] at h2
    refine h2.trans ((add_le_add h3 h1).trans ?_)
    norm_num
  obtain ⟨-, hB⟩ := C68_bounds JR_good hτ (JR_rounds hτ) r1 (x := x) v1
  obtain ⟨s2, e, h1, -, -, h2⟩ := C84_apply JR_good hτ (JR_rounds hτ) r1 (n := 3) n1 (by norm_num) (by norm_num) (K := 3) (by norm_num)
    (C84_gates 3 0).2.2.2.1 (U := iSWAPmat) (fun i j => ⟨by rw [sub_self, mag_zero]; positivity, id⟩) (t0 := 2) (t1 := 0) (by decide)
    (by positivity) v1 hB hv
  exact ⟨s, x, s2, e, r1, v1, h1, fun d => (b1 d).trans (by norm_num), fun d => (h2 d).trans (by norm_num)⟩

/-- The square roots that occur in the run. -/
local instance twoRunSqrt : HasSqrt ℚ := ⟨fun q => if q = 9 / 25 then 3 / 5 else if q = 16 / 25 then 4 / 5 else q⟩

/-- A run with rational numbers and a tolerance: a rotation of two qubits, for both orders of the targets. -/
def twoRun : Option (List (Cx ℚ)) := do
  let U : Fin 4 → Fin 4 → Cx ℚ := ![![⟨3 / 5, 0⟩, ⟨0, -4 / 5⟩, 0, 0], ![⟨0, -4 / 5⟩, ⟨3 / 5, 0⟩, 0, 0],
    ![0, 0, ⟨3 / 5, 0⟩, ⟨0, 4 / 5⟩], ![0, 0, ⟨0, 4 / 5⟩, ⟨3 / 5, 0⟩]]
  let p ← jm.makeTwoQubitGateDD JQ U 2 1 0
  let q ← p.1.makeTwoQubitGateDD JQ U 2 0 1
  return [q.1.matJ JQ 2 p.2 ![0, 0] ![1, 0], q.1.matJ JQ 2 p.2 ![0, 1] ![1, 1], q.1.matJ JQ 2 p.2 ![0, 0] ![0, 1],
    q.1.matJ JQ 2 q.2 ![0, 0] ![1, 0], q.1.matJ JQ 2 q.2 ![0, 0] ![0, 1], q.1.matJ JQ 2 q.2 ![1, 1] ![1, 0]]

example : twoRun = some [⟨0, -4 / 5⟩, ⟨0, 4 / 5⟩, 0, 0, ⟨0, -4 / 5⟩, ⟨0, 4 / 5⟩] := by decide +kernel

end DD.Ex
