import Verif.Proofs.Double
import Verif.Props.C75
import Verif.Props.C78
import Verif.Props.C79

/-!
# C81: accuracy with double precision

The bounds of C59-C61, C68 and C74-C80 hold for every arithmetic whose rounding error is small against the tolerance. Here the arithmetic is that of
`double` and the tolerance is the one of the code, 1024 times the machine epsilon.
-/

namespace DD

open Pkg

/-- The package as it is compiled: numbers are doubles, the tables have their default sizes. The hash functions are left open. -/
noncomputable def JCfg.double (H : (k : NK) → (Fin k.ar → PtrEdge) → Nat) (h : CK → CKey ℝ → Nat) : JCfg ℝ where
  C := CCfg.default (ieee (Real.sqrt (1 / 2)))
  U := UCfg.default
  H := H
  h := h
  fl := ieee

variable {H : (k : NK) → (Fin k.ar → PtrEdge) → Nat} {h : CK → CKey ℝ → Nat}

/-- The default tolerance (ComplexTable.hpp:489). -/
noncomputable def tol : ℝ := 1 / 2 ^ 52 * 1024

theorem tol_eq : tol = 1 / 2 ^ 42 := by unfold tol; norm_num

theorem tol_nonneg : 0 ≤ tol := by rw [tol_eq]; positivity

/-- Numbers of absolute value at most one. -/
theorem ieee_small {x : ℝ} (hx : |x| ≤ 1) : |ieee x - x| ≤ 1 / 2 ^ 52 := by
  refine (ieee_err x).trans ?_
  have h1 : (1 : ℝ) / 2 ^ 1075 ≤ 1 / 2 ^ 53 := one_div_le_one_div_of_le (by positivity) (pow_le_pow_right₀ (by norm_num) (by norm_num))
  have h2 := mul_le_mul_of_nonneg_left hx (by positivity : (0 : ℝ) ≤ 1 / 2 ^ 53)
  have h3 : (1 : ℝ) / 2 ^ 53 + 1 / 2 ^ 53 = 1 / 2 ^ 52 := by norm_num
  linarith

/-- **C81.** Double precision satisfies all that the other theorems assume of the arithmetic, the configuration and the constant
`SQRT2_2`. -/
theorem C81_arithmetic : (JCfg.double H h).Good ∧ (JCfg.double H h).Rounds tol ∧ (JCfg.double H h).Exact ∧ Monotone (JCfg.double H h).fl ∧
    SqOk (JCfg.double H h) tol := by
  refine ⟨⟨⟨show 0 < 65537 by decide, show 0 < 2048 by decide, show 0 < 2 by decide, show 0 < 2 ^ 32 - 1 by decide⟩, UCfg.default_good⟩, ?_, ⟨ieee_zero, ieee_one, ieee_idem⟩, ieee_mono, ?_⟩
  · have h0 : (0 : ℝ) ≤ 1 / 2 ^ 1075 := by positivity
    refine ⟨1 / 2 ^ 53, 1 / 2 ^ 1075, by positivity, ?_, by norm_num, h0, ?_, ?_, ieee_err⟩
    · rw [tol_eq]; norm_num
    · exact one_div_le_one_div_of_le (by positivity) (pow_le_pow_right₀ (by norm_num) (by norm_num))
    · rw [tol_eq, div_pow, one_pow, ← pow_mul, div_mul_div_comm, one_mul, ← pow_add]
      exact one_div_le_one_div_of_le (by positivity) (pow_le_pow_right₀ (by norm_num) (by norm_num))
  · show |ieee (Real.sqrt (1 / 2)) - Real.sqrt (1 / 2)| ≤ tol
    have h1 : |Real.sqrt (1 / 2)| ≤ 1 := by
      rw [abs_of_nonneg (Real.sqrt_nonneg _)]; exact Real.sqrt_le_one.2 (by norm_num)
    refine (ieee_small h1).trans ?_
    rw [tol_eq]
    norm_num

/-- A gate with rounded entries. -/
noncomputable def CGate.rounded {n : Nat} (g : CGate ℝ n) : CGate ℝ n := { g with U := fun i => ⟨ieee (g.U i).re, ieee (g.U i).im⟩ }

/-- **C81.** Rounding the entries of a unitary matrix is admissible. -/
theorem C81_rounded {n : Nat} {g : CGate ℝ n} (hg : IsUnitary (mat2 g.U)) : g.rounded.Near tol g := by
  refine ⟨rfl, rfl, fun i => ?_⟩
  have h1 := (unitary_entries hg).1 i
  have a := ieee_small ((abs_re_le (g.U i)).trans h1)
  have b := ieee_small ((abs_im_le (g.U i)).trans h1)
  refine (mag_of_comp (b := g.U i) (by positivity) a b).trans ?_
  rw [tol_eq]
  norm_num

theorem rounded_circ {n : Nat} {gs : List (CGate ℝ n)} (hU : ∀ g ∈ gs, IsUnitary (mat2 g.U)) : NearCirc tol (gs.map CGate.rounded) gs := by
  induction gs with
  | nil => exact .nil
  | cons g gs ih => exact .cons (C81_rounded (hU g List.mem_cons_self)) (ih fun g hg => hU g (List.mem_cons_of_mem _ hg))

/-- The sum of the errors, for the default tolerance. -/
theorem double_sum {n L : Nat} (hn : ((L : ℝ) + 1) * ((n : ℝ) + 1) ^ 2 * (9 / 4) ^ n ≤ 2 ^ 30) :
    1000 * ((n : ℝ) + 1) ^ 2 * (3 / 2) ^ n * tol ≤ 1 ∧ L * gateErr tol n ((3 / 2 * (1 + 4 * tol)) ^ n) ≤ 2 / 5 ∧
    L * gateErr tol n ((3 / 2 * (1 + 4 * tol)) ^ n) + 16 * tol * ((n : ℝ) + 1) * (3 / 2) ^ n ≤
      ((L : ℝ) + 1) * ((n : ℝ) + 1) ^ 2 * (9 / 4) ^ n / 2 ^ 32 := by
  have n0 : (0 : ℝ) ≤ n := Nat.cast_nonneg n
  have L0 : (0 : ℝ) ≤ L := Nat.cast_nonneg L
  have p1 : (1 : ℝ) ≤ (3 / 2) ^ n := one_le_pow₀ (by norm_num)
  have e9 : (9 / 4 : ℝ) ^ n = (3 / 2) ^ n * (3 / 2) ^ n := by rw [← mul_pow]; norm_num
  rw [e9] at hn ⊢
  set p : ℝ := (3 / 2) ^ n with hp
  set M : ℝ := ((n : ℝ) + 1) ^ 2 with hM
  have M1 : (n : ℝ) + 1 ≤ M := by rw [hM]; nlinarith
  have M0 : 1 ≤ M := by linarith
  have q0 : 0 ≤ M * (p * p) := by positivity
  have q1 : M * p ≤ M * (p * p) := mul_le_mul_of_nonneg_left (le_mul_of_one_le_left (by linarith) p1) (by linarith)
  have q2 : M * (p * p) ≤ ((L : ℝ) + 1) * M * (p * p) := by
    rw [mul_assoc]; exact le_mul_of_one_le_left q0 (by linarith)
  have hs : 1000 * M * p * tol ≤ 1 := by
    have : M * p ≤ 2 ^ 30 := by linarith
    rw [tol_eq]
    norm_num at this ⊢
    linarith
  have hB : (3 / 2 * (1 + 4 * tol)) ^ n ≤ 51 / 50 * p := by
    rw [mul_pow, ← hp, mul_comm]
    refine mul_le_mul_of_nonneg_right ?_ (by linarith)
    have h3 := bernoulli (x := 4 * tol) (by have := tol_nonneg; linarith) n
    have h4 : (n : ℝ) * (4 * tol) ≤ 4 / 1000 := by
      have h5 : (n : ℝ) ≤ M * p := by
        have := le_mul_of_one_le_right (by linarith : 0 ≤ M) p1
        linarith
      have := mul_le_mul_of_nonneg_right h5 tol_nonneg
      linarith
    have h5 : 0 ≤ (1 + 4 * tol) ^ n := by have := tol_nonneg; positivity
    have h6 : (1 + 4 * tol) ^ n * (1 - 4 / 1000) ≤ 1 := le_trans (mul_le_mul_of_nonneg_left (by linarith) h5) h3
    linarith
  have hG : gateErr tol n ((3 / 2 * (1 + 4 * tol)) ^ n) ≤ 650 * tol * (M * (p * p)) := by
    unfold gateErr
    rw [← hM, ← hp]
    have h1 : 1 + (3 / 2 * (1 + 4 * tol)) ^ n ≤ 101 / 50 * p := by linarith
    have h2 := mul_le_mul_of_nonneg_left h1 (by have := tol_nonneg; positivity : 0 ≤ 320 * tol * M * p)
    have h3 : 0 ≤ tol * (M * (p * p)) := mul_nonneg tol_nonneg q0
    have e : 320 * tol * M * p * (101 / 50 * p) = 320 * (101 / 50) * (tol * (M * (p * p))) := by ring
    rw [e] at h2
    linarith
  have hLG := mul_le_mul_of_nonneg_left hG L0
  have e1 : (L : ℝ) * (650 * tol * (M * (p * p))) = 650 * tol * (((L : ℝ) + 1) * M * (p * p)) - 650 * tol * (M * (p * p)) := by ring
  refine ⟨hs, ?_, ?_⟩
  · rw [e1] at hLG
    have h1 := mul_nonneg tol_nonneg q0
    have h2 := mul_le_mul_of_nonneg_left hn tol_nonneg
    have h3 : tol * 2 ^ 30 = 1 / 4096 := by rw [tol_eq]; norm_num
    linarith
  · have h1 : 16 * tol * ((n : ℝ) + 1) * p ≤ 16 * tol * (M * (p * p)) := by
      have h2 : ((n : ℝ) + 1) * p ≤ M * p := mul_le_mul_of_nonneg_right M1 (by linarith)
      have h3 := mul_le_mul_of_nonneg_left (h2.trans q1) (by have := tol_nonneg; positivity : 0 ≤ 16 * tol)
      linarith
    rw [e1] at hLG
    have h2 : 650 * tol * (((L : ℝ) + 1) * M * (p * p)) ≤ ((L : ℝ) + 1) * M * (p * p) / 2 ^ 32 := by
      have h3 : 0 ≤ ((L : ℝ) + 1) * M * (p * p) := by positivity
      rw [tol_eq]
      norm_num
      linarith
    have h3 := mul_nonneg tol_nonneg q0
    linarith

/-- **C81.** A circuit of unitary gates on `n` qubits, whose matrices are given in double precision, is run on the state |0…0⟩. If
`(L + 1) (n + 1)² (9/4)ⁿ` is at most 2³⁰, where `L` is the number of gates, the amplitudes that are read in the end are those of the circuit up to
2⁻³² times this number. No call fails. -/
theorem C81_circuit {s : JState ℝ} (hr : TReach (JCfg.double H h) tol s) {n : Nat} (hv : n ≤ (s.tab .v).tab.nvars)
    (hm : n ≤ (s.tab .m).tab.nvars) {gs : List (CGate ℝ n)} (hU : ∀ g ∈ gs, IsUnitary (mat2 g.U))
    (hn : ((gs.length : ℝ) + 1) * ((n : ℝ) + 1) ^ 2 * (9 / 4) ^ n ≤ 2 ^ 30) :
    ∃ s1 x, s.makeZeroState (JCfg.double H h) n = some (s1, x) ∧
      (∃ s' x', SimRuns (JCfg.double H h) tol (fun _ _ => True) (s1.holdV (JCfg.double H h) x) x (gs.map CGate.rounded) s' x') ∧
      ∀ s' x', SimRuns (JCfg.double H h) tol (fun _ _ => True) (s1.holdV (JCfg.double H h) x) x (gs.map CGate.rounded) s' x' →
        ∀ d, mag (s'.getVector (JCfg.double H h) n x' d - circuitMat gs d (fun _ => 0)) ≤
          ((gs.length : ℝ) + 1) * ((n : ℝ) + 1) ^ 2 * (9 / 4) ^ n / 2 ^ 32 := by
  obtain ⟨hJ, hR, -, -, hsq⟩ := C81_arithmetic (H := H) (h := h)
  obtain ⟨h1, h2, h3⟩ := double_sum hn
  have hτ := tol_nonneg
  have hz := smallM_small hτ h1
  obtain ⟨s1, x, h0, r1, v1, k1, -⟩ := C74_zero hJ hτ hR hsq hr hv hz
  have i1 := r1.inv hJ hR hτ
  obtain ⟨st, nv⟩ := holdV_spec hJ hτ i1 v1
  obtain ⟨v2, -⟩ := held_value hJ hτ i1 ((r1.step st).inv hJ hR hτ) (st.agree hJ hτ i1) v1 (holdV_held _ _)
  refine ⟨s1, x, h0, C75_runs hJ hτ hR hz hU (rounded_circ hU) (r1.step st) (by rw [nv, k1.2.2]; exact hm) v2, fun s' x' hrun d => ?_⟩
  have := C75_amplitudes hJ hτ hR hsq h1 hU hr h0 (rounded_circ hU) hrun (by rw [List.length_map]; exact h2) d
  rw [List.length_map] at this
  exact this.trans h3

/-- **C81.** An observable that is made from a unitary matrix whose entries are rounded, in a state of norm about one: the expectation value is
that of the observable up to 2⁻³² times `(n + 1)² (9/4)ⁿ`, if this is at most 2³⁰. -/
theorem C81_expectation {s : JState ℝ} (hr : TReach (JCfg.double H h) tol s) {n : Nat} (hnv : n ≤ (s.tab .m).tab.nvars)
    (hn : ((n : ℝ) + 1) ^ 2 * (9 / 4) ^ n ≤ 2 ^ 30) {g : CGate ℝ n} (hU : IsUnitary (mat2 g.U)) {y : PtrEdge}
    (hy : s.ValidV (JCfg.double H h) n y) (hy0 : 99 / 100 ≤ vnorm (s.vecJ (JCfg.double H h) n y))
    (hy1 : vnorm (s.vecJ (JCfg.double H h) n y) ≤ 101 / 100) :
    ∃ s1 e s2 r, s.makeGateDD (JCfg.double H h) g.rounded.U n g.controls g.target = some (s1, e) ∧
      s1.expectationValue (JCfg.double H h) e y = some (s2, r) ∧ TReach (JCfg.double H h) tol s2 ∧
      (∀ k, (s2.tab k).held = (s.tab k).held) ∧
      |r - (∑ d, (s.vecJ (JCfg.double H h) n y d).conj * g.mat.mulVec (s.vecJ (JCfg.double H h) n y) d).re| ≤
        ((n : ℝ) + 1) ^ 2 * (9 / 4) ^ n / 2 ^ 32 := by
  obtain ⟨hJ, hR, -, -, -⟩ := C81_arithmetic (H := H) (h := h)
  have q0 : (0 : ℝ) ≤ ((n : ℝ) + 1) ^ 2 * (9 / 4) ^ n := by positivity
  obtain ⟨s1, e, s2, r, c1, c2, c3, c4, c5⟩ := C79_any hJ tol_nonneg hR hr hnv
    (by rw [mul_assoc (2100 : ℝ), tol_eq]; norm_num at hn ⊢; linarith) hU (C81_rounded hU) hy hy0 hy1
  refine ⟨s1, e, s2, r, c1, c2, c3, c4, c5.trans ?_⟩
  rw [mul_right_comm, mul_right_comm, tol_eq]
  norm_num
  linarith

end DD

namespace DD.Ex

open Pkg

/-- A new package for two qubits in double precision. -/
noncomputable def jdbl : JState ℝ := JState.init (JCfg.double (fun _ _ => 0) (fun _ _ => 0)) tol 2 (fun _ => 1)
  (fun _ => ⟨0, fun _ => ⟨none, CNum.zero⟩, 0, false, false⟩)

theorem jdbl_reach : TReach (JCfg.double (fun _ _ => 0) (fun _ _ => 0)) tol jdbl := .init 2 _ (fun _ => by norm_num) _

/-- Entangling two qubits in double precision: the amplitudes are those of the circuit up to 10⁻⁷. -/
example : ∃ s1 x s' x', jdbl.makeZeroState (JCfg.double (fun _ _ => 0) (fun _ _ => 0)) 2 = some (s1, x) ∧
    SimRuns (JCfg.double (fun _ _ => 0) (fun _ _ => 0)) tol (fun _ _ => True) (s1.holdV (JCfg.double (fun _ _ => 0) (fun _ _ => 0)) x) x
      (bellGates.map CGate.rounded) s' x' ∧
    ∀ d, mag (s'.getVector (JCfg.double (fun _ _ => 0) (fun _ _ => 0)) 2 x' d - circuitMat bellGates d (fun _ => 0)) ≤ 1 / 10 ^ 7 := by
  obtain ⟨s1, x, h0, ⟨s', x', h1⟩, h2⟩ := C81_circuit jdbl_reach (n := 2) (le_refl 2) (le_refl 2) bellGates_unitary
    (by unfold bellGates; norm_num)
  refine ⟨s1, x, s', x', h0, h1, fun d => (h2 s' x' h1 d).trans ?_⟩
  unfold bellGates
  norm_num

/-- The condition holds for a thousand gates on ten qubits; every amplitude is then correct to one tenth. For a thousand gates on five qubits the
error is below 10⁻³. -/
example : (((1000 : Nat) : ℝ) + 1) * (((10 : Nat) : ℝ) + 1) ^ 2 * (9 / 4) ^ 10 ≤ 2 ^ 30 ∧
    (((1000 : Nat) : ℝ) + 1) * (((10 : Nat) : ℝ) + 1) ^ 2 * (9 / 4) ^ 10 / 2 ^ 32 ≤ 1 / 10 ∧
    (((1000 : Nat) : ℝ) + 1) * (((5 : Nat) : ℝ) + 1) ^ 2 * (9 / 4) ^ 5 / 2 ^ 32 ≤ 1 / 10 ^ 3 := by norm_num

/-- Rounding is not the identity. -/
example : ieee (1 / 3) ≠ 1 / 3 := by
  intro h
  have h1 : ulpExp (1 / 3) = -54 := by
    have : Int.log 2 |(1 / 3 : ℝ)| = -2 := by
      rw [abs_of_pos (by norm_num)]
      refine le_antisymm ?_ ?_
      · have : (1 / 3 : ℝ) < ((2 : ℕ) : ℝ) ^ (-1 : ℤ) := by norm_num
        have := (Int.lt_zpow_iff_log_lt (b := 2) (by norm_num) (by norm_num)).1 this
        omega
      · exact (Int.zpow_le_iff_le_log (b := 2) (by norm_num) (by norm_num)).1 (by norm_num)
    unfold ulpExp
    rw [this]
    norm_num
  unfold ieee at h
  rw [h1] at h
  generalize rne (1 / 3 / 2 ^ (-54 : ℤ)) = k at h
  norm_num at h
  have h2 : (k : ℝ) * 3 = 18014398509481984 := by linarith
  have h3 : k * 3 = 18014398509481984 := by exact_mod_cast h2
  omega

end DD.Ex
