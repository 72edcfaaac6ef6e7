import Verif.GateSpec

/-! # Evaluating gate matrices entry by entry -/

namespace DD

open Gates Real

/-- Twice the square of `SQRT2_2` is one. -/
theorem rsqrt12_sq : (Pkg.sqrt12 : ℝ) * Pkg.sqrt12 = 1 / 2 := by
  unfold Pkg.sqrt12; exact LawfulSqrt.mul_self _ (by norm_num)

theorem rsqrt12_nonneg : (0 : ℝ) ≤ Pkg.sqrt12 := LawfulSqrt.nonneg _

theorem rsqrt12_eq : (Pkg.sqrt12 : ℝ) = √2 / 2 := by
  have h1 := rsqrt12_sq
  have h2 : √2 / 2 * (√2 / 2) = 1 / 2 := by
    have := Real.mul_self_sqrt (show (0 : ℝ) ≤ 2 by norm_num)
    linarith
  have h3 : (0 : ℝ) ≤ √2 / 2 := by positivity
  nlinarith [rsqrt12_nonneg, mul_self_eq_mul_self_iff.1 (h1.trans h2.symm) |>.resolve_right (fun h => by
    have : (0 : ℝ) < √2 / 2 := by positivity
    have := rsqrt12_nonneg; linarith)]

macro "entries2" : tactic => `(tactic| (
  ext a b <;> fin_cases a <;> fin_cases b <;>
  simp [dagger, mat2, Matrix.mul_apply, Fin.sum_univ_two, Imat, Hmat, Xmat, Ymat, Zmat, Smat, Sdagmat, Tmat, Tdagmat, SXmat, SXdagmat,
    Vmat, Vdagmat, U2mat, U3mat, Phasemat, RXmat, RYmat, RZmat, one, zero, mone, i, mi, SQRT2_2, mSQRT2_2, iSQRT2_2, miSQRT2_2, onePlusI,
    oneMinusI, onePlusI2, oneMinusI2, imag, Matrix.smul_apply, Matrix.add_apply] ))

macro "entries4" : tactic => `(tactic| (
  ext a b <;> fin_cases a <;> fin_cases b <;>
  simp [dagger, mat2, mat4, tens, Matrix.mul_apply, Fin.sum_univ_four, Imat, Hmat, Xmat, Ymat, Zmat, Smat, Sdagmat, Tmat, Tdagmat, SXmat, SXdagmat,
    Vmat, Vdagmat, U2mat, U3mat, Phasemat, RXmat, RYmat, RZmat, CXmat, CZmat, SWAPmat, iSWAPmat, iSWAPinvmat, ECRmat, DCXmat, RXXmat, RYYmat,
    RZZmat, RZXmat, XXMinusYYmat, XXPlusYYmat,
    one, zero, mone, i, mi, SQRT2_2, mSQRT2_2, iSQRT2_2, miSQRT2_2, onePlusI,
    oneMinusI, onePlusI2, oneMinusI2, imag, Matrix.smul_apply, Matrix.add_apply] ))

end DD
