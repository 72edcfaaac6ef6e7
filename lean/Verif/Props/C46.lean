import Verif.Proofs.GateMat

/-!
# C46: gate matrices
-/

namespace DD

open Gates Real

/-- The constant single-qubit gates are unitary. -/
theorem C46_constant : ∀ U ∈ [Imat, Hmat, Xmat, Ymat, Zmat, Smat, Sdagmat, Tmat, Tdagmat, SXmat, SXdagmat, Vmat, Vdagmat],
    IsUnitary (mat2 U) := by
  have hh := rsqrt12_sq
  simp only [List.forall_mem_cons, List.not_mem_nil, false_implies, implies_true, and_true]
  refine ⟨?_, ?_, ?_, ?_, ?_, ?_, ?_, ?_, ?_, ?_, ?_, ?_, ?_⟩
  all_goals constructor
  all_goals entries2
  all_goals grind

/-- The parametrised single-qubit gates are unitary for all angles. -/
theorem C46_parametrised (lambda phi theta : ℝ) :
    ∀ U ∈ [U3mat lambda phi theta, U2mat lambda phi, Phasemat lambda, RXmat lambda, RYmat lambda, RZmat lambda],
      IsUnitary (mat2 U) := by
  have hh := rsqrt12_sq
  have h1 := sin_sq_add_cos_sq lambda
  have h2 := sin_sq_add_cos_sq phi
  have h3 := sin_sq_add_cos_sq (theta / 2)
  have h4 := sin_sq_add_cos_sq (lambda / 2)
  have h5 := cos_add lambda phi
  have h6 := sin_add lambda phi
  simp only [List.forall_mem_cons, List.not_mem_nil, false_implies, implies_true, and_true]
  refine ⟨?_, ?_, ?_, ?_, ?_, ?_⟩
  all_goals constructor
  all_goals entries2
  all_goals grind

/-- The constant two-qubit gates are unitary. -/
theorem C46_two_constant : ∀ U ∈ [CXmat, CZmat, SWAPmat, iSWAPmat, iSWAPinvmat, ECRmat, DCXmat], IsUnitary (mat4 U) := by
  have hh := rsqrt12_sq
  simp only [List.forall_mem_cons, List.not_mem_nil, false_implies, implies_true, and_true]
  refine ⟨?_, ?_, ?_, ?_, ?_, ?_, ?_⟩
  all_goals constructor
  all_goals entries4
  all_goals grind

/-- The parametrised two-qubit gates are unitary for all angles. -/
theorem C46_two_parametrised (theta beta : ℝ) :
    ∀ U ∈ [RXXmat theta, RYYmat theta, RZZmat theta, RZXmat theta, XXMinusYYmat theta beta, XXPlusYYmat theta beta],
      IsUnitary (mat4 U) := by
  have h1 := sin_sq_add_cos_sq beta
  have h2 := sin_sq_add_cos_sq (theta / 2)
  simp only [List.forall_mem_cons, List.not_mem_nil, false_implies, implies_true, and_true]
  refine ⟨?_, ?_, ?_, ?_, ?_, ?_⟩
  all_goals constructor
  all_goals entries4
  all_goals grind

/-- The square roots. -/
theorem C46_roots :
    mat2 Smat * mat2 Smat = mat2 Zmat ∧ mat2 Tmat * mat2 Tmat = mat2 Smat ∧ mat2 SXmat * mat2 SXmat = mat2 Xmat ∧
      mat2 Vmat * mat2 Vmat = (-imag : Cx ℝ) • mat2 Xmat := by
  have hh := rsqrt12_sq
  refine ⟨?_, ?_, ?_, ?_⟩
  all_goals entries2
  all_goals grind

/-- The gates with `dag` or `inv` in their names are the adjoints of the others. -/
theorem C46_adjoints :
    mat2 Sdagmat = dagger (mat2 Smat) ∧ mat2 Tdagmat = dagger (mat2 Tmat) ∧ mat2 SXdagmat = dagger (mat2 SXmat) ∧
      mat2 Vdagmat = dagger (mat2 Vmat) ∧ mat4 iSWAPinvmat = dagger (mat4 iSWAPmat) := by
  refine ⟨?_, ?_, ?_, ?_, ?_⟩
  · entries2
  · entries2
  · entries2
  · entries2
  · entries4

/-- The Pauli and Hadamard relations. -/
theorem C46_pauli :
    mat2 Xmat * mat2 Ymat = (imag : Cx ℝ) • mat2 Zmat ∧ mat2 Ymat * mat2 Zmat = (imag : Cx ℝ) • mat2 Xmat ∧
      mat2 Zmat * mat2 Xmat = (imag : Cx ℝ) • mat2 Ymat ∧ mat2 Hmat * mat2 Xmat * mat2 Hmat = mat2 Zmat ∧
      mat2 Imat = 1 := by
  have hh := rsqrt12_sq
  refine ⟨?_, ?_, ?_, ?_, ?_⟩
  all_goals entries2
  all_goals grind

/-- The rotations are those about the axes `X`, `Y` and `Z`: `cos(λ/2) - i sin(λ/2) A`. -/
theorem C46_rotations (lambda : ℝ) :
    mat2 (RXmat lambda) = Cx.ofReal (cos (lambda / 2)) • 1 + (⟨0, -sin (lambda / 2)⟩ : Cx ℝ) • mat2 Xmat ∧
    mat2 (RYmat lambda) = Cx.ofReal (cos (lambda / 2)) • 1 + (⟨0, -sin (lambda / 2)⟩ : Cx ℝ) • mat2 Ymat ∧
    mat2 (RZmat lambda) = Cx.ofReal (cos (lambda / 2)) • 1 + (⟨0, -sin (lambda / 2)⟩ : Cx ℝ) • mat2 Zmat := by
  refine ⟨?_, ?_, ?_⟩
  all_goals entries2

/-- The two-qubit rotations are those about `X⊗X`, `Y⊗Y`, `Z⊗Z` and `Z⊗X`. -/
theorem C46_two_rotations (theta : ℝ) :
    mat4 (RXXmat theta) = Cx.ofReal (cos (theta / 2)) • 1 + (⟨0, -sin (theta / 2)⟩ : Cx ℝ) • tens (mat2 Xmat) (mat2 Xmat) ∧
    mat4 (RYYmat theta) = Cx.ofReal (cos (theta / 2)) • 1 + (⟨0, -sin (theta / 2)⟩ : Cx ℝ) • tens (mat2 Ymat) (mat2 Ymat) ∧
    mat4 (RZZmat theta) = Cx.ofReal (cos (theta / 2)) • 1 + (⟨0, -sin (theta / 2)⟩ : Cx ℝ) • tens (mat2 Zmat) (mat2 Zmat) ∧
    mat4 (RZXmat theta) = Cx.ofReal (cos (theta / 2)) • 1 + (⟨0, -sin (theta / 2)⟩ : Cx ℝ) • tens (mat2 Zmat) (mat2 Xmat) := by
  refine ⟨?_, ?_, ?_, ?_⟩
  all_goals entries4

/-- The gates expressed by the general gate `U3`, by `U2` and by the phase gate. -/
theorem C46_u3 (lambda phi theta : ℝ) :
    U2mat lambda phi = U3mat lambda phi (π / 2) ∧ Phasemat lambda = U3mat lambda 0 0 ∧
    RXmat theta = U3mat (π / 2) (-(π / 2)) theta ∧ RYmat theta = U3mat 0 0 theta ∧
    mat2 (Phasemat lambda) = (⟨cos (lambda / 2), sin (lambda / 2)⟩ : Cx ℝ) • mat2 (RZmat lambda) ∧
    Hmat = U2mat π 0 ∧ Zmat = Phasemat π ∧ Smat = Phasemat (π / 2) ∧ Tmat = Phasemat (π / 4) := by
  have h1 : cos (π / 2 / 2) = Pkg.sqrt12 := by rw [rsqrt12_eq, div_div]; norm_num
  have h2 : sin (π / 2 / 2) = Pkg.sqrt12 := by rw [rsqrt12_eq, div_div]; norm_num
  have h3 : cos (π / 4) = Pkg.sqrt12 := by rw [rsqrt12_eq, cos_pi_div_four]
  have h4 : sin (π / 4) = Pkg.sqrt12 := by rw [rsqrt12_eq, sin_pi_div_four]
  have h5 := sin_sq_add_cos_sq (lambda / 2)
  have h6 : cos lambda = 2 * cos (lambda / 2) ^ 2 - 1 := by rw [← cos_two_mul]; congr 1; ring
  have h7 : sin lambda = 2 * sin (lambda / 2) * cos (lambda / 2) := by rw [← sin_two_mul]; congr 1; ring
  refine ⟨?_, ?_, ?_, ?_, ?_, ?_, ?_, ?_, ?_⟩
  all_goals first | (ext a b <;> fin_cases a <;> fin_cases b) | (ext a <;> fin_cases a)
  all_goals simp [mat2, U2mat, U3mat, Phasemat, RXmat, RYmat, RZmat, Hmat, Zmat, Smat, Tmat, one, zero, mone, i, SQRT2_2, mSQRT2_2, onePlusI, h1, h2,
    h3, h4, Matrix.smul_apply]
  all_goals grind

/-- What the constant two-qubit gates do to basis states: `CX` and `CZ` apply `X` and `Z` to the second qubit if the first one is 1, `SWAP` and
`iSWAP` exchange the qubits (with a factor `i` if they differ), `DCX` is the `CX` controlled by the
second qubit followed by the one controlled by the first, and `ECR` is
`(X⊗1 - Y⊗X) / √2`. -/
theorem C46_two_actions :
    (∀ a b c d : Fin 2, CXmat (rc a b) (rc c d) = if a = c then (if a = 1 then mat2 Xmat b d else if b = d then 1 else 0) else 0) ∧
    (∀ a b c d : Fin 2, CZmat (rc a b) (rc c d) = if a = c then (if a = 1 then mat2 Zmat b d else if b = d then 1 else 0) else 0) ∧
    (∀ a b c d : Fin 2, SWAPmat (rc a b) (rc c d) = if a = d ∧ b = c then 1 else 0) ∧
    (∀ a b c d : Fin 2, iSWAPmat (rc a b) (rc c d) = if a = d ∧ b = c then (if a = b then 1 else imag) else 0) ∧
    (∀ a b c d : Fin 2, DCXmat (rc a b) (rc c d) = if a = c + d ∧ b = c then 1 else 0) ∧
    mat4 ECRmat = Cx.ofReal (√2)⁻¹ • (tens (mat2 Xmat) (mat2 Imat) - tens (mat2 Ymat) (mat2 Xmat)) := by
  refine ⟨?_, ?_, ?_, ?_, ?_, ?_⟩
  iterate 5
    simp only [Fin.forall_fin_two]
    refine ⟨⟨⟨⟨?_, ?_⟩, ?_, ?_⟩, ⟨?_, ?_⟩, ?_, ?_⟩, ⟨⟨?_, ?_⟩, ?_, ?_⟩, ⟨?_, ?_⟩, ?_, ?_⟩ <;>
      simp [rc, CXmat, CZmat, SWAPmat, iSWAPmat, DCXmat, mat2, Xmat, Zmat, one, zero, mone, i, imag, Cx.ext_iff]
  · have h : Pkg.sqrt12 = (√2)⁻¹ := by rw [rsqrt12_eq]; rw [Real.sqrt_div_self', one_div]
    entries4
    all_goals simp [h]

/-- The gates `XX-YY` and `XX+YY` are products of the rotations about `X⊗X` and `Y⊗Y`, conjugated with a phase gate on one of the qubits. -/
theorem C46_two_mixed (theta beta : ℝ) :
    mat4 (XXMinusYYmat theta 0) = mat4 (RXXmat (theta / 2)) * mat4 (RYYmat (-(theta / 2))) ∧
    mat4 (XXPlusYYmat theta 0) = mat4 (RXXmat (theta / 2)) * mat4 (RYYmat (theta / 2)) ∧
    mat4 (XXMinusYYmat theta beta) = tens (mat2 Imat) (mat2 (Phasemat (-beta))) * mat4 (XXMinusYYmat theta 0) * tens (mat2 Imat) (mat2 (Phasemat beta)) ∧
    mat4 (XXPlusYYmat theta beta) = tens (mat2 (Phasemat (-beta))) (mat2 Imat) * mat4 (XXPlusYYmat theta 0) * tens (mat2 (Phasemat beta)) (mat2 Imat) := by
  have h1 : cos (theta / 2) = 2 * cos (theta / 2 / 2) ^ 2 - 1 := by rw [← cos_two_mul]; congr 1; ring
  have h2 : sin (theta / 2) = 2 * sin (theta / 2 / 2) * cos (theta / 2 / 2) := by rw [← sin_two_mul]; congr 1; ring
  have h3 := sin_sq_add_cos_sq (theta / 2 / 2)
  have h4 := sin_sq_add_cos_sq beta
  have h5 : -(theta / 2) / 2 = -(theta / 2 / 2) := by ring
  refine ⟨?_, ?_, ?_, ?_⟩
  · entries4
    all_goals try rw [h5]
    all_goals simp
    all_goals grind
  · entries4
    all_goals grind
  · entries4
    all_goals grind
  · entries4
    all_goals grind

/-- Rotations about the same axis add up. -/
theorem C46_additive (x y : ℝ) :
    mat2 (RXmat x) * mat2 (RXmat y) = mat2 (RXmat (x + y)) ∧ mat2 (RYmat x) * mat2 (RYmat y) = mat2 (RYmat (x + y)) ∧
    mat2 (RZmat x) * mat2 (RZmat y) = mat2 (RZmat (x + y)) ∧
    mat2 (Phasemat x) * mat2 (Phasemat y) = mat2 (Phasemat (x + y)) := by
  have h1 : cos ((x + y) / 2) = cos (x / 2) * cos (y / 2) - sin (x / 2) * sin (y / 2) := by rw [add_div, cos_add]
  have h2 : sin ((x + y) / 2) = sin (x / 2) * cos (y / 2) + cos (x / 2) * sin (y / 2) := by rw [add_div, sin_add]
  have h3 := cos_add x y
  have h4 := sin_add x y
  refine ⟨?_, ?_, ?_, ?_⟩
  all_goals entries2
  all_goals grind

end DD
