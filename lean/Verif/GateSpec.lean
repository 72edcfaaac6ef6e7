import Verif.PkgSpec
import Verif.Model.Gates

/-!
# Specification of gates

What it means for a gate to be unitary, and controlled two-qubit gates as matrices.
-/

namespace DD

/-- The 2x2 matrix with the given entries, row by row. -/
def mat2 {R : Type} (U : Fin 4 → Cx R) : Matrix (Fin 2) (Fin 2) (Cx R) := !![U 0, U 1; U 2, U 3]

/-- The 4x4 matrix with the given entries. -/
def mat4 {R : Type} (U : Fin 4 → Fin 4 → Cx R) : Matrix (Fin 4) (Fin 4) (Cx R) := fun a b => U a b

/-- Conjugate transpose. -/
def dagger {R : Type} [Field R] {m : Nat} (M : Matrix (Fin m) (Fin m) (Cx R)) : Matrix (Fin m) (Fin m) (Cx R) :=
  fun a b => (M b a).conj

/-- `M` is unitary. -/
def IsUnitary {R : Type} [Field R] {m : Nat} (M : Matrix (Fin m) (Fin m) (Cx R)) : Prop := dagger M * M = 1 ∧ M * dagger M = 1

/-- The imaginary unit. -/
def imag {R : Type} [Field R] : Cx R := ⟨0, 1⟩

/-- Tensor product; the left factor belongs to the more significant bit. -/
def tens {R : Type} [Field R] (A B : Matrix (Fin 2) (Fin 2) (Cx R)) : Matrix (Fin 4) (Fin 4) (Cx R) :=
  fun a b => A (![0, 0, 1, 1] a) (![0, 0, 1, 1] b) * B (![0, 1, 0, 1] a) (![0, 1, 0, 1] b)

open Classical in
/-- `U` applied to the qubits `t0` (more significant index) and `t1` if the controls are satisfied, otherwise nothing. -/
noncomputable def ctrlTwoMat {R : Type} [Field R] {n : Nat} (U : Fin 4 → Fin 4 → Cx R) (controls : List Ctrl)
    (t0 t1 : Fin n) : QMat R n :=
  fun r c => if CtrlOK controls c then twoMat U t0 t1 r c else if r = c then 1 else 0

end DD
