import Mathlib.Algebra.Order.Field.Basic
import Mathlib.Algebra.Field.Basic
import Mathlib.Tactic.Ring
import Mathlib.Tactic.FieldSimp
import Mathlib.Tactic.Linarith
import Mathlib.Tactic.Positivity
import Mathlib.Tactic.LinearCombination

/-!
# Complex numbers over an ordered field

The package represents a complex number as a pair of `double`s. The model uses pairs over an arbitrary linearly ordered
field `R`; `R = ℝ` gives the complex numbers and `R = ℚ` gives numbers the kernel can compute with.
-/

namespace DD

/-- Values of edge weights. Models `dd::ComplexValue` (include/dd/ComplexValue.hpp:23-24) and the value of a
`dd::Complex` (Complex.hpp:19-29). Simplification: components are elements of a field, not `double`s. -/
@[ext]
structure Cx (R : Type) where
  re : R
  im : R
deriving DecidableEq, Repr

/-- Square root used by vector normalisation and measurement (`std::sqrt`). Only the operation; the law is separate. -/
class HasSqrt (R : Type) where
  sqrt : R → R

/-- What the theorems need of `std::sqrt`: it is the non-negative square root. -/
class LawfulSqrt (R : Type) [Field R] [LinearOrder R] [HasSqrt R] : Prop where
  nonneg : ∀ x : R, 0 ≤ HasSqrt.sqrt x
  mul_self : ∀ x : R, 0 ≤ x → HasSqrt.sqrt x * HasSqrt.sqrt x = x

namespace Cx

section Ring
variable {R : Type} [Field R]

instance : Zero (Cx R) := ⟨⟨0, 0⟩⟩
instance : One (Cx R) := ⟨⟨1, 0⟩⟩
/-- `ComplexNumbers::add` (ComplexNumbers.hpp:38-44). -/
instance : Add (Cx R) := ⟨fun a b => ⟨a.re + b.re, a.im + b.im⟩⟩
/-- `ComplexNumbers::sub` (ComplexNumbers.hpp:45-51). -/
instance : Sub (Cx R) := ⟨fun a b => ⟨a.re - b.re, a.im - b.im⟩⟩
/-- `ComplexNumbers::neg` (ComplexNumbers.hpp:108-114). -/
instance : Neg (Cx R) := ⟨fun a => ⟨-a.re, -a.im⟩⟩
/-- `ComplexNumbers::mul` (ComplexNumbers.hpp:52-70), without the shortcuts for operands equal to one, which do not
change the value at tolerance 0. -/
instance : Mul (Cx R) := ⟨fun a b => ⟨a.re * b.re - a.im * b.im, a.re * b.im + a.im * b.re⟩⟩

/-- `ComplexNumbers::mag2` (ComplexNumbers.hpp:90-94). -/
def mag2 (a : Cx R) : R := a.re * a.re + a.im * a.im

/-- `ComplexNumbers::conj` (ComplexNumbers.hpp:104-107). -/
def conj (a : Cx R) : Cx R := ⟨a.re, -a.im⟩

/-- A real number as a complex number. -/
def ofReal (x : R) : Cx R := ⟨x, 0⟩

@[simp] theorem zero_re : (0 : Cx R).re = 0 := rfl
@[simp] theorem zero_im : (0 : Cx R).im = 0 := rfl
@[simp] theorem one_re : (1 : Cx R).re = 1 := rfl
@[simp] theorem one_im : (1 : Cx R).im = 0 := rfl
@[simp] theorem add_re (a b : Cx R) : (a + b).re = a.re + b.re := rfl
@[simp] theorem add_im (a b : Cx R) : (a + b).im = a.im + b.im := rfl
@[simp] theorem sub_re (a b : Cx R) : (a - b).re = a.re - b.re := rfl
@[simp] theorem sub_im (a b : Cx R) : (a - b).im = a.im - b.im := rfl
@[simp] theorem neg_re (a : Cx R) : (-a).re = -a.re := rfl
@[simp] theorem neg_im (a : Cx R) : (-a).im = -a.im := rfl
@[simp] theorem mul_re (a b : Cx R) : (a * b).re = a.re * b.re - a.im * b.im := rfl
@[simp] theorem mul_im (a b : Cx R) : (a * b).im = a.re * b.im + a.im * b.re := rfl
@[simp] theorem conj_re (a : Cx R) : a.conj.re = a.re := rfl
@[simp] theorem conj_im (a : Cx R) : a.conj.im = -a.im := rfl
@[simp] theorem ofReal_re (x : R) : (ofReal x).re = x := rfl
@[simp] theorem ofReal_im (x : R) : (ofReal x).im = 0 := rfl

instance : CommRing (Cx R) where
  add_assoc a b c := by ext <;> simp [add_assoc]
  zero_add a := by ext <;> simp
  add_zero a := by ext <;> simp
  add_comm a b := by ext <;> simp [add_comm]
  neg_add_cancel a := by ext <;> simp
  sub_eq_add_neg a b := by ext <;> simp [sub_eq_add_neg]
  mul_assoc a b c := by ext <;> simp <;> ring
  one_mul a := by ext <;> simp
  mul_one a := by ext <;> simp
  zero_mul a := by ext <;> simp
  mul_zero a := by ext <;> simp
  left_distrib a b c := by ext <;> simp <;> ring
  right_distrib a b c := by ext <;> simp <;> ring
  mul_comm a b := by ext <;> simp <;> ring
  nsmul := nsmulRec
  zsmul := zsmulRec

@[simp] theorem conj_zero : (0 : Cx R).conj = 0 := by ext <;> simp
@[simp] theorem conj_one : (1 : Cx R).conj = 1 := by ext <;> simp
@[simp] theorem conj_conj (a : Cx R) : a.conj.conj = a := by ext <;> simp
theorem conj_mul (a b : Cx R) : (a * b).conj = a.conj * b.conj := by ext <;> simp <;> ring
theorem conj_add (a b : Cx R) : (a + b).conj = a.conj + b.conj := by ext <;> simp <;> ring
theorem mag2_mul (a b : Cx R) : (a * b).mag2 = a.mag2 * b.mag2 := by simp [mag2]; ring
@[simp] theorem mag2_zero : (0 : Cx R).mag2 = 0 := by simp [mag2]
@[simp] theorem mag2_one : (1 : Cx R).mag2 = 1 := by simp [mag2]
theorem mag2_conj (a : Cx R) : a.conj.mag2 = a.mag2 := by simp [mag2]
theorem mul_conj (a : Cx R) : a * a.conj = ofReal a.mag2 := by ext <;> simp [mag2]; ring
theorem mag2_ofReal (x : R) : (ofReal x).mag2 = x * x := by simp [mag2]
@[simp] theorem ofReal_zero : ofReal (0 : R) = 0 := rfl
@[simp] theorem ofReal_one : ofReal (1 : R) = 1 := rfl
theorem ofReal_mul (x y : R) : ofReal (x * y) = ofReal x * ofReal y := by ext <;> simp
theorem ofReal_add (x y : R) : ofReal (x + y) = ofReal x + ofReal y := by ext <;> simp

end Ring

section Ordered
variable {R : Type} [Field R] [LinearOrder R] [IsStrictOrderedRing R]

theorem mag2_nonneg (a : Cx R) : 0 ≤ a.mag2 := by
  unfold mag2; nlinarith [mul_self_nonneg a.re, mul_self_nonneg a.im]

theorem mag2_eq_zero {a : Cx R} : a.mag2 = 0 ↔ a = 0 := by
  constructor
  · intro h
    unfold mag2 at h
    have h1 := mul_self_nonneg a.re
    have h2 := mul_self_nonneg a.im
    ext
    · exact mul_self_eq_zero.1 (by linarith)
    · exact mul_self_eq_zero.1 (by linarith)
  · rintro rfl; simp

theorem mag2_pos {a : Cx R} (h : a ≠ 0) : 0 < a.mag2 :=
  lt_of_le_of_ne (mag2_nonneg a) (fun e => h (mag2_eq_zero.1 e.symm))

/-- Field structure. The division is `ComplexNumbers::div` (ComplexNumbers.hpp:71-89), without the shortcuts, which do
not change the value at tolerance 0. Division by zero yields 0 in the model; `double` division would give NaN or
infinity. -/
instance : Field (Cx R) where
  inv := fun a => ⟨a.re / a.mag2, -a.im / a.mag2⟩
  div := fun a b => ⟨(a.re * b.re + a.im * b.im) / b.mag2, (a.im * b.re - a.re * b.im) / b.mag2⟩
  div_eq_mul_inv a b := by
    ext
    · change (a.re * b.re + a.im * b.im) / b.mag2 = a.re * (b.re / b.mag2) - a.im * (-b.im / b.mag2); ring
    · change (a.im * b.re - a.re * b.im) / b.mag2 = a.re * (-b.im / b.mag2) + a.im * (b.re / b.mag2); ring
  exists_pair_ne := ⟨0, 1, fun h => by have := congrArg Cx.re h; simp at this⟩
  mul_inv_cancel a ha := by
    have h := (mag2_pos ha).ne'
    ext
    · change a.re * (a.re / a.mag2) - a.im * (-a.im / a.mag2) = 1
      field_simp; rw [mag2]; ring
    · change a.re * (-a.im / a.mag2) + a.im * (a.re / a.mag2) = 0
      field_simp; ring
  inv_zero := by ext <;> change _ / _ = _ <;> simp
  nnqsmul := _
  nnqsmul_def := fun _ _ => rfl
  qsmul := _
  qsmul_def := fun _ _ => rfl

theorem div_def' (a b : Cx R) : a / b =
    ⟨(a.re * b.re + a.im * b.im) / b.mag2, (a.im * b.re - a.re * b.im) / b.mag2⟩ := rfl

end Ordered

end Cx

end DD
