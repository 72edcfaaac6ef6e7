import Verif.Model.Cx
import Mathlib.Analysis.Real.Sqrt

/-! # The real numbers as components of edge weights -/

namespace DD

noncomputable instance : HasSqrt ℝ := ⟨Real.sqrt⟩

instance : LawfulSqrt ℝ where
  nonneg := Real.sqrt_nonneg
  mul_self := fun _ hx => Real.mul_self_sqrt hx

end DD
