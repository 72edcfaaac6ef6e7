import Verif.Model.RealNum
import Mathlib.Data.Int.Log
import Mathlib.Data.Int.CardIntervalMod
import Mathlib.Algebra.Order.Floor.Ring
import Mathlib.Algebra.Group.Int.Even

/-!
# Double precision

The numbers of the code are of type `fp`, which is `double` (Definitions.hpp:24): IEEE 754 binary64 on the platforms the package is built
for. An operation yields the exact result rounded to the nearest number that has 53 binary digits and no digits below 2⁻¹⁰⁷⁴; of two that are
equally near, the one whose last digit is even. Simplification: there is no largest number, that is, overflow (from 2¹⁰²⁴) is not modelled.
-/

namespace DD

/-- The integer nearest to `x`, and the even one of two. -/
noncomputable def rne (x : ℝ) : ℤ :=
  if Int.fract x < 1 / 2 then ⌊x⌋ else if 1 / 2 < Int.fract x then ⌊x⌋ + 1 else if Even ⌊x⌋ then ⌊x⌋ else ⌊x⌋ + 1

/-- The exponent of the last binary digit kept. -/
noncomputable def ulpExp (x : ℝ) : ℤ := max (Int.log 2 |x| - 52) (-1074)

/-- The result of rounding `x` (the type `fp`, Definitions.hpp:24). -/
noncomputable def ieee (x : ℝ) : ℝ := rne (x / 2 ^ ulpExp x) * 2 ^ ulpExp x

end DD
