import Verif.Model.Double

/-!
# Doubles one by one

The finite values of the type `fp` (Definitions.hpp:24) are numbered in increasing order: the number of a positive double is its
bit pattern (IEEE 754 binary64: 52 bits fraction, exponent above), negative doubles have negative numbers, and both zeros have
the number 0 (they compare as equal). As in Model/Double.lean there is no largest double. `DD.maxDbl` is the number of the
largest double of the hardware.
-/

namespace DD

/-- The double with bit pattern `n` (sign bit 0): exponent field `n / 2⁵²`, fraction `n % 2⁵²`. -/
noncomputable def decode (n : ℕ) : ℝ :=
  if n / 2 ^ 52 = 0 then (n : ℝ) * 2 ^ (-1074 : ℤ)
  else ((2 ^ 52 + n % 2 ^ 52 : ℕ) : ℝ) * 2 ^ (((n / 2 ^ 52 : ℕ) : ℤ) - 1075)

/-- The double with the number `k`. -/
noncomputable def dval (k : ℤ) : ℝ := if 0 ≤ k then decode k.toNat else - decode (-k).toNat

/-- The number of the largest finite double: all bits of the fraction are one, the exponent field is 2046. -/
def maxDbl : ℤ := 2047 * 2 ^ 52 - 1

/-- `std::nextafter(a, b)` (C standard 7.12.11.3, used in Definitions.hpp:97, 101): the next double after `a` in the direction
of `b`; `b` if they are equal. That the neighbours of a number are its neighbours among the doubles is `C87_neighbours`. -/
def nextAfter (a b : ℤ) : ℤ := if a = b then b else if a < b then a + 1 else a - 1

/-- The loop of `ulpDistance` (Definitions.hpp:99-102); the first argument bounds the number of rounds, `none` means that
the loop has not ended. -/
def ulpLoop (b : ℤ) : ℕ → ℕ → ℤ → Option ℕ
  | 0, ulps, next => if next ≠ b then none else some ulps
  | f + 1, ulps, next => if next ≠ b then ulpLoop b f (ulps + 1) (nextAfter next b) else some ulps

/-- `ulpDistance` (Definitions.hpp:90-104), with a bound on the number of rounds. `std::size_t` is ℕ here; that the count
fits is part of C87. -/
def ulpDistance (rounds : ℕ) (a b : ℤ) : Option ℕ :=
  if a = b then some 0 else ulpLoop b rounds 1 (nextAfter a b)

end DD
