import Mathlib.Algebra.Order.Field.Basic

/-!
# Search for a fraction close to a number

`ComplexValue::getLowestFraction` (ComplexValue.hpp:73-102). Numbers are elements of an ordered field; numerators and
denominators are natural numbers (no wrap-around at 2^64).
-/

namespace DD

variable {R : Type} [Field R] [LinearOrder R]

/-- One execution of the loop body (ComplexValue.hpp:80-95) with the bounds `lo` and `hi` (numerator, denominator): the value
returned, or the new bounds. -/
def fractionStep (x : R) (maxDen : Nat) (tol : R) (lo hi : Nat × Nat) : (Nat × Nat) ⊕ ((Nat × Nat) × (Nat × Nat)) :=
  let num := lo.1 + hi.1
  let den := lo.2 + hi.2
  let median : R := (num : R) / (den : R)
  if |x - median| ≤ tol then
    if den ≤ maxDen then .inl (num, den)
    else if hi.2 > lo.2 then .inl hi
    else .inl lo
  else if x > median then .inr ((num, den), hi)
  else .inr (lo, (num, den))

/-- The loop (ComplexValue.hpp:79-101) started with the bounds `lo` and `hi` ends with the given result. -/
inductive FractionLoop (x : R) (maxDen : Nat) (tol : R) : Nat × Nat → Nat × Nat → Nat × Nat → Prop
  | exitLow {lo hi : Nat × Nat} : ¬ (lo.2 ≤ maxDen ∧ hi.2 ≤ maxDen) → lo.2 > maxDen → FractionLoop x maxDen tol lo hi hi
  | exitHigh {lo hi : Nat × Nat} : ¬ (lo.2 ≤ maxDen ∧ hi.2 ≤ maxDen) → ¬ lo.2 > maxDen → FractionLoop x maxDen tol lo hi lo
  | found {lo hi r : Nat × Nat} : lo.2 ≤ maxDen ∧ hi.2 ≤ maxDen → fractionStep x maxDen tol lo hi = .inl r → FractionLoop x maxDen tol lo hi r
  | next {lo hi lo' hi' r : Nat × Nat} : lo.2 ≤ maxDen ∧ hi.2 ≤ maxDen → fractionStep x maxDen tol lo hi = .inr (lo', hi') →
      FractionLoop x maxDen tol lo' hi' r → FractionLoop x maxDen tol lo hi r

/-- `getLowestFraction(x, maxDen, tol)` returns `r` (ComplexValue.hpp:73-102). -/
def LowestFraction (x : R) (maxDen : Nat) (tol : R) (r : Nat × Nat) : Prop :=
  FractionLoop x maxDen tol (0, 1) (1, 0) r

end DD
