import Verif.Model.Cx
import Verif.Model.Fraction

/-!
# Printing numbers

`ComplexValue::printFormatted` and `ComplexValue::toString` (ComplexValue.hpp:104-223). The text is modelled as a list of
tokens, which leaves out that a numerator or denominator 1 is not written. Numbers printed in decimal notation are
taken to be printed exactly; `std::signbit` is the test for a negative number. `s2` and `pi` are the constants `SQRT2_2` and `PI`, `T` is the tolerance.
-/

namespace DD

variable {R : Type} [Field R] [LinearOrder R]

/-- The factor of a printed fraction: nothing, `√2` in the denominator, or `π`. -/
inductive Factor where
  | one
  | sqrt2
  | pi

/-- The pieces of text. `imag`: followed by `i`. -/
inductive Tok (R : Type) where
  | zero (neg imag : Bool)
  | frac (neg : Bool) (num den : Nat) (f : Factor) (imag : Bool)
  | decimal (x : R) (imag : Bool)
  | timesOnePlusI
  | timesOneMinusI

/-- Is the fraction `f` found for `x` accurate (ComplexValue.hpp:113-115, 132-134, 152-154)? -/
def accurate (T x : R) (f : Nat × Nat) : Prop := |x - (f.1 : R) / (f.2 : R)| ≤ T

/-- `printFormatted(num, imag)` (ComplexValue.hpp:104-177) prints the token; `getLowestFraction` is called with the default
`maxDenominator = 1024`. -/
inductive PrintFormatted (s2 pi T num : R) (imag : Bool) : Tok R → Prop
  | zero : |num| ≤ T → PrintFormatted s2 pi T num imag (.zero (num < 0) imag)
  | frac {f : Nat × Nat} : ¬ |num| ≤ T → LowestFraction |num| 1024 T f → accurate T |num| f →
      PrintFormatted s2 pi T num imag (.frac (num < 0) f.1 f.2 .one imag)
  | sqrt {f g : Nat × Nat} : ¬ |num| ≤ T → LowestFraction |num| 1024 T f → ¬ accurate T |num| f →
      LowestFraction (|num| / s2) 1024 T g → accurate T (|num| / s2) g →
      PrintFormatted s2 pi T num imag (.frac (num < 0) g.1 g.2 .sqrt2 imag)
  | pi {f g k : Nat × Nat} : ¬ |num| ≤ T → LowestFraction |num| 1024 T f → ¬ accurate T |num| f →
      LowestFraction (|num| / s2) 1024 T g → ¬ accurate T (|num| / s2) g →
      LowestFraction (|num| / pi) 1024 T k → accurate T (|num| / pi) k →
      PrintFormatted s2 pi T num imag (.frac (num < 0) k.1 k.2 .pi imag)
  | decimal {f g k : Nat × Nat} : ¬ |num| ≤ T → LowestFraction |num| 1024 T f → ¬ accurate T |num| f →
      LowestFraction (|num| / s2) 1024 T g → ¬ accurate T (|num| / s2) g →
      LowestFraction (|num| / pi) 1024 T k → ¬ accurate T (|num| / pi) k →
      PrintFormatted s2 pi T num imag (.decimal num imag)

/-- The real part in `toString` (ComplexValue.hpp:191-197). -/
inductive PrintReal (s2 pi T real : R) (formatted : Bool) : List (Tok R) → Prop
  | small : |real| ≤ T → PrintReal s2 pi T real formatted []
  | formatted {t : Tok R} : ¬ |real| ≤ T → formatted = true → PrintFormatted s2 pi T real false t → PrintReal s2 pi T real formatted [t]
  | plain : ¬ |real| ≤ T → formatted = false → PrintReal s2 pi T real formatted [.decimal real false]

/-- The imaginary part in `toString` (ComplexValue.hpp:198-220). -/
inductive PrintImag (s2 pi T real imag : R) (formatted : Bool) : List (Tok R) → Prop
  | small : |imag| ≤ T → PrintImag s2 pi T real imag formatted []
  | plus : ¬ |imag| ≤ T → formatted = true → |real - imag| ≤ T → PrintImag s2 pi T real imag formatted [.timesOnePlusI]
  | minus : ¬ |imag| ≤ T → formatted = true → ¬ |real - imag| ≤ T → |real + imag| ≤ T →
      PrintImag s2 pi T real imag formatted [.timesOneMinusI]
  | formatted {t : Tok R} : ¬ |imag| ≤ T → formatted = true → ¬ |real - imag| ≤ T → ¬ |real + imag| ≤ T →
      PrintFormatted s2 pi T imag true t → PrintImag s2 pi T real imag formatted [t]
  | plain : ¬ |imag| ≤ T → formatted = false → PrintImag s2 pi T real imag formatted [.decimal imag true]

/-- `toString(real, imag, formatted)` (ComplexValue.hpp:179-223) yields the text; the text "0" is the empty list. -/
def ToString (s2 pi T real imag : R) (formatted : Bool) (ts : List (Tok R)) : Prop :=
  ∃ a b, PrintReal s2 pi T real formatted a ∧ PrintImag s2 pi T real imag formatted b ∧ ts = a ++ b

end DD
