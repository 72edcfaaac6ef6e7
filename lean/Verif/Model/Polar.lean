import Verif.Model.Print

/-!
# Labels, colours and widths of drawn edges

`conditionalFormat`, `printPhaseFormatted`, `colorFromPhase` and `thicknessFromMagnitude` (Export.hpp:33-155), as functions of magnitude
and argument of the weight (`ComplexNumbers::mag` and `ComplexNumbers::arg`, ComplexNumbers.hpp:41-49). As in Model/Print.lean the text is modelled as
tokens, which leaves out that a numerator or denominator 1 is not written, and decimal numbers are taken to be printed exactly.
-/

namespace DD

variable {R : Type} [Field R] [LinearOrder R]

/-- The text `ℯ(±iπ x)`: a fraction with a factor, or a decimal number. -/
inductive PhaseTok (R : Type) where
  | frac (neg : Bool) (num den : Nat) (f : Factor)
  | decimal (neg : Bool) (x : R)

/-- Is the fraction `f` found for `x` accurate (Export.hpp:58-60, 74-76, 91-93)? Here the comparison is strict. -/
def closer (T x : R) (f : Nat × Nat) : Prop := |x - (f.1 : R) / (f.2 : R)| < T

/-- `printPhaseFormatted(r)` (Export.hpp:48-105) prints the token; `getLowestFraction` is called with the default
`maxDenominator = 1024`. -/
inductive PrintPhase (s2 pi T r : R) : PhaseTok R → Prop
  | frac {f : Nat × Nat} : LowestFraction |r / pi| 1024 T f → closer T |r / pi| f →
      PrintPhase s2 pi T r (.frac (r / pi < 0) f.1 f.2 .one)
  | sqrt {f g : Nat × Nat} : LowestFraction |r / pi| 1024 T f → ¬ closer T |r / pi| f →
      LowestFraction (|r / pi| / s2) 1024 T g → closer T (|r / pi| / s2) g →
      PrintPhase s2 pi T r (.frac (r / pi < 0) g.1 g.2 .sqrt2)
  | pi {f g k : Nat × Nat} : LowestFraction |r / pi| 1024 T f → ¬ closer T |r / pi| f →
      LowestFraction (|r / pi| / s2) 1024 T g → ¬ closer T (|r / pi| / s2) g →
      LowestFraction (|r / pi| / pi) 1024 T k → closer T (|r / pi| / pi) k →
      PrintPhase s2 pi T r (.frac (r / pi < 0) k.1 k.2 .pi)
  | decimal {f g k : Nat × Nat} : LowestFraction |r / pi| 1024 T f → ¬ closer T |r / pi| f →
      LowestFraction (|r / pi| / s2) 1024 T g → ¬ closer T (|r / pi| / s2) g →
      LowestFraction (|r / pi| / pi) 1024 T k → ¬ closer T (|r / pi| / pi) k →
      PrintPhase s2 pi T r (.decimal (r / pi < 0) |r / pi|)

/-- The labels. -/
inductive Label (R : Type) where
  | zero
  | one
  | i
  | minusI
  | minusOne
  | phase (p : PhaseTok R)
  | neg (m : Tok R)
  | pos (m : Tok R)
  | polar (m : Tok R) (p : PhaseTok R)

/-- `conditionalFormat(a)` (Export.hpp:107-155) for a weight with magnitude `mag` and argument `phase`. -/
inductive PolarLabel (s2 pi T mag phase : R) : Label R → Prop
  | zero : |mag| < T → PolarLabel s2 pi T mag phase .zero
  | one : ¬ |mag| < T → |mag - 1| < T → |phase| < T → PolarLabel s2 pi T mag phase .one
  | i : ¬ |mag| < T → |mag - 1| < T → ¬ |phase| < T → |phase - pi / 2| < T → PolarLabel s2 pi T mag phase .i
  | minusI : ¬ |mag| < T → |mag - 1| < T → ¬ |phase| < T → ¬ |phase - pi / 2| < T → |phase + pi / 2| < T →
      PolarLabel s2 pi T mag phase .minusI
  | minusOne : ¬ |mag| < T → |mag - 1| < T → ¬ |phase| < T → ¬ |phase - pi / 2| < T → ¬ |phase + pi / 2| < T → |(|phase| - pi)| < T →
      PolarLabel s2 pi T mag phase .minusOne
  | phase {p : PhaseTok R} : ¬ |mag| < T → |mag - 1| < T → ¬ |phase| < T → ¬ |phase - pi / 2| < T → ¬ |phase + pi / 2| < T →
      ¬ |(|phase| - pi)| < T → PrintPhase s2 pi T phase p → PolarLabel s2 pi T mag phase (.phase p)
  | neg {m : Tok R} : ¬ |mag| < T → ¬ |mag - 1| < T → |(|phase| - pi)| < T → PrintFormatted s2 pi T mag false m →
      PolarLabel s2 pi T mag phase (.neg m)
  | pos {m : Tok R} : ¬ |mag| < T → ¬ |mag - 1| < T → ¬ |(|phase| - pi)| < T → |phase| < T → PrintFormatted s2 pi T mag false m →
      PolarLabel s2 pi T mag phase (.pos m)
  | polar {m : Tok R} {p : PhaseTok R} : ¬ |mag| < T → ¬ |mag - 1| < T → ¬ |(|phase| - pi)| < T → ¬ |phase| < T →
      PrintFormatted s2 pi T mag false m → PrintPhase s2 pi T phase p → PolarLabel s2 pi T mag phase (.polar m p)

/-- The hue in `colorFromPhase` (Export.hpp:33-42), before rounding to three digits. -/
def hue (pi phase : R) : R :=
  let h := phase / (2 * pi)
  if h < 0 then h + 1 else h

/-- `thicknessFromMagnitude` (Export.hpp:44-46). -/
def thickness (mag : R) : R := 3 * max mag (1 / 10)

end DD
