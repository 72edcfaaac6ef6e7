import Verif.PkgSpec

/-!
# Specification of measurements

What the measurement functions are supposed to compute, in terms of vectors indexed by bit strings.
-/

namespace DD

variable {R : Type} [Field R]

/-- The probability (for a state of norm one) that measuring qubit `q` of the state `x` yields `b`: the sum of the squared
magnitudes of the amplitudes of all basis states whose bit `q` is `b`. -/
def outProb {l : Nat} (x : (Fin l → Fin 2) → Cx R) (q : Fin l) (b : Fin 2) : R := ∑ d, if d q = b then (x d).mag2 else 0

/-- The vector `x` with all amplitudes removed whose bit `q` is not `b`. -/
def project {l : Nat} (x : (Fin l → Fin 2) → Cx R) (q : Fin l) (b : Fin 2) : (Fin l → Fin 2) → Cx R :=
  fun d => if d q = b then x d else 0

/-- A bit string as text, the highest qubit first. -/
def bitText {l : Nat} (d : Fin l → Fin 2) : List Char := ((List.finRange l).map fun i => if d i = 1 then '1' else '0').reverse

end DD
