import Verif.ApproxSpec
import Verif.MeasureSpec

/-! # Specification of measurements with a tolerance (C77) -/

namespace DD

variable {R : Type} [Field R] [LinearOrder R] [FloorRing R] [HasSqrt R]

/-- What is assumed of the rounding in addition to `JCfg.Rounds`: zero, one and numbers that are rounded already are not changed by it. -/
def JCfg.Exact (J : JCfg R) : Prop := J.fl 0 = 0 ∧ J.fl 1 = 1 ∧ ∀ x, J.fl (J.fl x) = J.fl x

/-- The nodes of a vector diagram are normalised up to `δ`: the squared absolute values of the two weights of each node add up to one, up to
`δ`. -/
def JState.SumsLe (J : JCfg R) (s : JState R) (δ : R) : Nat → Option Nat → Prop
  | 0, _ => True
  | _ + 1, none => True
  | l + 1, some a =>
    |(s.ct.cval J.C (((s.tab .v).tab.mem a).e (0 : Fin 2)).w).mag2 + (s.ct.cval J.C (((s.tab .v).tab.mem a).e (1 : Fin 2)).w).mag2 - 1| ≤ δ ∧
    ∀ i : Fin 2, SumsLe J s δ l (((s.tab .v).tab.mem a).e i).p

end DD
