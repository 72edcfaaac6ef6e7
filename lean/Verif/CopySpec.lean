import Verif.MeasureApproxSpec

/-! # Specification of copies with a tolerance (C83) -/

namespace DD

open Pkg

variable {R : Type} [Field R] [LinearOrder R] [FloorRing R] [HasSqrt R]

/-- A non-negative real number. -/
def Cx.NonNeg (z : Cx R) : Prop := z.im = 0 ∧ 0 ≤ z.re

/-- Nodes of a vector diagram that stay normalised if their weights change a little: the weights of each node are non-negative real numbers,
or one of them is and it is larger than the other one by a margin. -/
def JState.Steady (J : JCfg R) (s : JState R) : Nat → Option Nat → Prop
  | 0, _ => True
  | _ + 1, none => True
  | l + 1, some a =>
    ((∀ i : Fin 2, (s.ct.cval J.C (((s.tab .v).tab.mem a).e i).w).NonNeg) ∨
      ∃ i : Fin 2, (s.ct.cval J.C (((s.tab .v).tab.mem a).e i).w).NonNeg ∧ ∀ j : Fin 2, j ≠ i →
        (s.ct.cval J.C (((s.tab .v).tab.mem a).e j).w).mag2 + 10 * s.ct.tol < (s.ct.cval J.C (((s.tab .v).tab.mem a).e i).w).mag2) ∧
    ∀ i : Fin 2, Steady J s l (((s.tab .v).tab.mem a).e i).p

/-- The edges between vector nodes do not have weight zero. -/
def JState.Tidy (J : JCfg R) (s : JState R) : Prop :=
  ∀ a ∈ (s.tab .v).tab.all, ∀ (i : Fin 2) (b : Nat), (((s.tab .v).tab.mem a).e i).p = some b → s.ct.cval J.C (((s.tab .v).tab.mem a).e i).w ≠ 0

/-- The copy `e'` in the package `s'` of the vector `e` in the package `o`: it is a diagram for the same number of qubits, the moduli of its amplitudes are
those of the original up to a bound, and for steady diagrams also the amplitudes themselves. -/
structure CopyOk (J : JCfg R) (τ δ : R) (o : JState R) (n : Nat) (e : PtrEdge) (s' : JState R) (e' : PtrEdge) : Prop where
  valid : s'.ValidV J n e'
  moduli : ∀ d, |mag (s'.vecJ J n e' d) - mag (o.vecJ J n e d)| ≤ ((n : R) + 1) * (2 * δ + 25 * τ) * (1 + mag (o.ct.cval J.C e.w))
  amplitudes : o.Steady J n e.p → ∀ d, mag (s'.vecJ J n e' d - o.vecJ J n e d) ≤ ((n : R) + 1) * (2 * δ + 25 * τ) * (1 + mag (o.ct.cval J.C e.w))

end DD
