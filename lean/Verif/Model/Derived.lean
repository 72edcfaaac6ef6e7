import Verif.Model.Build
import Verif.Model.PkgState

/-!
# Functions of the package that are combinations of others
-/

namespace DD
namespace Pkg

variable {R : Type} [Field R] [LinearOrder R] [IsStrictOrderedRing R] [HasSqrt R]

/-- `expectationValue(x, y)` (Package.hpp:1908-1921); `none` is the exception. The levels compared by the code are those of
the nodes, -1 for the terminal. The assertion on the imaginary part is not modelled. -/
def expectationValue (P : PCfg R) (g : GcEnv) (s : Pkg R) (x y : PEdge R) : Option (Pkg R × R) :=
  if s.lv .m x ≠ s.lv .v y then none
  else
    let m := multiply P .v s x y
    let i := innerProduct P m.1 y m.2
    some ((i.1.garbageCollect P { g with force := false }).1, i.2.re)

/-- `extend(e, h, l)` (Package.hpp:1956-1960). -/
def extend (P : PCfg R) (s : Pkg R) (e : PEdge R) (h l : Nat) : Pkg R × PEdge R :=
  let f := if 0 < l then
      let i := makeIdent P s l
      kronecker P .m i.1 e i.2
    else (s, e)
  if 0 < h then
    let i := makeIdent P f.1 h
    kronecker P .m i.1 i.2 f.2
  else f

/-- `ComplexNumbers::mag` (ComplexNumbers.hpp:96-98). -/
def mag (w : Cx R) : R := HasSqrt.sqrt w.mag2

/-- Recursive `fidelityOfMeasurementOutcomes` (Package.hpp:1807-1830). The map `probs` is a partial function. The index is
an unbounded number. -/
def fidOutF (t : UTable (Cx R) 2) (probs : Nat → Option R) : Nat → PEdge R → Nat → R
  | 0, e, i =>
    match probs i with
    | some p => mag e.w * HasSqrt.sqrt p
    | none => 0
  | l + 1, e, i =>
    match e.p with
    | none =>
      match probs i with
      | some p => mag e.w * HasSqrt.sqrt p
      | none => 0
    | some a =>
      let left := if ((t.mem a).e 0).w = 0 then 0 else fidOutF t probs l ((t.mem a).e 0) i
      let right := if ((t.mem a).e 1).w = 0 then 0 else fidOutF t probs l ((t.mem a).e 1) (i ||| 2 ^ (t.mem a).v)
      mag e.w * (left + right)

/-- `fidelityOfMeasurementOutcomes` (Package.hpp:1800-1805). -/
def fidelityOfMeasurementOutcomes (s : Pkg R) (e : PEdge R) (probs : Nat → Option R) : R :=
  if e.w = 0 then 0 else fidOutF (s.ut .v) probs (s.lv .v e) e 0

end Pkg
end DD
