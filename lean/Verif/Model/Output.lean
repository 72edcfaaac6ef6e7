import Verif.Model.Build
import Verif.Model.Reduce

/-!
# Printing of diagrams, initial matrices
-/

namespace DD
namespace Pkg

section
variable {R : Type} [Field R] [DecidableEq R]

/-- `2ULL << v` (Package.hpp:2670, 2686) on 64-bit numbers; `none` for shifts by 64 places or more, which are undefined. -/
def dim64 (v : Nat) : Option Nat := if v < 64 then some (2 <<< v % 2 ^ 64) else none

/-- `printVector` (Package.hpp:2669-2683): each line has the bits of the index, beginning with that of the topmost qubit, and an amplitude. The
number is passed on to `ComplexValue::toString` (Model/Print.lean). `none` is undefined behaviour. -/
def printVector (t : UTable (Cx R) 2) (e : PEdge R) : Option (List (List Bool × Cx R)) :=
  match e.p with
  | none => none
  | some a => (dim64 (t.mem a).v).map fun element =>
    (List.range element).map fun i => ((List.range ((t.mem a).v + 1)).reverse.map fun j => i.testBit j, valueV t e i)

/-- `printMatrix` (Package.hpp:2685-2698): the entries in rows. -/
def printMatrix (t : UTable (Cx R) 4) (e : PEdge R) : Option (List (List (Cx R))) :=
  match e.p with
  | none => none
  | some a => (dim64 (t.mem a).v).map fun element => (List.range element).map fun i => (List.range element).map fun j => valueM t e i j

end

variable {R : Type} [Field R] [LinearOrder R] [IsStrictOrderedRing R] [HasSqrt R]

/-- `createInitialMatrix` (Package.hpp:2211-2215). -/
def createInitialMatrix (P : PCfg R) (s : Pkg R) (n : Nat) (ancillary : List Bool) : Option (Pkg R × PEdge R) :=
  let e := makeIdent P s n
  reduceAncillae P (e.1.incRef P .m e.2) e.2 ancillary true

end Pkg
end DD
