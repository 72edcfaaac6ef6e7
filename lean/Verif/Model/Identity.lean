import Verif.Model.Package

/-!
# Closeness to the identity
-/

namespace DD
namespace Pkg

variable {R : Type} [Field R] [LinearOrder R]

/-- `isCloseToIdentityRecursive` (Package.hpp:2107-2162). `arg` is the argument of a complex number
(ComplexNumbers.hpp:99-101, `atan2`), `vis` the set of visited nodes (`none` is the terminal). The result is the new set
and the answer. The terminal is marked as an identity (Node.hpp:77). The first argument is the number of levels below. -/
def isCloseF (arg : Cx R → R) (tol : R) (t : UTable (Cx R) 4) : Nat → List (Option Nat) → PEdge R →
    List (Option Nat) × Bool
  | 0, vis, _ => (vis, true)
  | l + 1, vis, m =>
    if m.p ∈ vis then (vis, true)
    else match m.p with
    | none => (vis, true)
    | some a =>
      let e := (t.mem a).e
      if (t.mem a).ident then (vis, true)
      else if (e 1).w.mag2 > tol ∨ (e 2).w.mag2 > tol then (m.p :: vis, false)
      else if |(e 0).w.mag2 - 1| > tol then (m.p :: vis, false)
      else if |arg (e 0).w| > tol then (m.p :: vis, false)
      else if (e 3).w.mag2 > tol ∧ |(e 3).w.mag2 - 1| > tol then (m.p :: vis, false)
      else if (e 3).w.mag2 > tol ∧ |arg (e 3).w| > tol then (m.p :: vis, false)
      else
        let r0 := isCloseF arg tol t l vis (e 0)
        if !r0.2 then (m.p :: r0.1, false)
        else
          let r3 := isCloseF arg tol t l r0.1 (e 3)
          (m.p :: r3.1, r3.2)

/-- `isCloseToIdentity(m, tol)` (Package.hpp:2032-2036). -/
def isCloseToIdentity (arg : Cx R → R) (tol : R) (t : UTable (Cx R) 4) (m : PEdge R) : Bool :=
  (isCloseF arg tol t (t.lvl m) [] m).2

end Pkg
end DD
