import Verif.Model.UniqueTable

/-!
# Size of a diagram

Model of `size` and `nodeCount` (`include/dd/Package.hpp`, 2230-2252). The set of visited nodes is a list; the terminal is
`none`. Edges without a target (`nullptr`) do not occur in nodes of the unique table. The counter does not overflow.
-/

namespace DD
namespace UTable

variable {W : Type} {n : Nat}

/-- `nodeCount` (Package.hpp:2239-2252): the new set of visited nodes and the count. The first argument bounds the depth of
the recursion. -/
def nodeCountF (t : UTable W n) : Nat → List (Option Nat) → Edge W → List (Option Nat) × Nat
  | 0, v, e => (e.p :: v, 1)
  | f + 1, v, e =>
    match e.p with
    | none => (none :: v, 1)
    | some a =>
      (List.finRange n).foldl (fun s i =>
        if ((t.mem a).e i).p ∈ s.1 then s
        else
          let r := nodeCountF t f s.1 ((t.mem a).e i)
          (r.1, s.2 + r.2)) (some a :: v, 1)

/-- `size` (Package.hpp:2229-2236). -/
def size (t : UTable W n) (e : Edge W) : Nat := (nodeCountF t (t.lvl e) [] e).2

end UTable
end DD
