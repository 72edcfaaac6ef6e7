import Verif.Model.History
import Verif.PkgSpec

/-!
# Simulating circuits

The way the package is meant to be used (README.md, "Usage"; test/main.cpp:40-67): gates are built with `makeGateDD` and multiplied to a state or
to the matrix of the circuit so far. The caller counts references by hand: a reference to the new diagram is taken, then the
one to the old diagram is released. In between anything else may be done with the package, by this caller or
others, as long as the references are respected.
-/

namespace DD

variable {R : Type} [Field R] [LinearOrder R] [IsStrictOrderedRing R] [HasSqrt R]

/-- A gate of a circuit on `n` qubits: the arguments of `makeGateDD` (Package.hpp:474-540). -/
structure CGate (R : Type) (n : Nat) where
  U : Fin 4 → Cx R
  controls : List Ctrl
  target : Fin n
  good : GoodControls controls target n

/-- A call during which the caller keeps the references in `L` to diagrams of kind `k`: at least as many references to each edge are held
as there are in the list. -/
def Owning (P : PCfg R) (k : Kind) (L : List (PEdge R)) (a b : PHist R) : Prop :=
  PStep P a b ∧ L.Subperm (a.held k) ∧ L.Subperm (b.held k)

/-- The calls that apply a gate to the diagram `x` of kind `k`: `g = makeGateDD(...)`, `y = multiply(g, x)`, `incRef(y)`,
`decRef(x)`. The result is the new history and `y`; `none` if one of them throws an exception. -/
def applyGate (P : PCfg R) (k : Kind) {n : Nat} (h : PHist R) (x : PEdge R) (g : CGate R n) : Option (PHist R × PEdge R) :=
  match Pkg.makeGateDD P h.pkg g.U n g.controls g.target with
  | none => none
  | some a =>
    let b := Pkg.multiply P k a.1 a.2 x
    match (b.1.incRef P k b.2).decRef P k x with
    | none => none
    | some s => some (⟨s, Function.update h.held k ((b.2 :: h.held k).erase x)⟩, b.2)

/-- The caller runs a circuit on the diagram `x`, to which it holds a reference, and keeps those in `L` as well. Before each gate and at the end, the package may be used in any way. -/
inductive RunsCircuit (P : PCfg R) (k : Kind) {n : Nat} (L : List (PEdge R)) : PHist R → PEdge R → List (CGate R n) → PHist R → PEdge R → Prop
  | done {h h' : PHist R} {x : PEdge R} : Relation.ReflTransGen (Owning P k (x :: L)) h h' → RunsCircuit P k L h x [] h' x
  | gate {h h1 h2 h' : PHist R} {x y x' : PEdge R} {g : CGate R n} {gs : List (CGate R n)} :
      Relation.ReflTransGen (Owning P k (x :: L)) h h1 → applyGate P k h1 x g = some (h2, y) → RunsCircuit P k L h2 y gs h' x' →
      RunsCircuit P k L h x (g :: gs) h' x'

end DD
