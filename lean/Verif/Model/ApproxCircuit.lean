import Verif.Model.Circuit
import Verif.ApproxSpec

/-!
# Simulating circuits with a tolerance

The same way of using the package as in Model/Circuit.lean (README.md, "Usage"; test/main.cpp:40-67), on the tables of Model/Joint.lean with
numbers that are stored up to a tolerance.
-/

namespace DD

variable {R : Type} [Field R] [LinearOrder R] [IsStrictOrderedRing R] [FloorRing R] [HasSqrt R]

/-- A call during which a reference to the vector `x` is kept. -/
def KeepsRef (J : JCfg R) (τ : R) (x : PtrEdge) (a b : JState R) : Prop :=
  TStep J τ a b ∧ x ∈ (a.tab .v).held ∧ x ∈ (b.tab .v).held

/-- The gate `g` that is given to the package is the gate `g0` that is meant, with entries that may be rounded. -/
def CGate.Near (τ : R) {n : Nat} (g g0 : CGate R n) : Prop :=
  g.controls = g0.controls ∧ g.target = g0.target ∧ NearGate τ g.U g0.U

/-- The same for circuits. -/
def NearCirc (τ : R) {n : Nat} (gs gs0 : List (CGate R n)) : Prop := List.Forall₂ (CGate.Near τ) gs gs0

/-- The caller runs a circuit on the state `x`, to which it holds a reference: `g = makeGateDD(...)`, `y = multiply(g, x)`, `incRef(y)` for each
gate. Before each gate and at the end the package may be used in any way that keeps a reference to the current state; in
particular the reference to the previous state may be released then, and garbage may be collected. `Q` holds before each gate. -/
inductive SimRuns (J : JCfg R) (τ : R) {n : Nat} (Q : JState R → PtrEdge → Prop) :
    JState R → PtrEdge → List (CGate R n) → JState R → PtrEdge → Prop
  | done {s s' : JState R} {x : PtrEdge} : Relation.ReflTransGen (KeepsRef J τ x) s s' → SimRuns J τ Q s x [] s' x
  | gate {s s1 s2 s' : JState R} {x e x' : PtrEdge} {g : CGate R n} {gs : List (CGate R n)} :
      Relation.ReflTransGen (KeepsRef J τ x) s s1 → Q s1 x → s1.makeGateDD J g.U n g.controls g.target = some (s2, e) →
      SimRuns J τ Q ((s2.multiply J e x).1.holdV J (s2.multiply J e x).2) (s2.multiply J e x).2 gs s' x' →
      SimRuns J τ Q s x (g :: gs) s' x'

end DD
