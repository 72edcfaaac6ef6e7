import Verif.Model.ApproxCircuit

/-!
# Simulating circuits of gates on one and two qubits with a tolerance

As Model/ApproxCircuit.lean, with gates made by `makeGateDD` (Package.hpp:474-540) and by `makeTwoQubitGateDD` (Package.hpp:551-627).
-/

namespace DD

variable {R : Type} [Field R] [LinearOrder R] [IsStrictOrderedRing R] [FloorRing R] [HasSqrt R]

/-- A gate of a circuit on `n` qubits: the arguments of `makeGateDD` (Package.hpp:474-540) or of `makeTwoQubitGateDD` (Package.hpp:551-627). -/
inductive AnyGate (R : Type) (n : Nat) where
  | one (g : CGate R n)
  | two (U : Fin 4 → Fin 4 → Cx R) (target0 target1 : Fin n) (ht : target0 ≠ target1)

/-- The call that makes the diagram of a gate (Package.hpp:474-540, 551-627). -/
def AnyGate.make (J : JCfg R) {n : Nat} (s : JState R) : AnyGate R n → Option (JState R × PtrEdge)
  | .one g => s.makeGateDD J g.U n g.controls g.target
  | .two U target0 target1 _ => s.makeTwoQubitGateDD J U n target0 target1

/-- The gate that is given to the package is the gate that is meant, with entries that may be rounded. -/
inductive AnyGate.Near (τ : R) {n : Nat} : AnyGate R n → AnyGate R n → Prop
  | one {g g0 : CGate R n} : g.Near τ g0 → AnyGate.Near τ (.one g) (.one g0)
  | two {U V : Fin 4 → Fin 4 → Cx R} {target0 target1 : Fin n} {ht : target0 ≠ target1} : NearTwoGate τ U V →
      AnyGate.Near τ (.two U target0 target1 ht) (.two V target0 target1 ht)

/-- The caller runs a circuit on the state `x`, as in `SimRuns` (README.md, "Usage"; test/main.cpp:40-67). -/
inductive SimAny (J : JCfg R) (τ : R) {n : Nat} (Q : JState R → PtrEdge → Prop) :
    JState R → PtrEdge → List (AnyGate R n) → JState R → PtrEdge → Prop
  | done {s s' : JState R} {x : PtrEdge} : Relation.ReflTransGen (KeepsRef J τ x) s s' → SimAny J τ Q s x [] s' x
  | gate {s s1 s2 s' : JState R} {x e x' : PtrEdge} {g : AnyGate R n} {gs : List (AnyGate R n)} :
      Relation.ReflTransGen (KeepsRef J τ x) s s1 → Q s1 x → g.make J s1 = some (s2, e) →
      SimAny J τ Q ((s2.multiply J e x).1.holdV J (s2.multiply J e x).2) (s2.multiply J e x).2 gs s' x' →
      SimAny J τ Q s x (g :: gs) s' x'

end DD
