import Verif.PkgSpec
import Verif.Model.Start

/-!
# Specification of diagrams over the qubits `start .. start + n - 1`

The meaning of such a diagram is what `getValueByPath` returns for a string with one digit per qubit; digits of qubits
outside the range must not matter.
-/

namespace DD

section
variable {R : Type} [Field R] [LinearOrder R] [IsStrictOrderedRing R] [HasSqrt R]

/-- The states of the package reached from an ordinary history by building states, gates without controls and two-qubit
gates at any position. -/
inductive StartReach (P : PCfg R) : Pkg R → Prop
  | base {h : PHist R} (hr : PReach P h) : StartReach P h.pkg
  | zero {s : Pkg R} (hs : StartReach P s) {n start : Nat} {r : Pkg R × PEdge R}
      (h : Pkg.makeZeroStateS P s n start = .ok r) : StartReach P r.1
  | bits {s : Pkg R} (hs : StartReach P s) {n start : Nat} {state : List Bool} {r : Pkg R × PEdge R}
      (h : Pkg.makeBasisStateS P s n state start = .ok r) : StartReach P r.1
  | states {s : Pkg R} (hs : StartReach P s) {n start : Nat} {state : List Basis} {r : Pkg R × PEdge R}
      (h : Pkg.makeBasisStatesS P s n state start = .ok r) : StartReach P r.1
  | gate {s : Pkg R} (hs : StartReach P s) {U : Fin 4 → Cx R} {n target start : Nat} (h1 : start ≤ target)
      (h2 : target < n + start) {r : Pkg R × PEdge R}
      (h : Pkg.makeGateDDS P s U n [] target start = some r) : StartReach P r.1
  | two {s : Pkg R} (hs : StartReach P s) {U : Fin 4 → Fin 4 → Cx R} {n t0 t1 start : Nat} (ht : t0 ≠ t1) (h0 : start ≤ t0)
      (h1 : start ≤ t1) (h2 : t0 < n + start) (h3 : t1 < n + start) {r : Pkg R × PEdge R}
      (h : Pkg.makeTwoQubitGateDDS P s U n t0 t1 start = some r) : StartReach P r.1

/-- Every edge to a node stored in `s` has the same values along all paths in `s'`. -/
def SameByPath (s s' : Pkg R) : Prop :=
  ∀ k e (d : Nat → Fin (ar k)), (∀ b, e.p = some b → b ∈ (s.ut k).all) →
    (∀ b, e.p = some b → b ∈ (s'.ut k).all) ∧ Pkg.valueByPath (s'.ut k) e d = Pkg.valueByPath (s.ut k) e d

/-- The entry of `U` on qubit `target` and the identity on the other qubits of the range, for row bits `r` and column
bits `c`. -/
def gateEntryAt (U : Fin 4 → Cx R) (n start target : Nat) (r c : Nat → Fin 2) : Cx R :=
  if ∀ i < n, start + i ≠ target → r (start + i) = c (start + i) then U (rc (r target) (c target)) else 0

/-- The same with controls. -/
def ctrlEntryAt (U : Fin 4 → Cx R) (n : Nat) (controls : List Ctrl) (start target : Nat) (r c : Nat → Fin 2) : Cx R :=
  if ∀ i < n, start + i ≠ target → r (start + i) = c (start + i) then
    if ∀ q ∈ controls, c q.qubit = if q.neg then 0 else 1 then U (rc (r target) (c target))
    else if r target = c target then 1 else 0
  else 0

/-- The entry of the two-qubit gate `U` on qubits `t0` and `t1` and the identity on the other qubits of the range; the bit
of `t0` is the first of the two bits of the index. -/
def twoEntryAt (U : Fin 4 → Fin 4 → Cx R) (n start t0 t1 : Nat) (r c : Nat → Fin 2) : Cx R :=
  if ∀ i < n, start + i ≠ t0 → start + i ≠ t1 → r (start + i) = c (start + i) then
    U (pair (r t0) (r t1)) (pair (c t0) (c t1))
  else 0

end

end DD
