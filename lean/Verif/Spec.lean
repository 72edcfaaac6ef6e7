import Verif.Model.Cx
import Verif.Model.UniqueTable
import Mathlib.Data.Fin.Tuple.Basic
import Mathlib.Data.Fin.VecNotation
import Mathlib.LinearAlgebra.Matrix.Defs
import Mathlib.Algebra.BigOperators.Fin

/-!
# What a decision diagram means

The specification the theorems about the package refer to. A diagram over `l` qubits is read along paths from the root
to the terminal: qubit `i` selects one of the outgoing edges of the node at level `i`, and the value is the product of
the weights on the path. A vector has an entry for every assignment of bits to qubits, a matrix one for every pair of
such assignments (row, column), where the successors of a matrix node are ordered 00, 01, 10, 11 (row bit, column bit).
-/

namespace DD

variable {R : Type} [Field R]

/-- Value of the path selected by `d` from an edge `e` that is to be read as a diagram over `l` qubits. -/
def amp {n : Nat} (t : UTable (Cx R) n) : (l : Nat) → Edge (Cx R) → (Fin l → Fin n) → Cx R
  | 0, e, _ => e.w
  | l + 1, e, d =>
    match e.p with
    | none => e.w
    | some a => e.w * amp t l ((t.mem a).e (d (Fin.last l))) (Fin.init d)

/-- The vector of a diagram over `l` qubits. -/
def vec (t : UTable (Cx R) 2) (l : Nat) (e : Edge (Cx R)) : (Fin l → Fin 2) → Cx R := amp t l e

/-- The position of row bit `r` and column bit `c` among the four successors of a matrix node. -/
def rc (r c : Fin 2) : Fin 4 := ![![0, 1], ![2, 3]] r c

/-- The matrix of a diagram over `l` qubits. -/
def mat (t : UTable (Cx R) 4) (l : Nat) (e : Edge (Cx R)) : Matrix (Fin l → Fin 2) (Fin l → Fin 2) (Cx R) :=
  fun r c => amp t l e (fun i => rc (r i) (c i))

/-- The number with the binary digits `d`, qubit 0 being the least significant one. -/
def bitIdx {l : Nat} (d : Fin l → Fin 2) : Nat := ∑ i, (d i : Nat) * 2 ^ (i : Nat)

/-- `e` is a well-formed diagram over `l` qubits in the table `t`: an edge to the terminal is a number (`l = 0`) or zero,
any other edge has a weight different from zero and leads to a stored node at the top level. -/
def Valid {n : Nat} (t : UTable (Cx R) n) (l : Nat) (e : Edge (Cx R)) : Prop :=
  match e.p with
  | none => l = 0 ∨ e.w = 0
  | some a => a ∈ t.all ∧ (t.mem a).v + 1 = l ∧ e.w ≠ 0

end DD
