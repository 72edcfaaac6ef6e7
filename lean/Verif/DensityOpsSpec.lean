import Verif.Model.DensityOps
import Verif.PkgSpec

/-!
# What operands of density matrix functions mean

The specification for the theorems about operations on density matrices, stated on the table of density matrix nodes itself. An edge without the density
flag is read as a matrix diagram. An edge with the density flag is read as a density matrix: the diagonal blocks are density matrices, the upper right
block is a matrix, the lower left block is the conjugate transpose of what the third edge represents as a matrix.
-/

namespace DD

variable {R : Type} [Field R]

/-- The matrix over `l` qubits of a node, read as a matrix diagram. Above level 0 only edges with weight zero lead to the terminal. -/
def plainT (t : UTable (Cx R × DFlags) 4) : (l : Nat) → Option Nat → Matrix (Fin l → Fin 2) (Fin l → Fin 2) (Cx R)
  | 0, _ => fun _ _ => 1
  | _ + 1, none => fun _ _ => 1
  | l + 1, some a => fun r c =>
    let x := (t.mem a).e (rc (r (Fin.last l)) (c (Fin.last l)))
    x.w.1 * plainT t l x.p (Fin.init r) (Fin.init c)

/-- The matrix over `l` qubits of a node, read as a density matrix diagram. -/
def densT (t : UTable (Cx R × DFlags) 4) : (l : Nat) → Option Nat → Matrix (Fin l → Fin 2) (Fin l → Fin 2) (Cx R)
  | 0, _ => fun _ _ => 1
  | _ + 1, none => fun _ _ => 1
  | l + 1, some a => fun r c =>
    let x := (t.mem a).e
    if r (Fin.last l) = 0 then
      if c (Fin.last l) = 0 then (x 0).w.1 * densT t l (x 0).p (Fin.init r) (Fin.init c)
      else (x 1).w.1 * plainT t l (x 1).p (Fin.init r) (Fin.init c)
    else
      if c (Fin.last l) = 0 then ((x 2).w.1 * plainT t l (x 2).p (Fin.init c) (Fin.init r)).conj
      else (x 3).w.1 * densT t l (x 3).p (Fin.init r) (Fin.init c)

/-- The matrix an edge to a density matrix node stands for. -/
def densityOf (s : DState R) (l : Nat) (e : DOp R) : Matrix (Fin l → Fin 2) (Fin l → Fin 2) (Cx R) :=
  fun r c => e.w * (if e.f.dm then densT s.dt l e.p r c else plainT s.dt l e.p r c)

open Classical in
/-- The density matrix of the zero state: one in the upper left corner, zero elsewhere. -/
def zeroRho (R : Type) [Field R] (n : Nat) : Matrix (Fin n → Fin 2) (Fin n → Fin 2) (Cx R) :=
  fun i j => if (∀ q, i q = 0) ∧ ∀ q, j q = 0 then 1 else 0

end DD
