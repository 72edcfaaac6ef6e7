import Verif.Model.Density

/-!
# What a density matrix diagram means

The specification for the theorems about density matrix diagrams. An edge without flags is read like a matrix diagram. An edge
with the density flag is read as a density matrix: the diagonal blocks are density matrices, the upper right block is a
matrix, and the lower left block is the conjugate transpose of what the third edge represents as a matrix. Further flags on a
pointer say that it is to be read as a matrix (first edge flag) or as conjugate transpose of a matrix (conjugate flag).
-/

namespace DD

variable {α R : Type} [Field R]

/-- The matrix over `l` qubits of the node at `a`, read as a matrix diagram. -/
def plainN (nv : α → R) (m : DMem α) : (l : Nat) → Nat → (Fin l → Fin 2) → (Fin l → Fin 2) → Cx R
  | 0, _, _, _ => 1
  | l + 1, a, r, c =>
    let x := (m a).e (rc (r (Fin.last l)) (c (Fin.last l)))
    x.w.val nv * plainN nv m l x.p.addr (Fin.init r) (Fin.init c)

/-- The conjugate transpose of the matrix of the node at `a`. -/
def conjN (nv : α → R) (m : DMem α) (l : Nat) (a : Nat) (r c : Fin l → Fin 2) : Cx R := (plainN nv m l a c r).conj

/-- The matrix over `l` qubits of the node at `a`, read as a density matrix diagram. -/
def densN (nv : α → R) (m : DMem α) : (l : Nat) → Nat → (Fin l → Fin 2) → (Fin l → Fin 2) → Cx R
  | 0, _, _, _ => 1
  | l + 1, a, r, c =>
    let x := (m a).e
    if r (Fin.last l) = 0 then
      if c (Fin.last l) = 0 then (x 0).w.val nv * densN nv m l (x 0).p.addr (Fin.init r) (Fin.init c)
      else (x 1).w.val nv * plainN nv m l (x 1).p.addr (Fin.init r) (Fin.init c)
    else
      if c (Fin.last l) = 0 then ((x 2).w.val nv).conj * conjN nv m l (x 2).p.addr (Fin.init r) (Fin.init c)
      else (x 3).w.val nv * densN nv m l (x 3).p.addr (Fin.init r) (Fin.init c)

/-- The matrix of the node at `a` as a pointer with the flags `f` refers to it. -/
def semN (nv : α → R) (m : DMem α) (f : DFlags) (l : Nat) (a : Nat) : (Fin l → Fin 2) → (Fin l → Fin 2) → Cx R :=
  if f.dm then
    if f.conj then conjN nv m l a
    else if f.nonRed then plainN nv m l a
    else densN nv m l a
  else plainN nv m l a

/-- A node at rest: no temporary flags, neither on it nor on the pointers in it, and no negative zero (see C09) as imaginary part. -/
structure DNode.Quiet (z : α) (n : DNode α) : Prop where
  tmp : n.tmp = .none
  ptr : ∀ k, (n.e k).p.f = .none
  neg : ∀ k, (n.e k).w.i ≠ ⟨true, z⟩

/-- A memory at rest: all nodes are, and the successors of a node on edges different from zero are one level below, the terminal below level 0. -/
structure DMem.Quiet (z : α) (nv : α → R) (m : DMem α) : Prop where
  zero : nv z = 0
  term : (m 0).v = -1
  inner : ∀ a, a ≠ 0 → 0 ≤ (m a).v
  child : ∀ a, a ≠ 0 → ∀ k, ((m a).e k).w.val nv ≠ 0 → (m ((m a).e k).p.addr).v = (m a).v - 1
  node : ∀ a, (m a).Quiet z

end DD
