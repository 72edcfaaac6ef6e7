import Mathlib.Algebra.Order.Round

/-!
# Hash functions

Models of the mixing and combining functions (include/dd/Definitions.hpp:62-76), of the hashes of numbers and edges
(Complex.hpp, ComplexValue.hpp, Edge.hpp, Node.hpp) and of the index computations of all tables. `std::size_t` is a 64-bit
word and pointers are 64-bit words.
-/

namespace DD
namespace Hash

/-- `murmur64` (Definitions.hpp:63-70). -/
def murmur64 (k : BitVec 64) : BitVec 64 :=
  let k := k ^^^ (k >>> 33)
  let k := k * 0xff51afd7ed558ccd#64
  let k := k ^^^ (k >>> 33)
  let k := k * 0xc4ceb9fe1a85ec53#64
  k ^^^ (k >>> 33)

/-- `combineHash` (Definitions.hpp:73-76). -/
def combineHash (lhs rhs : BitVec 64) : BitVec 64 :=
  lhs ^^^ (rhs + 0x9e3779b97f4a7c15#64 + (lhs <<< 6) + (lhs >>> 2))

/-- A complex number as a pair of pointers (Complex.hpp:19-21). -/
structure WNum where
  r : BitVec 64
  i : BitVec 64
deriving DecidableEq

/-- An edge as a node pointer and a pair of number pointers (Edge.hpp:17-21). -/
structure WEdge where
  p : BitVec 64
  w : WNum
deriving DecidableEq

/-- `std::hash<Complex>` (Complex.hpp:79-85). -/
def complex (c : WNum) : BitVec 64 := combineHash (murmur64 c.r) (murmur64 c.i)

/-- `std::hash<Edge<Node>>` (Edge.hpp:95-102). -/
def edge (e : WEdge) : BitVec 64 := combineHash (murmur64 e.p) (complex e.w)

/-- The conversion of a rounded `double` to `std::size_t`: undefined (`none`) unless the value fits
(ComplexValue.hpp:248-249). -/
def toSize (x : ℤ) : Option (BitVec 64) := if 0 ≤ x ∧ x < 2 ^ 64 then some (BitVec.ofInt 64 x) else none

/-- `std::hash<ComplexValue>` (ComplexValue.hpp:245-252); `std::round` is modelled by `round`, which rounds halves up
instead of away from zero. -/
def value {R : Type} [Field R] [LinearOrder R] [FloorRing R] (tol re im : R) : Option (BitVec 64) :=
  (toSize (round (re / tol))).bind fun a =>
  (toSize (round (im / tol))).bind fun b => some (combineHash (murmur64 a) (murmur64 b))

/-- `std::hash<dEdge>` (Node.hpp:218-228); `aligned` is the node pointer without its tags, `flags` the temporary flags. -/
def densityEdge (aligned : BitVec 64) (w : WNum) (flags : BitVec 64) : BitVec 64 :=
  combineHash (combineHash (murmur64 aligned) (complex w)) flags

/-- `hash & MASK` with `MASK = NBUCKET - 1` (ComputeTable.hpp:35,41; UnaryComputeTable.hpp:32,38; UniqueTable.hpp:42,61;
ToffoliTable.hpp:31,72; DensityNoiseTable.hpp:33,43). -/
def index (nbucket : Nat) (h : BitVec 64) : Nat := (h &&& (BitVec.ofNat 64 nbucket - 1#64)).toNat

/-- `ComputeTable::hash` (ComputeTable.hpp:37-42), given the hashes of the operands. -/
def computeTable (nbucket : Nat) (h1 h2 : BitVec 64) : Nat := index nbucket (combineHash h1 h2)

/-- `UnaryComputeTable::hash` (UnaryComputeTable.hpp:37-39). -/
def unaryTable (nbucket : Nat) (h : BitVec 64) : Nat := index nbucket h

/-- `UniqueTable::hash` (UniqueTable.hpp:52-63): the edges of the node from first to last. -/
def uniqueTable (nbucket : Nat) (es : List WEdge) : Nat :=
  index nbucket (es.foldl (fun key e => combineHash key (edge e)) 0#64)

/-- `ToffoliTable::hash` (ToffoliTable.hpp:63-73): controls are pairs of a qubit and a sign (`true` positive). -/
def toffoliTable (nbucket : Nat) (controls : List (BitVec 64 × Bool)) (target : BitVec 64) : Nat :=
  index nbucket (controls.foldl (fun key c => key * ((if c.2 then 29#64 else 71#64) * c.1)) target)

/-- `DensityNoiseTable::hash` (DensityNoiseTable.hpp:38-44). -/
def densityNoiseTable (nbucket : Nat) (h : BitVec 64) (used : List (BitVec 64)) : Nat :=
  index nbucket (h + used.foldl (fun (i q : BitVec 64) => (i <<< 3) + i * q + q) 0#64)

end Hash
end DD
