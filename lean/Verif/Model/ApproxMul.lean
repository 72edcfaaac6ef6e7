import Verif.Model.ApproxMat
import Verif.Spec

/-!
# Multiplying a matrix and a vector with a tolerance

`multiply` on the tables of Model/Joint.lean, in the same way as Model/Approx.lean for sums: weights are pointers to the number table or
values in slots, all shortcuts are taken, products are cached by the nodes of the operands.
-/

namespace DD

variable {R : Type} [Field R] [LinearOrder R] [FloorRing R] [HasSqrt R]

namespace JState

variable (J : JCfg R)

/-- The key of two nodes in the cache of `multiply` (Package.hpp:1603-1608, 1744): edges to them with weight one. -/
def mulKey (a b : Option Nat) : CKey R := ([.ptr .m ⟨a, CNum.one⟩, .ptr .v ⟨b, CNum.one⟩], [])

/-- `computeTable.lookup` in `multiply2` (Package.hpp:1608-1610). -/
def mulLook (s : JState R) (a b : Option Nat) : Option (ValEdge R) :=
  match (s.cache .matrixVectorMultiplication).lookup (J.h .matrixVectorMultiplication) (s.sameKey J) (fun _ => true) (mulKey a b) with
  | some (.val _ r) => some r
  | _ => none

/-- `computeTable.insert` in `multiply2` (Package.hpp:1744). -/
def mulIns (s : JState R) (a b : Option Nat) (r : ValEdge R) : JState R :=
  { s with
    cache := Function.update s.cache .matrixVectorMultiplication
      ((s.cache .matrixVectorMultiplication).insert (J.h .matrixVectorMultiplication) (mulKey a b) (.val .v r)) }

/-- Successor `i` of the matrix (Package.hpp:1678-1683): that of the node if it is at level `v`, else the node with weight one. -/
def mulKidM (s : JState R) (p : Option Nat) (v : Nat) (i : Fin 4) : PtrEdge :=
  match p with
  | none => ⟨none, CNum.one⟩
  | some a => if ((s.tab .m).tab.mem a).v = v then ((s.tab .m).tab.mem a).e i else ⟨some a, CNum.one⟩

/-- Successor `i` of the vector (Package.hpp:1685-1690). -/
def mulKidV (s : JState R) (p : Option Nat) (v : Nat) (i : Fin 2) : PtrEdge :=
  match p with
  | none => ⟨none, CNum.one⟩
  | some a => if ((s.tab .v).tab.mem a).v = v then ((s.tab .v).tab.mem a).e i else ⟨some a, CNum.one⟩

/-- The weights of the operands are multiplied to the result `z` for their nodes (Package.hpp:1613-1620, 1746-1754). -/
def mulEnd (s : JState R) (p : Option Nat) (z : Cx R) (x y : PtrEdge) : SEdge R :=
  let w := s.ct.mulV J.fl (s.ct.mulV J.fl z (s.ct.cval J.C x.w)) (s.ct.cval J.C y.w)
  if s.ct.zeroV w then ⟨none, none⟩ else ⟨p, some w⟩

/-- The sum of the two products of a row (Package.hpp:1697-1735): nothing is added to a result that is zero, and no result that is zero is
added. -/
def mulSum (l : Nat) (s : JState R) (m0 m1 : SEdge R) : JState R × SEdge R :=
  match m0.w with
  | none => (s, m1)
  | some z0 =>
    match m1.w with
    | none => (s, m0)
    | some z1 => addF J l s ⟨m0.p, .slot z0⟩ ⟨m1.p, .slot z1⟩

/-- `multiply2` (Package.hpp:1583-1757) for a matrix and a vector, with `start = 0`; the first argument is `var + 1`. The shortcut for
identities (1628-1666) is left out: it is taken only for an operand whose level differs from `var`, and then not for full diagrams. -/
def multiplyF : Nat → JState R → PtrEdge → PtrEdge → JState R × SEdge R
  | l, s, x, y =>
    if x.w = CNum.zero ∨ y.w = CNum.zero then (s, ⟨none, none⟩)
    else
      match l with
      | 0 => (s, ⟨none, some (s.ct.mulV J.fl (s.ct.cval J.C x.w) (s.ct.cval J.C y.w))⟩)
      | l + 1 =>
        match s.mulLook J x.p y.p with
        | some r => (s, if s.ct.zeroV r.w then ⟨none, none⟩ else mulEnd J s r.p r.w x y)
        | none =>
          let a0 := multiplyF l s (mulKidM s x.p l (rc 0 0)) (mulKidV s y.p l 0)
          let a1 := multiplyF l a0.1 (mulKidM s x.p l (rc 0 1)) (mulKidV s y.p l 1)
          let r0 := mulSum J l a1.1 a0.2 a1.2
          let b0 := multiplyF l r0.1 (mulKidM s x.p l (rc 1 0)) (mulKidV s y.p l 0)
          let b1 := multiplyF l b0.1 (mulKidM s x.p l (rc 1 1)) (mulKidV s y.p l 1)
          let r1 := mulSum J l b1.1 b0.2 b1.2
          let n := makeV J r1.1 l ![r0.2, r1.2]
          let s1 := n.1.mulIns J x.p y.p ⟨n.2.p, sval n.2.w⟩
          match n.2.w with
          | none => (s1, n.2)
          | some z => (s1, mulEnd J s1 n.2.p z x y)

/-- `multiply` (Package.hpp:1537-1580) for a matrix and a vector, with `start = 0`. -/
def multiply (s : JState R) (x y : PtrEdge) : JState R × PtrEdge :=
  finishV J (multiplyF J (max (s.lvlM x.p) (s.lvlV y.p)) s x y)

end JState
end DD
