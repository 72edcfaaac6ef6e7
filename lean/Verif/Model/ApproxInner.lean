import Verif.Model.ApproxGate

/-!
# Inner products with a tolerance

`innerProduct` and `fidelity` on the tables of Model/Joint.lean, with all shortcuts for numbers that are approximately equal and with
rounded arithmetic. No nodes and numbers are made. Of the weights only the numbers they point to are used.
-/

namespace DD

variable {R : Type} [Field R] [LinearOrder R] [FloorRing R] [HasSqrt R]

namespace JState

variable (J : JCfg R)

/-- The key of two nodes in the cache of `innerProduct` (Package.hpp:1852-1857): edges to them with weight one. -/
def innKey (a b : Option Nat) : CKey R := ([.ptr .v ⟨a, CNum.one⟩, .ptr .v ⟨b, CNum.one⟩], [])

/-- `vectorInnerProduct.lookup` (Package.hpp:1857-1858). -/
def innLook (s : JState R) (a b : Option Nat) : Option (Cx R) :=
  match (s.cache .vectorInnerProduct).lookup (J.h .vectorInnerProduct) (s.sameKey J) (fun _ => true) (innKey a b) with
  | some (.val _ r) => some r.w
  | _ => none

/-- `vectorInnerProduct.insert` (Package.hpp:1887-1890): the node of the result is the terminal. -/
def innIns (s : JState R) (a b : Option Nat) (z : Cx R) : JState R :=
  { s with
    cache := Function.update s.cache .vectorInnerProduct
      ((s.cache .vectorInnerProduct).insert (J.h .vectorInnerProduct) (innKey a b) (.val .v ⟨none, z⟩)) }

/-- Successor `i` of an operand (Package.hpp:1870-1882): that of the node if it is at level `v`, with its weight conjugated for the first
operand (`f` is `Cx.conj` then), else the node with weight one. -/
def innKid (s : JState R) (f : Cx R → Cx R) (p : Option Nat) (v : Nat) (i : Fin 2) : ValEdge R :=
  match p with
  | none => ⟨none, 1⟩
  | some a =>
    if ((s.tab .v).tab.mem a).v = v then ⟨(((s.tab .v).tab.mem a).e i).p, f (s.ct.cval J.C (((s.tab .v).tab.mem a).e i).w)⟩ else ⟨some a, 1⟩

/-- Recursive `innerProduct` (Package.hpp:1841-1895); the first argument is `var`. -/
def innerF : Nat → JState R → ValEdge R → ValEdge R → JState R × Cx R
  | l, s, x, y =>
    if s.ct.zeroV x.w || s.ct.zeroV y.w then (s, 0)
    else
      match l with
      | 0 => (s, s.ct.mulV J.fl x.w y.w)
      | l + 1 =>
        match s.innLook J x.p y.p with
        | some r => (s, s.ct.mulV J.fl (s.ct.mulV J.fl r x.w) y.w)
        | none =>
          let a0 := innerF l s (innKid J s Cx.conj x.p l 0) (innKid J s id y.p l 0)
          let a1 := innerF l a0.1 (innKid J s Cx.conj x.p l 1) (innKid J s id y.p l 1)
          let sum := addC J.fl (addC J.fl 0 a0.2) a1.2
          (a1.1.innIns J x.p y.p sum, s.ct.mulV J.fl (s.ct.mulV J.fl sum x.w) y.w)

/-- `innerProduct` (Package.hpp:1773-1793). -/
def innerProduct (s : JState R) (x y : PtrEdge) : JState R × Cx R :=
  if s.ct.zeroV (s.ct.cval J.C x.w) || s.ct.zeroV (s.ct.cval J.C y.w) then (s, 0)
  else innerF J (max (s.lvlV x.p) (s.lvlV y.p)) s ⟨x.p, (s.ct.cval J.C x.w).conj⟩ ⟨y.p, s.ct.cval J.C y.w⟩

/-- `fidelity` (Package.hpp:1795-1798). -/
def fidelity (s : JState R) (x y : PtrEdge) : JState R × R :=
  let r := innerProduct J s x y
  (r.1, mag2F J.fl r.2)

end JState
end DD
