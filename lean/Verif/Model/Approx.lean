import Verif.Model.Joint
import Mathlib.Data.Fin.VecNotation

/-!
# Operations on vectors with a tolerance

Layer B (Model/Package.lean) runs the operations with exact numbers. This file models `makeStateFromVector`, `add` and reading out a
vector on the tables of Model/Joint.lean: edge weights are pointers to the number table, looked up up to the tolerance, and all
shortcuts for numbers that are approximately zero or one or approximately equal are taken. The result of each arithmetic operation (`+`,
`-`, `*`, `/`, `std::sqrt`) is rounded by `JCfg.fl`; the comparisons with the tolerance in the number table and in `approximatelyZero`,
`approximatelyOne`, `approximatelyEquals` are exact. Slots of the complex cache are represented by the values they hold (their handling is
the subject of C53).
-/

namespace DD

variable {R : Type} [Field R] [LinearOrder R] [FloorRing R] [HasSqrt R]

namespace CTab

/-- `approximatelyZero` of a complex number (Complex.hpp:43-45, ComplexValue.hpp:30-33). -/
def zeroV (t : CTab R) (z : Cx R) : Bool := t.approxZero z.re && t.approxZero z.im

/-- `approximatelyOne` of a complex number (Complex.hpp:47-49, ComplexValue.hpp:35-38). -/
def oneV (t : CTab R) (z : Cx R) : Bool := t.approxOne z.re && t.approxZero z.im

/-- `approximatelyEquals` of complex numbers (Complex.hpp:31-33, ComplexValue.hpp:25-28). -/
def eqV (t : CTab R) (a b : Cx R) : Bool := t.approxEq a.re b.re && t.approxEq a.im b.im

/-- `mul` (ComplexNumbers.hpp:50-69) on values; `fl` is the rounding. -/
def mulV (t : CTab R) (fl : R → R) (a b : Cx R) : Cx R :=
  if t.oneV a then b
  else if t.oneV b then a
  else if t.zeroV a || t.zeroV b then ⟨0, 0⟩
  else ⟨fl (fl (a.re * b.re) - fl (a.im * b.im)), fl (fl (a.re * b.im) + fl (a.im * b.re))⟩

/-- `div` (ComplexNumbers.hpp:70-89) on values. -/
def divV (t : CTab R) (fl : R → R) (a b : Cx R) : Cx R :=
  if t.eqV a b then ⟨1, 0⟩
  else if t.oneV b then a
  else
    let cmag := fl (fl (b.re * b.re) + fl (b.im * b.im))
    ⟨fl (fl (fl (a.re * b.re) + fl (a.im * b.im)) / cmag), fl (fl (fl (a.im * b.re) - fl (a.re * b.im)) / cmag)⟩

end CTab

/-- `mag2` (ComplexNumbers.hpp:90-95). -/
def mag2F (fl : R → R) (z : Cx R) : R := fl (fl (z.re * z.re) + fl (z.im * z.im))

/-- `add` (ComplexNumbers.hpp:38-43). -/
def addC (fl : R → R) (a b : Cx R) : Cx R := ⟨fl (a.re + b.re), fl (a.im + b.im)⟩

/-- An intermediate result of an operation (with `cached = true`): its weight is `Complex::zero` (`none`) or a slot that holds a
value. -/
abbrev SEdge (R : Type) := Edge (Option (Cx R))

/-- A weight of an operand (`Complex`): a number of the table or a slot that holds a value. -/
inductive OW (R : Type) where
  | tab (c : CNum Loc)
  | slot (z : Cx R)

/-- An operand of `add2`. -/
abbrev OEdge (R : Type) := Edge (OW R)

/-- The value of an intermediate result. -/
def sval (w : Option (Cx R)) : Cx R := w.getD 0

/-- `exactlyZero` (Complex.hpp:35-37). -/
def OW.isZero : OW R → Bool
  | .tab c => decide (c = CNum.zero)
  | .slot _ => false

namespace JState

variable (J : JCfg R)

/-- `cn.lookup` (ComplexNumbers.hpp:141-187). -/
def lookupC (s : JState R) (z : Cx R) : JState R × CNum Loc :=
  let r := s.ct.lookupC J.C z
  ({ s with ct := r.1 }, r.2)

/-- The value of the weight of an operand (ComplexTable.hpp:67-72). -/
def oval (s : JState R) : OW R → Cx R
  | .tab c => s.ct.cval J.C c
  | .slot z => z

/-- The rest of `makeDDNode` after normalisation (Package.hpp:1014-1027) for vectors. -/
def nodeV (s : JState R) (v : Nat) (es : Fin 2 → PtrEdge) : JState R × Nat :=
  let r := (s.tab .v).tab.mkNodeBy (s.sameEdges J) (J.H .v) J.U v es false false
  ({ s with tab := Function.update s.tab .v { s.tab .v with tab := r.1 } }, r.2)

/-- `makeDDNode` fetches a cell and does not use it (Package.hpp:995, 147-155 with `cached = true`). -/
def takeV (s : JState R) : JState R :=
  { s with tab := Function.update s.tab .v { s.tab .v with tab := ((s.tab .v).tab.getNode J.U).1 } }

/-- A successor of weight approximately zero (Package.hpp:138-145). -/
def zeroKid (e : SEdge R) : PtrEdge := if e.w = none then ⟨e.p, CNum.zero⟩ else ⟨none, CNum.zero⟩

/-- A successor with a looked up weight (Package.hpp:196-199, 215-219). -/
def kidOf (p : Option Nat) (c : CNum Loc) : PtrEdge := if c = CNum.zero then ⟨none, CNum.zero⟩ else ⟨p, c⟩

/-- `makeDDNode` with `cached = true` for vectors (Package.hpp:993-1028, `normalize` 134-223). -/
def makeV (s : JState R) (v : Nat) (es : Fin 2 → SEdge R) : JState R × SEdge R :=
  let z0 := sval (es 0).w
  let z1 := sval (es 1).w
  if s.ct.zeroV z0 then
    if s.ct.zeroV z1 then (takeV J s, ⟨none, none⟩)
    else
      let n := nodeV J s v ![zeroKid (es 0), ⟨(es 1).p, CNum.one⟩]
      (n.1, ⟨some n.2, some z1⟩)
  else if s.ct.zeroV z1 then
    let n := nodeV J s v ![⟨(es 0).p, CNum.one⟩, zeroKid (es 1)]
    (n.1, ⟨some n.2, some z0⟩)
  else
    let mag0 := mag2F J.fl z0
    let mag1 := mag2F J.fl z1
    let norm2 := J.fl (mag0 + mag1)
    let first := decide (J.fl (mag0 + s.ct.tol) ≥ mag1)
    let norm := J.fl (HasSqrt.sqrt norm2)
    let magMax := J.fl (HasSqrt.sqrt (if first then mag0 else mag1))
    let commonFactor := J.fl (norm / magMax)
    let max := if first then z0 else z1
    let min := if first then z1 else z0
    let top : Cx R := ⟨J.fl (max.re * commonFactor), J.fl (max.im * commonFactor)⟩
    let a := lookupC J s ⟨J.fl (magMax / norm), 0⟩
    let b := lookupC J a.1 (a.1.ct.divV J.fl min top)
    let n := nodeV J b.1 v
      (if first then ![kidOf (es 0).p a.2, kidOf (es 1).p b.2] else ![kidOf (es 0).p b.2, kidOf (es 1).p a.2])
    (n.1, ⟨some n.2, some top⟩)

/-- Recursive `makeStateFromVector` (Package.hpp:838-854); the first argument is `level`. -/
def stateF : Nat → JState R → List (Cx R) → JState R × SEdge R
  | 0, s, xs => makeV J s 0 ![⟨none, some (xs.getD 0 0)⟩, ⟨none, some (xs.getD 1 0)⟩]
  | l + 1, s, xs =>
    let half := xs.length / 2
    let r0 := stateF l s (xs.take half)
    let r1 := stateF l r0.1 (xs.drop half)
    makeV J r1.1 (l + 1) ![r0.2, r1.2]

/-- The end of `add` and `makeStateFromVector` (Package.hpp:1319-1322, 325-328): the number is looked up. -/
def finishV (r : JState R × SEdge R) : JState R × PtrEdge :=
  match r.2.w with
  | none => (r.1, ⟨r.2.p, CNum.zero⟩)
  | some z =>
    let c := lookupC J r.1 z
    (c.1, ⟨r.2.p, c.2⟩)

/-- `makeStateFromVector` (Package.hpp:307-334); `none` is the exception. -/
def makeStateFromVector (s : JState R) (xs : List (Cx R)) : Option (JState R × PtrEdge) :=
  if xs = [] then some (s, ⟨none, CNum.one⟩)
  else if xs.length &&& (xs.length - 1) ≠ 0 then none
  else if xs.length = 1 then
    let c := lookupC J s (xs.getD 0 0)
    some (c.1, ⟨none, c.2⟩)
  else some (finishV J (stateF J (Nat.log2 xs.length - 1) s xs))

/-- Comparison of edges of cache entries (Edge.hpp:26-28, 84-86). -/
def sameArg (s : JState R) : CArg R → CArg R → Bool
  | .ptr k a, .ptr k' b => decide (k = k' ∧ a.p = b.p) &&
      (⟨.zero, .one, s.ct.tol⟩ : NumEnv Loc R).eqC (s.ct.value J.C) a.w b.w
  | .val k a, .val k' b => decide (k = k' ∧ a.p = b.p) && s.ct.eqV a.w b.w
  | _, _ => false

/-- Comparison of keys with two edges (ComputeTable.hpp:60-65). -/
def sameKey (s : JState R) : CKey R → CKey R → Bool
  | ([a, b], n), ([a', b'], n') => s.sameArg J a a' && s.sameArg J b b' && decide (n = n')
  | _, _ => false

/-- The key of two operands in the cache of `add` (Package.hpp:1359, 1427). -/
def addKey (x y : ValEdge R) : CKey R := ([.val .v x, .val .v y], [])

/-- `computeTable.lookup` in `add2` (Package.hpp:1359). -/
def addLook (s : JState R) (x y : ValEdge R) : Option (ValEdge R) :=
  match (s.cache .vectorAdd).lookup (J.h .vectorAdd) (s.sameKey J) (fun _ => true) (addKey x y) with
  | some (.val _ r) => some r
  | _ => none

/-- `computeTable.insert` in `add2` (Package.hpp:1427). -/
def addIns (s : JState R) (x y r : ValEdge R) : JState R :=
  { s with cache := Function.update s.cache .vectorAdd ((s.cache .vectorAdd).insert (J.h .vectorAdd) (addKey x y) (.val .v r)) }

/-- Level plus one of a node pointer; 0 for the terminal. -/
def lvlV (s : JState R) (p : Option Nat) : Nat := (s.tab .v).tab.lvl ⟨p, CNum.one⟩

/-- Successor `i` of an operand of `add2` (Package.hpp:1370-1380, 1382-1392): if its node is at level `w`, the successor with the weight of
the operand multiplied in, else the operand. -/
def addChild (s : JState R) (x : OEdge R) (w : Nat) (i : Fin 2) : OEdge R :=
  match x.p with
  | none => x
  | some a =>
    if ((s.tab .v).tab.mem a).v = w then
      let e : PtrEdge := ((s.tab .v).tab.mem a).e i
      if e.w = CNum.zero then ⟨e.p, .tab e.w⟩
      else ⟨e.p, .slot (s.ct.mulV J.fl (s.ct.cval J.C e.w) (s.oval J x.w))⟩
    else x

/-- `add2` (Package.hpp:1330-1429) for vectors. The first argument bounds the level. -/
def addF : Nat → JState R → OEdge R → OEdge R → JState R × SEdge R
  | l, s, x, y =>
    if x.w.isZero then
      if y.w.isZero then (s, ⟨none, none⟩)
      else (s, ⟨y.p, some (s.oval J y.w)⟩)
    else if y.w.isZero then (s, ⟨x.p, some (s.oval J x.w)⟩)
    else if x.p = y.p then
      let z := addC J.fl (s.oval J x.w) (s.oval J y.w)
      if s.ct.zeroV z then (s, ⟨none, none⟩) else (s, ⟨y.p, some z⟩)
    else
      let xv : ValEdge R := ⟨x.p, s.oval J x.w⟩
      let yv : ValEdge R := ⟨y.p, s.oval J y.w⟩
      match s.addLook J xv yv with
      | some r => if s.ct.zeroV r.w then (s, ⟨none, none⟩) else (s, ⟨r.p, some r.w⟩)
      | none =>
        match l with
        | 0 => (s, ⟨none, none⟩)
        | l + 1 =>
          let w := max (s.lvlV x.p) (s.lvlV y.p) - 1
          let r0 := addF l s (addChild J s x w 0) (addChild J s y w 0)
          let r1 := addF l r0.1 (addChild J s x w 1) (addChild J s y w 1)
          let n := makeV J r1.1 w ![r0.2, r1.2]
          (n.1.addIns J xv yv ⟨n.2.p, sval n.2.w⟩, n.2)

/-- `add` (Package.hpp:1313-1328) for vectors. -/
def add (s : JState R) (x y : PtrEdge) : JState R × PtrEdge :=
  finishV J (addF J (max (s.lvlV x.p) (s.lvlV y.p)) s ⟨x.p, .tab x.w⟩ ⟨y.p, .tab y.w⟩)

/-- What the recursive `getVector` (Package.hpp:2646-2667) writes for the path `d`; entries it does not write are 0 (2642). The recursive
`getValueByPath` (2540-2558) returns the same number. Terminal edges above level 0 do not occur: successors of weight zero are skipped, and
a root is assumed to be a node (2640 reads its level). -/
def readF (s : JState R) : (l : Nat) → PtrEdge → Cx R → (Fin l → Fin 2) → Cx R
  | 0, e, amp, _ => s.ct.mulV J.fl (s.ct.cval J.C e.w) amp
  | l + 1, e, amp, d =>
    let c := s.ct.mulV J.fl (s.ct.cval J.C e.w) amp
    match e.p with
    | none => c
    | some a =>
      let k : PtrEdge := ((s.tab .v).tab.mem a).e (d (Fin.last l))
      if s.ct.zeroV (s.ct.cval J.C k.w) then 0 else readF s l k c (Fin.init d)

/-- `getVector` (Package.hpp:2640-2645) and `getValueByPath` (2534-2539) with an index. -/
def getVector (s : JState R) (l : Nat) (e : PtrEdge) (d : Fin l → Fin 2) : Cx R := readF J s l e ⟨1, 0⟩ d

end JState
end DD
