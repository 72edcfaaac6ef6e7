import Verif.Model.ApproxGate
import Verif.Model.Serialize
import Verif.ApproxSpec

/-!
# Transfer and deserialization with a tolerance

`transfer` (Package.hpp:2881-2961) and `deserialize` (Package.hpp:2968-3108) on the tables of Model/Joint.lean, with lookups of numbers up to the tolerance and
with rounded arithmetic. As in Model/Serialize.lean, the order in which the nodes are copied is computed first; it depends on the weights of the original only
through the question which of them are zero. The code asks `approximatelyZero` there (Package.hpp:2899, 2918; Export.hpp:651, 670, 712); the model asks whether the
weight is zero, which is the same as long as the tolerance is not changed, as `lookup` returns zero for numbers up to the tolerance (ComplexTable.hpp:154-157).
-/

namespace DD

variable {R : Type} [Field R] [LinearOrder R] [FloorRing R] [HasSqrt R]

namespace JState

variable (J : JCfg R)

/-- The table of vector or matrix nodes with the numbers the weights point to. -/
def tabV (s : JState R) : (k : Kind) → UTable (Cx R) (ar k)
  | .v => (s.tab .v).tab.mapW (s.ct.cval J.C)
  | .m => (s.tab .m).tab.mapW (s.ct.cval J.C)

/-- `makeDDNode(v, edges)` (Package.hpp:993-1028), `cached = false`. -/
def makeK : (k : Kind) → JState R → Nat → (Fin (ar k) → PtrEdge) → JState R × PtrEdge
  | .v, s, v, es => makeU J s v es
  | .m, s, v, es => makeN J (transposeF J v) s v es

/-- The end of `transfer` and `deserialize` (Package.hpp:2951-2954, 3061-3064): the weight of the root is multiplied and looked up. -/
def scaleC (s : JState R) (w : Cx R) (e : PtrEdge) : JState R × PtrEdge :=
  let c := lookupC J s (s.ct.mulV J.fl (s.ct.cval J.C e.w) w)
  (c.1, ⟨e.p, c.2⟩)

/-- The edge built from an index and a weight (Package.hpp:3087-3097). -/
def recEdgeJ (nodes : Int → Option (Option Nat)) (r : Option (Int × Cx R)) (s : JState R) : JState R × Option PtrEdge :=
  match r with
  | none => (s, some zeroP)
  | some (z, w) =>
    if z = -2 then (s, some zeroP)
    else
      let c := lookupC J s w
      if z = -1 then (c.1, some ⟨none, c.2⟩)
      else match nodes z with
        | none => (c.1, none)
        | some p => (c.1, some ⟨p, c.2⟩)

/-- `deserializeNode` (Package.hpp:3080-3108); `none`: a null pointer is used as a node. -/
def readNodeJ (k : Kind) (s : JState R) (nodes : Int → Option (Option Nat)) (r : Rec R (ar k)) :
    Option (JState R × (Int → Option (Option Nat)) × PtrEdge) :=
  if r.idx = -1 then some (s, nodes, zeroP)
  else
    let q := seqFin (ar k) (fun i s => recEdgeJ J nodes (r.e i) s) s
    if ∀ i, (q.2 i).isSome then
      let n := makeK J k q.1 r.v (fun i => (q.2 i).getD zeroP)
      some (n.1, Function.update nodes r.idx (some n.2.p), n.2)
    else none

/-- The loop over the records (Package.hpp:2990-2997, 3022-3055). -/
def readLoopJ (k : Kind) : List (Rec R (ar k)) → JState R → (Int → Option (Option Nat)) → PtrEdge →
    Option (JState R × (Int → Option (Option Nat)) × PtrEdge)
  | [], s, nodes, result => some (s, nodes, result)
  | r :: rs, s, nodes, _ =>
    match readNodeJ J k s nodes r with
    | none => none
    | some (s1, nodes1, res1) => readLoopJ k rs s1 nodes1 res1

/-- `deserialize` (Package.hpp:2968-3064) given the root weight and the records. -/
def deserialize (k : Kind) (s : JState R) (w : Cx R) (recs : List (Rec R (ar k))) : Option (JState R × PtrEdge) :=
  match readLoopJ J k recs s (fun _ => none) zeroP with
  | none => none
  | some (s1, _, r) => some (scaleC J s1 w r)

/-- `cn.lookup` of a number of another package (ComplexNumbers.hpp:141-152), `z` being its value: the constants are returned as they are. -/
def lookupX (s : JState R) (c : CNum Loc) (z : Cx R) : JState R × CNum Loc :=
  if c = CNum.zero then (s, CNum.zero)
  else if c = CNum.one then (s, CNum.one)
  else lookupC J s z

/-- The copy of an edge in `transfer` (Package.hpp:2937-2943), `o` being the other package; `none`: a child without copy (null pointer). -/
def copyEdgeJ (o : JState R) (mapped : Nat → Option (Option Nat)) (x : PtrEdge) (s : JState R) : JState R × Option PtrEdge :=
  let c := lookupX J s x.w (o.ct.cval J.C x.w)
  match x.p with
  | none => (c.1, some ⟨none, c.2⟩)
  | some a =>
    match mapped a with
    | none => (c.1, none)
    | some p => (c.1, some ⟨p, c.2⟩)

/-- The successors of a node of vectors or matrices. -/
def kidsK (s : JState R) : (k : Kind) → Nat → Nat × (Fin (ar k) → PtrEdge)
  | .v, a => (((s.tab .v).tab.mem a).v, ((s.tab .v).tab.mem a).e)
  | .m, a => (((s.tab .m).tab.mem a).v, ((s.tab .m).tab.mem a).e)

/-- Copy the nodes in the given order (Package.hpp:2936-2947). -/
def transferLoop (k : Kind) (o : JState R) : List Nat → JState R → (Nat → Option (Option Nat)) → PtrEdge →
    Option (JState R × (Nat → Option (Option Nat)) × PtrEdge)
  | [], s, mapped, root => some (s, mapped, root)
  | a :: as, s, mapped, _ =>
    let q := seqFin (ar k) (fun i s => copyEdgeJ J o mapped ((o.kidsK k a).2 i) s) s
    if ∀ i, (q.2 i).isSome then
      let n := makeK J k q.1 (o.kidsK k a).1 (fun i => (q.2 i).getD zeroP)
      transferLoop k o as n.1 (Function.update mapped a (some n.2.p)) n.2
    else none

/-- `transfer` (Package.hpp:2881-2961) of edge `e` of the package `o` to the package `s` ends with result `r`. -/
inductive Transfers (k : Kind) (o s : JState R) (e : PtrEdge) : JState R × PtrEdge → Prop
  | terminal : e.p = none → Transfers k o s e ((lookupX J s e.w (o.ct.cval J.C e.w)).1, ⟨none, (lookupX J s e.w (o.ct.cval J.C e.w)).2⟩)
  | node {order : List Nat} {s' : JState R} {mapped : Nat → Option (Option Nat)} {r : PtrEdge} : e.p ≠ none →
      Pkg.TransferOrder k (o.tabV J k) ⟨e.p, o.ct.cval J.C e.w⟩ order →
      transferLoop J k o order s (fun _ => none) zeroP = some (s', mapped, r) → Transfers k o s e (scaleC J s' (o.ct.cval J.C e.w) r)

end JState
end DD
