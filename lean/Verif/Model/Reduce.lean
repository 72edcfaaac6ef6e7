import Verif.Model.PkgState

/-!
# Reduction of ancillary and garbage qubits

Model of `reduceAncillae` and of the two functions `reduceGarbage` (Package.hpp:2258-2503). The three recursive functions
share their first half (walk over the successors, new node) and their last lines; they are one definition here that is
given the middle part, what happens at a marked qubit, as a parameter.
-/

namespace DD
namespace Pkg

variable {R : Type} [Field R] [LinearOrder R] [IsStrictOrderedRing R] [HasSqrt R]

/-- One turn of the loop over the successors (Package.hpp:2332-2345, 2378-2391, 2431-2444): `ed i` is `none` as long as `i`
is not `handled`. The result for successor `i` is also entered for all later successors with the same node, whatever
their weight. -/
def redStep {n : Nat} (rec : Pkg R → PEdge R → Pkg R × PEdge R) (es : Fin n → PEdge R)
    (st : Pkg R × (Fin n → Option (PEdge R))) (i : Fin n) : Pkg R × (Fin n → Option (PEdge R)) :=
  if (st.2 i).isSome then st
  else match (es i).p with
    | none => (st.1, Function.update st.2 i (some (es i)))
    | some _ =>
      let r := rec st.1 (es i)
      (r.1, fun j => if j = i ∨ (i < j ∧ (es j).p = (es i).p) then some r.2 else st.2 j)

/-- The loop over the successors (Package.hpp:2329-2346, 2375-2392, 2428-2445). -/
def redLoop {n : Nat} (rec : Pkg R → PEdge R → Pkg R × PEdge R) (s : Pkg R) (es : Fin n → PEdge R) :
    Pkg R × (Fin n → PEdge R) :=
  let r := (List.finRange n).foldl (redStep rec es) (s, fun _ => none)
  (r.1, fun i => (r.2 i).getD zeroE)

/-- The common frame of `reduceAncillaeRecursion` (Package.hpp:2322-2366) and `reduceGarbageRecursion` (2368-2420,
2421-2503). `step s v f` is the part after the first `makeDDNode`, `clamp` tells whether the lines "Quick-fix for
normalization bug" (2414-2417, 2497-2500) are there. The first argument bounds the level of `e`. -/
def reduceF (P : PCfg R) (k : Kind) (clamp : Bool) (step : Pkg R → Nat → PEdge R → Pkg R × PEdge R) (lb : Nat) :
    Nat → Pkg R → PEdge R → Pkg R × PEdge R
  | 0, s, e => (s, e)
  | l + 1, s, e =>
    match e.p with
    | none => (s, e)
    | some a =>
      let nd := (s.ut k).mem a
      if nd.v < lb then (s, e)
      else
        let q := redLoop (reduceF P k clamp step lb l) s nd.e
        let f := makeDDNode P k q.1 nd.v q.2 false
        let g := step f.1 nd.v f.2
        let w := g.2.w * e.w
        (g.1, ⟨g.2.p, if clamp && decide (1 < w.mag2) then 1 else w⟩)

/-- The middle part of `reduceAncillaeRecursion` (Package.hpp:2349-2360). The weight of `f` is overwritten together with
`f`. Reading the mask beyond its end is not modelled (`false` here). -/
def ancStep (P : PCfg R) (mask : List Bool) (regular : Bool) (s : Pkg R) (_v : Nat) (f : PEdge R) : Pkg R × PEdge R :=
  match f.p with
  | none => (s, f)
  | some b =>
    let nd := (s.ut .m).mem b
    if mask.getD nd.v false then
      if regular then
        if (nd.e 1).w ≠ 0 ∨ (nd.e 3).w ≠ 0 then makeDDNode P .m s nd.v ![nd.e 0, zeroE, nd.e 2, zeroE] false
        else (s, f)
      else
        if (nd.e 2).w ≠ 0 ∨ (nd.e 3).w ≠ 0 then makeDDNode P .m s nd.v ![nd.e 0, nd.e 1, zeroE, zeroE] false
        else (s, f)
    else (s, f)

/-- The case distinction around `add` (Package.hpp:2398-2405, 2452-2459, 2460-2467, 2472-2479, 2480-2487). -/
def sumEdges (P : PCfg R) (k : Kind) (s : Pkg R) (x y : PEdge R) : Pkg R × PEdge R :=
  if x.w = 0 ∧ y.w ≠ 0 then (s, y)
  else if y.w ≠ 0 then add P k s x y
  else (s, x)

/-- The middle part of `reduceGarbageRecursion` for vectors (Package.hpp:2395-2408). -/
def garbStepV (P : PCfg R) (mask : List Bool) (s : Pkg R) (v : Nat) (f : PEdge R) : Pkg R × PEdge R :=
  match f.p with
  | none => (s, f)
  | some b =>
    let nd := (s.ut .v).mem b
    if mask.getD nd.v false then
      if (nd.e 1).w ≠ 0 then
        let g := sumEdges P .v s (nd.e 0) (nd.e 1)
        makeDDNode P .v g.1 v ![g.2, zeroE] false
      else (s, f)
    else (s, f)

/-- The middle part of `reduceGarbageRecursion` for matrices (Package.hpp:2448-2491). -/
def garbStepM (P : PCfg R) (mask : List Bool) (regular : Bool) (s : Pkg R) (v : Nat) (f : PEdge R) : Pkg R × PEdge R :=
  match f.p with
  | none => (s, f)
  | some b =>
    let nd := (s.ut .m).mem b
    if mask.getD nd.v false then
      if regular then
        if (nd.e 2).w ≠ 0 ∨ (nd.e 3).w ≠ 0 then
          let g := sumEdges P .m s (nd.e 0) (nd.e 2)
          let h := sumEdges P .m g.1 (nd.e 1) (nd.e 3)
          makeDDNode P .m h.1 v ![g.2, h.2, zeroE, zeroE] false
        else (s, f)
      else
        if (nd.e 1).w ≠ 0 ∨ (nd.e 3).w ≠ 0 then
          let g := sumEdges P .m s (nd.e 0) (nd.e 1)
          let h := sumEdges P .m g.1 (nd.e 2) (nd.e 3)
          makeDDNode P .m h.1 v ![g.2, zeroE, h.2, zeroE] false
        else (s, f)
    else (s, f)

/-- `reduceAncillaeRecursion` (Package.hpp:2322-2366). -/
def reduceAncillaeRec (P : PCfg R) (mask : List Bool) (regular : Bool) (lb : Nat) (s : Pkg R) (e : PEdge R) :
    Pkg R × PEdge R :=
  reduceF P .m false (ancStep P mask regular) lb (s.lv .m e) s e

/-- `reduceGarbageRecursion` for vectors (Package.hpp:2368-2420). -/
def reduceGarbageVRec (P : PCfg R) (mask : List Bool) (lb : Nat) (s : Pkg R) (e : PEdge R) : Pkg R × PEdge R :=
  reduceF P .v true (garbStepV P mask) lb (s.lv .v e) s e

/-- `reduceGarbageRecursion` for matrices (Package.hpp:2421-2503). -/
def reduceGarbageMRec (P : PCfg R) (mask : List Bool) (regular : Bool) (lb : Nat) (s : Pkg R) (e : PEdge R) :
    Pkg R × PEdge R :=
  reduceF P .m true (garbStepM P mask regular) lb (s.lv .m e) s e

/-- The first marked qubit; `none` if there is none (Package.hpp:2260-2269, 2282-2291, 2302-2311). -/
def lowerbound (mask : List Bool) : Option Nat := mask.findIdx? id

/-- The reference the caller holds on `e` is given back and one on the result is taken (Package.hpp:2274-2276,
2296-2298, 2316-2318); `none` is the exception of `decRef`. -/
def moveRef (P : PCfg R) (k : Kind) (e : PEdge R) (f : Pkg R × PEdge R) : Option (Pkg R × PEdge R) :=
  (f.1.decRef P k e).map fun s => (s.incRef P k f.2, f.2)

/-- `reduceAncillae` (Package.hpp:2258-2277). -/
def reduceAncillae (P : PCfg R) (s : Pkg R) (e : PEdge R) (mask : List Bool) (regular : Bool) : Option (Pkg R × PEdge R) :=
  match lowerbound mask with
  | none => some (s, e)
  | some lb => if s.lv .m e ≤ lb then some (s, e) else moveRef P .m e (reduceAncillaeRec P mask regular lb s e)

/-- `reduceGarbage` for vectors (Package.hpp:2280-2299). -/
def reduceGarbageV (P : PCfg R) (s : Pkg R) (e : PEdge R) (mask : List Bool) : Option (Pkg R × PEdge R) :=
  match lowerbound mask with
  | none => some (s, e)
  | some lb => if s.lv .v e ≤ lb then some (s, e) else moveRef P .v e (reduceGarbageVRec P mask lb s e)

/-- `reduceGarbage` for matrices (Package.hpp:2300-2319). -/
def reduceGarbageM (P : PCfg R) (s : Pkg R) (e : PEdge R) (mask : List Bool) (regular : Bool) : Option (Pkg R × PEdge R) :=
  match lowerbound mask with
  | none => some (s, e)
  | some lb => if s.lv .m e ≤ lb then some (s, e) else moveRef P .m e (reduceGarbageMRec P mask regular lb s e)

end Pkg
end DD
