import Verif.Model.Package

/-!
# Serialization and transfer

`serialize` (Export.hpp:628-778), `deserialize` (Package.hpp:2968-3108) and `transfer` (Package.hpp:2881-2961).

Both iterative traversals visit the nodes in an order that depends on the maps `nodeIndex` and `mappedNode` only through
the question which nodes have an entry. The model therefore first computes the order in which nodes get their entry and
then performs the actions (writing a record, building a node) in this order.
-/

namespace DD

variable {R : Type} [Field R] [LinearOrder R]

/-- State of the iterative post-order traversals at the beginning of the body of the outer loop: the edge at hand
(`nullptr` is `none`), the stack (top first) and the nodes that have an entry in the map, in the order of insertion. -/
structure Trav (R : Type) where
  cur : Option (PEdge R)
  stack : List (PEdge R)
  done : List Nat

namespace Trav

/-- Is the target of the edge in the map? The terminal never is. -/
def known (done : List Nat) (e : PEdge R) : Bool :=
  match e.p with
  | none => false
  | some a => decide (a ∈ done)

/-- The edges of index at least 1, in ascending order. -/
def later {n : Nat} (es : Fin (n + 1) → PEdge R) : List (PEdge R) := List.ofFn (fun i : Fin n => es i.succ)

/-- The inner loop (Export.hpp:645-662, Package.hpp:2894-2911): follow edge 0 down to the terminal; at each node push the
edges of index `n-1 .. 1` that are neither terminal nor zero nor known, then the edge at hand. The first argument bounds
the number of nodes on a path. -/
def descend {n : Nat} (t : UTable (Cx R) (n + 1)) (done : List Nat) : Nat → PEdge R → List (PEdge R) → List (PEdge R)
  | 0, _, stack => stack
  | f + 1, e, stack =>
    match e.p with
    | none => stack
    | some a =>
      descend t done f ((t.mem a).e 0)
        (e :: ((later (t.mem a).e).filter (fun x => x.p.isSome && !decide (x.w = 0) && !known done x) ++ stack))

/-- The loop computing `hasChild` (Export.hpp:667-678, Package.hpp:2915-2925). `guard`: `serialize` looks at the top of the stack only if the
stack is not empty; `transfer` does so unconditionally, which is undefined behaviour (`none`) for an empty stack. -/
def hasChild (guard : Bool) (done : List Nat) (stack : List (PEdge R)) : List (PEdge R) → Option Bool
  | [] => some false
  | x :: xs =>
    if x.w = 0 then hasChild guard done stack xs
    else if known done x then hasChild guard done stack xs
    else match stack with
      | [] => if guard then hasChild guard done stack xs else none
      | top :: _ => if x.p = top.p then some true else hasChild guard done stack xs

/-- One execution of the body of the outer loop (Export.hpp:644-721, Package.hpp:2893-2948); `none` is undefined behaviour. -/
def step {n : Nat} (guard : Bool) (t : UTable (Cx R) (n + 1)) (f : Nat) (s : Trav R) : Option (Trav R) :=
  let stack := match s.cur with
    | none => s.stack
    | some e => descend t s.done f e s.stack
  match stack with
  | [] => none
  | e :: rest =>
    match e.p with
    | none => none
    | some a =>
      match hasChild guard s.done rest (later (t.mem a).e) with
      | none => none
      | some true =>
        match rest with
        | [] => none
        | top :: rest' => some ⟨some top, e :: rest', s.done⟩
      | some false =>
        if a ∈ s.done then some ⟨none, rest, s.done⟩
        else some ⟨none, rest, s.done ++ [a]⟩

/-- The outer loop `do … while (!stack.empty())` (Export.hpp:643-722, Package.hpp:2892-2949) ends, and the nodes have been given entries in
the order `d`. -/
inductive Runs {n : Nat} (guard : Bool) (t : UTable (Cx R) (n + 1)) (f : Nat) : Trav R → List Nat → Prop
  | stop {s s' : Trav R} : step guard t f s = some s' → s'.stack = [] → Runs guard t f s s'.done
  | more {s s' : Trav R} {d : List Nat} : step guard t f s = some s' → s'.stack ≠ [] → Runs guard t f s' d → Runs guard t f s d

end Trav

/-- The recursion of `serializeMatrix` (Export.hpp:726-764): nodes visited so far (`visited`, which also contains the
terminal, `none`) and nodes written, in the order of writing. No node is written twice, thus the check whether it already
has an index (734-737) is left out. The first argument is a bound on the level of the edge. -/
def serializeMatrixF (t : UTable (Cx R) 4) : Nat → List (Option Nat) × List Nat → PEdge R → List (Option Nat) × List Nat
  | 0, s, _ => s
  | l + 1, s, e =>
    match e.p with
    | none => s
    | some a =>
      let s1 := (List.finRange 4).foldl (fun s i =>
        let x := (t.mem a).e i
        if x.p ∈ s.1 then s else serializeMatrixF t l (x.p :: s.1, s.2) x) s
      (s1.1, s1.2 ++ [a])

/-- One record of the serialized diagram: index of the node, its qubit, and for each edge the index of the target (-1 for
the terminal) and the weight. In the text format nothing is written for edges of weight zero (`none`). -/
structure Rec (R : Type) (n : Nat) where
  idx : Int
  v : Nat
  e : Fin n → Option (Int × Cx R)

/-- The index written for the target of an edge (Export.hpp:698, 714, 744, 755), where `done` are the nodes with an entry in `nodeIndex`, in
the order of insertion: entries are numbered consecutively from 0; looking up a node without entry creates the entry 0. -/
def recIdx (done : List Nat) (e : PEdge R) : Int :=
  match e.p with
  | none => -1
  | some a => if a ∈ done then done.idxOf a else 0

/-- The record written for node `a` (Export.hpp:690-719, 738-762). -/
def mkRec {n : Nat} (binary : Bool) (t : UTable (Cx R) n) (done : List Nat) (a : Nat) : Rec R n where
  idx := recIdx done (⟨some a, 0⟩ : PEdge R)
  v := (t.mem a).v
  e := fun i =>
    let x := (t.mem a).e i
    if binary || !decide (x.w = 0) then some (recIdx done x, x.w) else none

/-- The records written for the nodes in `order`. -/
def records {n : Nat} (binary : Bool) (t : UTable (Cx R) n) (order : List Nat) : List (Rec R n) :=
  (List.range order.length).map (fun i => mkRec binary t (order.take (i + 1)) (order.getD i 0))

/-- `serialize` for vectors (Export.hpp:628-724): the records written after the version and the root weight. -/
inductive SerializesV (binary : Bool) (t : UTable (Cx R) 2) (e : PEdge R) : List (Rec R 2) → Prop
  | terminal : e.p = none → SerializesV binary t e []
  | node {order : List Nat} : e.p ≠ none → Trav.Runs true t (t.lvl e) ⟨some e, [], []⟩ order →
      SerializesV binary t e (records binary t order)

/-- `serialize` for matrices (Export.hpp:765-778): the records written after the version and the root weight. -/
def serializeM (binary : Bool) (t : UTable (Cx R) 4) (e : PEdge R) : List (Rec R 4) :=
  records binary t (serializeMatrixF t (t.lvl e) ([], []) e).2

/-- The elements of a binary stream, one for each call of `write` (Export.hpp:630-631, 691-700, 740-747; Complex.hpp:63-66). The representation of
the numbers by bytes is not modelled. -/
inductive Item (R : Type) where
  | version (n : Nat)
  | i64 (z : Int)
  | qubit (v : Nat)
  | fp (x : R)

/-- `SERIALIZATION_VERSION` (Definitions.hpp:60). -/
def serializationVersion : Nat := 1

/-- `writeBinary` of a weight (Complex.hpp:63-66). -/
def writeW (w : Cx R) : List (Item R) := [.fp w.re, .fp w.im]

/-- Binary output of a record (Export.hpp:690-701, 738-747). Binary records always contain all edges. -/
def writeRec {n : Nat} (r : Rec R n) : List (Item R) :=
  .i64 r.idx :: .qubit r.v :: (List.ofFn (fun i => match r.e i with
    | some (z, w) => .i64 z :: writeW w
    | none => [])).flatten

/-- The whole binary stream (Export.hpp:629-631, 766-768). -/
def writeAll {n : Nat} (w : Cx R) (recs : List (Rec R n)) : List (Item R) :=
  .version serializationVersion :: writeW w ++ (recs.map writeRec).flatten

/-- `readBinary` of a weight (ComplexValue.hpp:50-53); `none` if the stream does not contain it. (The code then leaves the
previous value; such streams are not modelled.) -/
def readW : List (Item R) → Option (Cx R × List (Item R))
  | .fp x :: .fp y :: s => some (⟨x, y⟩, s)
  | _ => none

/-- Read the edges of a record (Package.hpp:2992-2995). -/
def readEdges : (n : Nat) → List (Item R) → Option (List (Int × Cx R) × List (Item R))
  | 0, s => some ([], s)
  | n + 1, .i64 z :: s =>
    match readW s with
    | none => none
    | some (w, s1) =>
      match readEdges n s1 with
      | none => none
      | some (L, s2) => some ((z, w) :: L, s2)
  | _ + 1, _ => none

/-- Read the records up to the end of the stream (Package.hpp:2990-2997); the first argument bounds their number. -/
def readRecs (n : Nat) : Nat → List (Item R) → Option (List (Rec R n))
  | _, [] => some []
  | 0, _ :: _ => none
  | f + 1, .i64 z :: .qubit v :: s =>
    match readEdges n s with
    | none => none
    | some (L, s1) =>
      match readRecs n f s1 with
      | none => none
      | some recs => some (⟨z, v, fun i => L[(i : Nat)]?⟩ :: recs)
  | _ + 1, _ :: _ => none

/-- Read a binary stream (Package.hpp:2980-2997): root weight and records; `none` if the version is wrong (the code throws)
or the stream is malformed. -/
def readAll (n : Nat) : List (Item R) → Option (Cx R × List (Rec R n))
  | .version k :: s =>
    if k ≠ serializationVersion then none
    else match readW s with
      | none => none
      | some (w, s1) =>
        match readRecs n s1.length s1 with
        | none => none
        | some recs => some (w, recs)
  | _ => none

variable [IsStrictOrderedRing R] [HasSqrt R]

namespace Pkg

/-- The edge built from an index and a weight in `deserializeNode` (Package.hpp:3087-3097); -2 stands for an edge that is
not in the record. `nodes` maps indices to nodes (`some none` is the terminal); `none`: an index without node (null
pointer, undefined behaviour). -/
def recEdge (nodes : Int → Option (Option Nat)) : Option (Int × Cx R) → Option (PEdge R)
  | none => some zeroE
  | some (z, w) =>
    if z = -2 then some zeroE
    else if z = -1 then some ⟨none, w⟩
    else match nodes z with
      | none => none
      | some p => some ⟨p, w⟩

/-- Collect the edges of a record. -/
def recEdges {n : Nat} (nodes : Int → Option (Option Nat)) (e : Fin n → Option (Int × Cx R)) : Option (Fin n → PEdge R) :=
  if ∀ i, (recEdge nodes (e i)).isSome then some (fun i => (recEdge nodes (e i)).getD zeroE) else none

/-- `deserializeNode` (Package.hpp:3080-3108): package, `nodes` and the edge. -/
def deserializeNode (P : PCfg R) (k : Kind) (s : Pkg R) (nodes : Int → Option (Option Nat)) (r : Rec R (ar k)) :
    Option (Pkg R × (Int → Option (Option Nat)) × PEdge R) :=
  if r.idx = -1 then some (s, nodes, zeroE)
  else match recEdges nodes r.e with
    | none => none
    | some es =>
      let q := makeDDNode P k s r.v es false
      some (q.1, Function.update nodes r.idx (some q.2.p), q.2)

/-- The loop over the records (Package.hpp:2990-2997, 3022-3055). -/
def deserializeLoop (P : PCfg R) (k : Kind) : List (Rec R (ar k)) → Pkg R → (Int → Option (Option Nat)) → PEdge R →
    Option (Pkg R × (Int → Option (Option Nat)) × PEdge R)
  | [], s, nodes, result => some (s, nodes, result)
  | r :: rs, s, nodes, _ =>
    match deserializeNode P k s nodes r with
    | none => none
    | some (s1, nodes1, res1) => deserializeLoop P k rs s1 nodes1 res1

/-- `deserialize` (Package.hpp:2968-3064) given the root weight and the records. -/
def deserialize (P : PCfg R) (k : Kind) (s : Pkg R) (w : Cx R) (recs : List (Rec R (ar k))) : Option (Pkg R × PEdge R) :=
  match deserializeLoop P k recs s (fun _ => none) zeroE with
  | none => none
  | some (s1, _, r) => some (s1, ⟨r.p, w * r.w⟩)

/-- The copy of an edge in `transfer` (Package.hpp:2937-2943); `none`: a child without copy (null pointer). -/
def mapEdge (mapped : Nat → Option (Option Nat)) (x : PEdge R) : Option (PEdge R) :=
  match x.p with
  | none => some x
  | some a =>
    match mapped a with
    | none => none
    | some p => some ⟨p, x.w⟩

/-- The edges of the copy of a node in `transfer` (Package.hpp:2936-2944). -/
def mapEdges {n : Nat} (mapped : Nat → Option (Option Nat)) (es : Fin n → PEdge R) : Option (Fin n → PEdge R) :=
  if ∀ i, (mapEdge mapped (es i)).isSome then some (fun i => (mapEdge mapped (es i)).getD zeroE) else none

/-- Copy the nodes in the given order (Package.hpp:2936-2947). -/
def transferLoop (P : PCfg R) (k : Kind) (t : UTable (Cx R) (ar k)) : List Nat → Pkg R → (Nat → Option (Option Nat)) →
    PEdge R → Option (Pkg R × (Nat → Option (Option Nat)) × PEdge R)
  | [], s, mapped, root => some (s, mapped, root)
  | a :: as, s, mapped, _ =>
    match mapEdges mapped (t.mem a).e with
    | none => none
    | some es =>
      let q := makeDDNode P k s (t.mem a).v es false
      transferLoop P k t as q.1 (Function.update mapped a (some q.2.p)) q.2

/-- The order in which `transfer` copies the nodes (Package.hpp:2885-2949). -/
def TransferOrder : (k : Kind) → UTable (Cx R) (ar k) → PEdge R → List Nat → Prop
  | .v, t, e, order => Trav.Runs (n := 1) false t (t.lvl e) ⟨some e, [], []⟩ order
  | .m, t, e, order => Trav.Runs (n := 3) false t (t.lvl e) ⟨some e, [], []⟩ order

/-- `transfer` (Package.hpp:2881-2961) of edge `e` of a package with unique table `t` to the package `s` ends with result
`r`. -/
inductive Transfers (P : PCfg R) (k : Kind) (t : UTable (Cx R) (ar k)) (s : Pkg R) (e : PEdge R) : Pkg R × PEdge R → Prop
  | terminal : e.p = none → Transfers P k t s e (s, e)
  | node {order : List Nat} {s' : Pkg R} {mapped : Nat → Option (Option Nat)} {r : PEdge R} : e.p ≠ none → TransferOrder k t e order →
      transferLoop P k t order s (fun _ => none) zeroE = some (s', mapped, r) → Transfers P k t s e (s', ⟨r.p, e.w * r.w⟩)

end Pkg

end DD
