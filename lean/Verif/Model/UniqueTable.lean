import Mathlib.Data.Fintype.Pi
import Mathlib.Data.List.FinRange
import Mathlib.Logic.Function.Basic
import Mathlib.Data.List.ProdSigma

/-!
# Nodes, edges and the unique table

Model of `include/dd/UniqueTable.hpp`, generic in the type of edge weights and in the number of outgoing edges
(2 for vector nodes, 4 for matrix nodes), like the C++ template.
-/

namespace DD

/-- An edge (include/dd/Edge.hpp:18-21). `p = none` is the terminal node of the node type, `some a` the node at address
`a`. Simplification: a null pointer is not an edge in the model; no public operation returns an edge with a null
pointer unless it is given one. -/
structure Edge (W : Type) where
  p : Option Nat
  w : W
deriving DecidableEq

/-- A node (include/dd/Node.hpp:19-24, 37-42). `ident`/`symm` are the bits 16 and 32 of `flags` (Node.hpp:43-48, 55-56);
vector nodes do not use them. The `next` pointer is represented by the bucket lists of the table. -/
structure Node (W : Type) (n : Nat) where
  v : Nat
  e : Fin n → Edge W
  ref : Nat
  ident : Bool
  symm : Bool

/-- Template parameters and integer limits of the unique table (UniqueTable.hpp:33, Definitions.hpp:29).
`maxRef` is the largest value of `RefCount`. -/
structure UCfg where
  initAlloc : Nat
  growth : Nat
  initGc : Nat
  maxRef : Nat

/-- The instantiation of the package (UniqueTable.hpp:33, Definitions.hpp:29: 32-bit counters). -/
def UCfg.default : UCfg := ⟨2048, 2, 131072, 2 ^ 32 - 1⟩

/-- The unique table (UniqueTable.hpp:355-382). `mem` is the memory of all chunks; `brk` is the number of cells handed
out by the chunk iterator, `allocations` the number of cells allocated. `chain (v, key)` is the bucket
`tables[v][key]` as the list of its nodes. Statistics (`hits`, `collisions`, ...) are left out. -/
structure UTable (W : Type) (n : Nat) where
  nvars : Nat
  nbucket : Nat
  mem : Nat → Node W n
  brk : Nat
  allocations : Nat
  allocationSize : Nat
  avail : List Nat
  chain : Nat × Nat → List Nat
  nodeCount : Nat
  peakNodeCount : Nat
  active : Nat → Nat
  activeNodeCount : Nat
  maxActive : Nat
  gcLimit : Nat

namespace UTable

variable {W : Type} {n : Nat}

/-- All bucket indices, in the order in which `garbageCollect` visits them (UniqueTable.hpp:216-217). -/
def buckets (t : UTable W n) : List (Nat × Nat) :=
  (List.range t.nvars) ×ˢ (List.range t.nbucket)

/-- All stored nodes, bucket by bucket. -/
def all (t : UTable W n) : List Nat := t.buckets.flatMap t.chain

/-- Write a cell. -/
def setMem (t : UTable W n) (a : Nat) (nd : Node W n) : UTable W n :=
  { t with mem := Function.update t.mem a nd }

/-- Set the marks of a node: identity, symmetric (`checkSpecialMatrices`, Package.hpp:814-836; Node.hpp:44-66). -/
def mark (t : UTable W n) (a : Nat) (ident symm : Bool) : UTable W n :=
  t.setMem a { t.mem a with ident := ident, symm := symm }

/-- A newly constructed table (UniqueTable.hpp:36-38, 355-382). -/
def init (C : UCfg) (nvars nbucket : Nat) (cell : Node W n) : UTable W n where
  nvars := nvars
  nbucket := nbucket
  mem := fun _ => { cell with ref := 0 }
  brk := 0
  allocations := C.initAlloc
  allocationSize := C.initAlloc * C.growth
  avail := []
  chain := fun _ => []
  nodeCount := 0
  peakNodeCount := 0
  active := fun _ => 0
  activeNodeCount := 0
  maxActive := 0
  gcLimit := C.initGc

/-- `getNode` (UniqueTable.hpp:117-140): pop the free list (resetting the reference count) or advance the chunk
iterator, allocating a chunk first if it is exhausted. -/
def getNode (C : UCfg) (t : UTable W n) : UTable W n × Nat :=
  match t.avail with
  | a :: rest =>
    ({ t with avail := rest, mem := Function.update t.mem a { t.mem a with ref := 0 } }, a)
  | [] =>
    let t := if t.brk = t.allocations then
        { t with allocations := t.allocations + t.allocationSize
                 allocationSize := t.allocationSize * C.growth }
      else t
    ({ t with brk := t.brk + 1 }, t.brk)

/-- `returnNode` (UniqueTable.hpp:142-145). -/
def returnNode (t : UTable W n) (a : Nat) : UTable W n := { t with avail := a :: t.avail }

/-- Bucket index of a node (UniqueTable.hpp:52-63). `H` stands for the combination of the edge hashes, an arbitrary
function of the outgoing edges; `key &= MASK` is the remainder modulo the (power of two) number of buckets. -/
def key (H : (Fin n → Edge W) → Nat) (t : UTable W n) (es : Fin n → Edge W) : Nat := H es % t.nbucket

/-- `lookup` with `keepNode = false` for a non-terminal node at address `a` (UniqueTable.hpp:88-115, `searchTable`
391-420): scan the bucket for a node with equal edges; on a hit give `a` back to the allocator and return the stored
node, otherwise put `a` in front of the bucket. `nodesAreEqual` (UniqueTable.hpp:78-84) compares edges; weights are
compared exactly here (see C08 for why this is the same for canonical weights). -/
def lookup [DecidableEq W] (H : (Fin n → Edge W) → Nat) (t : UTable W n) (a : Nat) : UTable W n × Nat :=
  let nd := t.mem a
  let b := (nd.v, t.key H nd.e)
  match (t.chain b).find? (fun q => decide ((t.mem q).e = nd.e)) with
  | some q => (if q = a then t else t.returnNode a, q)
  | none =>
    ({ t with chain := Function.update t.chain b (a :: t.chain b)
              nodeCount := t.nodeCount + 1
              peakNodeCount := max t.peakNodeCount (t.nodeCount + 1) }, a)

/-- `lookup` as above, with an arbitrary comparison `same stored asked` of the edges in place of equality: the code compares weights
up to the tolerance (Edge.hpp:26-28, Complex.hpp:31-33). -/
def lookupBy (same : (Fin n → Edge W) → (Fin n → Edge W) → Bool) (H : (Fin n → Edge W) → Nat) (t : UTable W n) (a : Nat) :
    UTable W n × Nat :=
  let nd := t.mem a
  let b := (nd.v, t.key H nd.e)
  match (t.chain b).find? (fun q => same (t.mem q).e nd.e) with
  | some q => (if q = a then t else t.returnNode a, q)
  | none =>
    ({ t with chain := Function.update t.chain b (a :: t.chain b)
              nodeCount := t.nodeCount + 1
              peakNodeCount := max t.peakNodeCount (t.nodeCount + 1) }, a)

/-- Set the reference count of a cell. -/
def setRef (t : UTable W n) (a : Nat) (r : Nat) : UTable W n :=
  t.setMem a { t.mem a with ref := r }

/-- `incRef` (UniqueTable.hpp:150-174). The second component lists the weights on which `ComplexNumbers::incRef` was
called, in order. `fuel` bounds the recursion depth; the public entry point `incRef` passes the level of the node,
which is enough because levels decrease along edges. -/
def incRefF (C : UCfg) : Nat → UTable W n → Edge W → UTable W n × List W
  | fuel, t, e =>
    match e.p with
    | none => (t, [e.w])
    | some a =>
      if (t.mem a).ref = C.maxRef then (t, [e.w])
      else
        let nd := t.mem a
        let t1 := t.setRef a (nd.ref + 1)
        if nd.ref + 1 = 1 then
          match fuel with
          | 0 => (t1, [e.w])
          | f + 1 =>
            let (t2, ws) := (List.finRange n).foldl
              (fun (s : UTable W n × List W) i =>
                let r := incRefF C f s.1 (nd.e i)
                (r.1, s.2 ++ r.2)) (t1, [e.w])
            ({ t2 with active := Function.update t2.active nd.v (t2.active nd.v + 1)
                       activeNodeCount := t2.activeNodeCount + 1
                       maxActive := max t2.maxActive (t2.activeNodeCount + 1) }, ws)
        else (t1, [e.w])

/-- Level of the node an edge points to plus one; 0 for the terminal. -/
def lvl (t : UTable W n) (e : Edge W) : Nat :=
  match e.p with
  | none => 0
  | some a => (t.mem a).v + 1

/-- `incRef(e)` (UniqueTable.hpp:150-174). -/
def incRef (C : UCfg) (t : UTable W n) (e : Edge W) : UTable W n × List W := incRefF C (t.lvl e) t e

/-- `decRef` (UniqueTable.hpp:179-203). `none` is the exception "ref==0 before decref". The changes made before the
exception is thrown are not represented. -/
def decRefF (C : UCfg) : Nat → UTable W n → Edge W → Option (UTable W n × List W)
  | fuel, t, e =>
    match e.p with
    | none => some (t, [e.w])
    | some a =>
      if (t.mem a).ref = C.maxRef then some (t, [e.w])
      else if (t.mem a).ref = 0 then none
      else
        let nd := t.mem a
        let t1 := t.setRef a (nd.ref - 1)
        if nd.ref - 1 = 0 then
          match fuel with
          | 0 => some (t1, [e.w])
          | f + 1 =>
            ((List.finRange n).foldl
              (fun (s : Option (UTable W n × List W)) i => s.bind fun s =>
                (decRefF C f s.1 (nd.e i)).map fun r => (r.1, s.2 ++ r.2)) (some (t1, [e.w]))).map
              fun (t2, ws) =>
                ({ t2 with active := Function.update t2.active nd.v (t2.active nd.v - 1)
                           activeNodeCount := t2.activeNodeCount - 1 }, ws)
        else some (t1, [e.w])

/-- `decRef(e)` (UniqueTable.hpp:179-203). -/
def decRef (C : UCfg) (t : UTable W n) (e : Edge W) : Option (UTable W n × List W) := decRefF C (t.lvl e) t e

/-- `garbageCollect` (UniqueTable.hpp:207-253): returns the new table and the number of collected nodes. Unreferenced
nodes are unlinked from their bucket and pushed on the free list in the order of the traversal. -/
def garbageCollect (C : UCfg) (t : UTable W n) (force : Bool) : UTable W n × Nat :=
  if (!force && decide (t.nodeCount < t.gcLimit)) || decide (t.nodeCount = 0) then (t, 0)
  else
    let dead := t.all.filter (fun a => decide ((t.mem a).ref = 0))
    let remaining := (t.all.filter (fun a => !decide ((t.mem a).ref = 0))).length
    ({ t with
        chain := fun b => if b ∈ t.buckets then (t.chain b).filter (fun a => !decide ((t.mem a).ref = 0)) else t.chain b
        avail := dead.reverse ++ t.avail
        nodeCount := remaining
        gcLimit := if remaining > t.gcLimit / 10 * 9 then remaining + C.initGc else t.gcLimit }, dead.length)

/-- `clear` (UniqueTable.hpp:255-294): all buckets and the free list are emptied, the chunk iterator is reset to the
first chunk, all but the first chunk are released (their cells are new memory when allocated again, hence with
reference count 0), and the counts in the first chunk are reset. -/
def clear (C : UCfg) (t : UTable W n) : UTable W n :=
  { t with
    mem := fun a => { t.mem a with ref := 0 }
    brk := 0
    allocations := C.initAlloc
    allocationSize := C.initAlloc * C.growth
    avail := []
    chain := fun _ => []
    nodeCount := 0
    peakNodeCount := 0
    active := fun _ => 0
    activeNodeCount := 0
    maxActive := 0
    gcLimit := C.initGc }

/-- The way every caller creates a node: fetch a cell, fill it and look it up (Package.hpp:993-1028 and the
constructions in 234-334; the normalisation in between is modelled separately). -/
def mkNode [DecidableEq W] (H : (Fin n → Edge W) → Nat) (C : UCfg) (t : UTable W n) (v : Nat) (es : Fin n → Edge W)
    (ident symm : Bool) : UTable W n × Nat :=
  let (t1, a) := t.getNode C
  (t1.setMem a { v := v, e := es, ref := (t1.mem a).ref, ident := ident, symm := symm }).lookup H a

/-- `mkNode` with `lookupBy`. -/
def mkNodeBy (same : (Fin n → Edge W) → (Fin n → Edge W) → Bool) (H : (Fin n → Edge W) → Nat) (C : UCfg) (t : UTable W n)
    (v : Nat) (es : Fin n → Edge W) (ident symm : Bool) : UTable W n × Nat :=
  let (t1, a) := t.getNode C
  (t1.setMem a { v := v, e := es, ref := (t1.mem a).ref, ident := ident, symm := symm }).lookupBy same H a

/-- `resize` (UniqueTable.hpp:44-50): rows of buckets beyond the new size are dropped, new rows are empty. -/
def resize (nq : Nat) (t : UTable W n) : UTable W n :=
  let active := fun v => if v < t.nvars ∧ v < nq then t.active v else 0
  { t with
    nvars := nq
    chain := fun b => if b.1 < t.nvars ∧ b.1 < nq then t.chain b else []
    active := active
    activeNodeCount := ((List.range nq).map active).sum }

end UTable

/-- A unique table together with the bookkeeping of its user: the edges on which `incRef` has been called and `decRef`
has not yet, and for every weight the number of `ComplexNumbers::incRef` calls minus the number of
`ComplexNumbers::decRef` calls made by the table on it. -/
structure UHist (W : Type) (n : Nat) where
  tab : UTable W n
  held : List (Edge W)
  wref : W → Nat

/-- One call of the unique table's public interface. New nodes have stored children of smaller level and a level within
the table (asserted in UniqueTable.hpp:98-101); references are taken on stored nodes and given back only if they are
held. The table is only enlarged, not shrunk (a table that still contains nodes of the dropped levels must not be shrunk,
see the remark in UniqueTable.hpp:47 and C52). `clear` ends the life of all nodes. -/
inductive UStep {W : Type} {n : Nat} [DecidableEq W] (H : (Fin n → Edge W) → Nat) (C : UCfg) :
    UHist W n → UHist W n → Prop
  | mk (s : UHist W n) (v : Nat) (es : Fin n → Edge W) (ident symm : Bool) (hv : v < s.tab.nvars)
      (hes : ∀ i b, (es i).p = some b → b ∈ s.tab.all ∧ (s.tab.mem b).v < v) :
      UStep H C s { s with tab := (s.tab.mkNode H C v es ident symm).1 }
  /-- a node is created or found, with a comparison of edges that accepts equal ones -/
  | mkBy (s : UHist W n) (same : (Fin n → Edge W) → (Fin n → Edge W) → Bool) (hsame : ∀ es, same es es = true) (v : Nat)
      (es : Fin n → Edge W) (ident symm : Bool) (hv : v < s.tab.nvars)
      (hes : ∀ i b, (es i).p = some b → b ∈ s.tab.all ∧ (s.tab.mem b).v < v) :
      UStep H C s { s with tab := (s.tab.mkNodeBy same H C v es ident symm).1 }
  /-- a cell is fetched, but no node comes into being (Package.hpp:995, 147-155, 422-428, cached) -/
  | take (s : UHist W n) : UStep H C s { s with tab := (s.tab.getNode C).1 }
  /-- a cell is fetched and given back (Package.hpp:995, 150-153, 423-426, not cached) -/
  | takeBack (s : UHist W n) :
      UStep H C s { s with tab := (s.tab.getNode C).1.returnNode (s.tab.getNode C).2 }
  /-- the marks of a node are set -/
  | mark (s : UHist W n) (a : Nat) (ident symm : Bool) : UStep H C s { s with tab := s.tab.mark a ident symm }
  | inc (s : UHist W n) (e : Edge W) (he : ∀ b, e.p = some b → b ∈ s.tab.all) :
      UStep H C s ⟨(s.tab.incRef C e).1, e :: s.held, fun w => s.wref w + (s.tab.incRef C e).2.count w⟩
  | dec (s : UHist W n) (e : Edge W) (he : e ∈ s.held) (r : UTable W n × List W) (hr : s.tab.decRef C e = some r) :
      UStep H C s ⟨r.1, s.held.erase e, fun w => s.wref w - r.2.count w⟩
  | gc (s : UHist W n) (force : Bool) : UStep H C s { s with tab := (s.tab.garbageCollect C force).1 }
  | resize (s : UHist W n) (nq : Nat) (h : s.tab.nvars ≤ nq) : UStep H C s { s with tab := s.tab.resize nq }
  | clear (s : UHist W n) : UStep H C s ⟨s.tab.clear C, [], fun _ => 0⟩

/-- States of the unique table that some sequence of calls leads to. -/
inductive UReach {W : Type} {n : Nat} [DecidableEq W] (H : (Fin n → Edge W) → Nat) (C : UCfg) : UHist W n → Prop
  | init (nvars nbucket : Nat) (hnb : 0 < nbucket) (cell : Node W n) :
      UReach H C ⟨UTable.init C nvars nbucket cell, [], fun _ => 0⟩
  | step {s s' : UHist W n} (h : UReach H C s) (hs : UStep H C s s') : UReach H C s'

end DD
