import Verif.Model.Ptr
import Verif.Model.Export
import Verif.Spec

/-!
# Density matrix nodes and their temporary flags

Model of `dNode` (include/dd/Node.hpp:79-208), of the edge functions built on it (include/dd/Edge.hpp:43-65) and of
`getDensityMatrix` (include/dd/Package.hpp:2738-2785). Node pointers carry three flags in their low bits; `DRaw` contains the
functions on 64-bit words, the rest of the model has the flags as fields (the correspondence is proved in Props/C48).
Weights are pairs of tagged pointers to numbers (Model/Ptr.lean).
-/

namespace DD

/-! ## Pointers as 64-bit words -/

namespace DRaw

/-- `isConjugateTempFlagSet` (Node.hpp:99, 104). -/
def isConj (p : BitVec 64) : Bool := p &&& 1#64 != 0#64
/-- `isNonReduceTempFlagSet` (Node.hpp:100, 105). -/
def isNonRed (p : BitVec 64) : Bool := p &&& 2#64 != 0#64
/-- `isDensityMatrixTempFlagSet` (Node.hpp:101, 106). -/
def isDM (p : BitVec 64) : Bool := p &&& 4#64 != 0#64
/-- `setConjugateTempFlagTrue` (Node.hpp:109). -/
def setConj (p : BitVec 64) : BitVec 64 := p ||| 1#64
/-- `setNonReduceTempFlagTrue` (Node.hpp:110). -/
def setNonRed (p : BitVec 64) : BitVec 64 := p ||| 2#64
/-- `setDensityMatTempFlagTrue` (Node.hpp:111). -/
def setDM (p : BitVec 64) : BitVec 64 := p ||| 4#64
/-- `alignDensityNode` (Node.hpp:112). -/
def align (p : BitVec 64) : BitVec 64 := p &&& ~~~(7#64)

end DRaw

/-! ## Nodes -/

/-- The three temporary flags: bits 0, 1 and 2 of a node pointer (Node.hpp:99-101) and of the flags of a node (Node.hpp:86-91). -/
structure DFlags where
  conj : Bool
  nonRed : Bool
  dm : Bool
deriving DecidableEq

/-- No flag set. -/
def DFlags.none : DFlags := ⟨false, false, false⟩

/-- Bitwise or of flags (Node.hpp:193). -/
def DFlags.or (f g : DFlags) : DFlags := ⟨f.conj || g.conj, f.nonRed || g.nonRed, f.dm || g.dm⟩

/-- A pointer to a density matrix node: flags and the address of the node; 0 is the address of `dNode::terminalNode`. -/
structure DPtr where
  f : DFlags
  addr : Nat
deriving DecidableEq

/-- The 64-bit word of a pointer when nodes live at the addresses `addr` (Node.hpp:99-112). -/
def DPtr.enc (addr : Nat → BitVec 64) (p : DPtr) : BitVec 64 :=
  addr p.addr ||| (if p.f.conj then 1#64 else 0#64) ||| (if p.f.nonRed then 2#64 else 0#64) ||| (if p.f.dm then 4#64 else 0#64)

/-- `alignDensityNode` (Node.hpp:112). -/
def DPtr.align (p : DPtr) : DPtr := ⟨.none, p.addr⟩

/-- `dEdge` (Node.hpp:205, Edge.hpp:19-21). -/
structure DEdge (α : Type) where
  p : DPtr
  w : CNum α

/-- `dNode` (Node.hpp:80-91); `rest` are the flags that are not temporary. The unique table link and the reference count are not needed here. -/
structure DNode (α : Type) where
  e : Fin 4 → DEdge α
  v : Int
  tmp : DFlags
  rest : BitVec 5

/-- The nodes by address. -/
abbrev DMem (α : Type) := Nat → DNode α

namespace DMem

variable {α : Type} [DecidableEq α]

/-- Positions 1 and 2 exchanged (`std::swap(p->e[2], p->e[1])`, Node.hpp:151, 184). -/
def swap12 : Fin 4 → Fin 4 := ![0, 2, 1, 3]

/-- The edges of a node modified for a path that is neither conjugated nor a first edge path (Node.hpp:139-148). -/
def densEdges (z : α) (e : Fin 4 → DEdge α) (k : Fin 4) : DEdge α :=
  let x := e k
  let w := if k = 2 then x.w.conj z else x.w
  ⟨⟨⟨x.p.f.conj || decide (k = 2), x.p.f.nonRed || decide (k = 1), true⟩, x.p.addr⟩, w⟩

/-- The edges of a node modified for a conjugated path (Node.hpp:150-158). -/
def conjEdges (z : α) (e : Fin 4 → DEdge α) (k : Fin 4) : DEdge α :=
  let x := e (swap12 k)
  ⟨⟨⟨true, x.p.f.nonRed, true⟩, x.p.addr⟩, x.w.conj z⟩

/-- `alignDensityNodeNode` (Node.hpp:127-160): the memory, the flags and the pointer afterwards. `z` is the entry for the number 0.
The null pointer is not modelled (`applyDmChangesToNode` would dereference it). -/
def alignNode (z : α) (m : DMem α) (p : DPtr) : DMem α × DFlags × DPtr :=
  let n := m p.addr
  if n.v ≤ -1 then (m, .none, p.align)
  else if p.f.nonRed && !p.f.conj then (m, p.f, p.align)
  else if !p.f.conj then (Function.update m p.addr { n with e := densEdges z n.e }, p.f, p.align)
  else (Function.update m p.addr { n with e := conjEdges z n.e }, p.f, p.align)

/-- `applyDmChangesToNode` (Node.hpp:188-195), `applyDmChangesToEdge` (Edge.hpp:62-65). -/
def apply (z : α) (m : DMem α) (p : DPtr) : DMem α × DPtr :=
  if p.f.dm then
    let r := alignNode z m p
    let n := r.1 r.2.2.addr
    (Function.update r.1 r.2.2.addr { n with tmp := n.tmp.or r.2.1 }, r.2.2)
  else (m, p)

/-- The edges of a node after `getAlignedNodeRevertModificationsOnSubEdges` (Node.hpp:162-186). -/
def revertEdges (z : α) (f : DFlags) (e : Fin 4 → DEdge α) : Fin 4 → DEdge α :=
  let e' : Fin 4 → DEdge α := fun k => { e k with p := (e k).p.align }
  if f.nonRed && !f.conj then e'
  else if !f.conj then fun k => if k = 2 then { e' k with w := (e' k).w.conj z } else e' k
  else fun k => { e' (swap12 k) with w := (e' (swap12 k)).w.conj z }

/-- `revertDmChangesToNode` (Node.hpp:197-203), `revertDmChangesToEdge` (Edge.hpp:52-55). The pointer has no flags set here. -/
def revert (z : α) (m : DMem α) (p : DPtr) : DMem α :=
  let n := m p.addr
  if n.tmp.dm then Function.update m p.addr { n with e := revertEdges z n.tmp n.e, tmp := .none } else m

/-- The pointer of edge `k` of the node at `a` is replaced. -/
def setChild (m : DMem α) (a : Nat) (k : Fin 4) (p : DPtr) : DMem α :=
  Function.update m a { m a with e := Function.update (m a).e k { (m a).e k with p := p } }

variable {R : Type} [Field R] [DecidableEq R]

/-- One of the four blocks in the recursive `getDensityMatrix` (Package.hpp:2763-2782): modify the successor in place, descend, and
revert. `descend` is the recursive call for the node and weight it is given. -/
def block (z : α) (nv : α → R) (descend : DMem α → Nat → Cx R → (Nat → Nat → Cx R) → DMem α × (Nat → Nat → Cx R)) (a : Nat)
    (k : Fin 4) (s : DMem α × (Nat → Nat → Cx R)) : DMem α × (Nat → Nat → Cx R) :=
  let x := (s.1 a).e k
  if x.w.val nv = 0 then s
  else
    let r := apply z s.1 x.p
    let m1 := setChild r.1 a k r.2
    let d := descend m1 r.2.addr (x.w.val nv) s.2
    (revert z d.1 ((d.1 a).e k).p, d.2)

/-- Recursive `getDensityMatrix` (Package.hpp:2748-2785) for the edge with weight `w` to the node at `a`, whose flags have been
applied. Fuel is the number of qubits. `am` is the accumulated amplitude. -/
def getF (z : α) (nv : α → R) : Nat → DMem α → Nat → Cx R → Cx R → Nat → Nat → (Nat → Nat → Cx R) → DMem α × (Nat → Nat → Cx R)
  | 0, m, _, w, am, i, j, M => (m, Function.update M i (Function.update (M i) j (w * am)))
  | l + 1, m, a, w, am, i, j, M =>
    let c := w * am
    if a = 0 then (m, Function.update M i (Function.update (M i) j c))
    else
      let x := i ||| 2 ^ (m a).v.toNat
      let y := j ||| 2 ^ (m a).v.toNat
      let s0 := block z nv (fun m b w M => getF z nv l m b w c i j M) a 0 (m, M)
      let s1 := block z nv (fun m b w M => getF z nv l m b w c i y M) a 1 s0
      let s2 := block z nv (fun m b w M => getF z nv l m b w c x j M) a 2 s1
      block z nv (fun m b w M => getF z nv l m b w c x y M) a 3 s2

/-- `getDensityMatrix(e)` (Package.hpp:2738-2746): the memory and the edge afterwards (the edge is passed by reference), and the
matrix. `none` when the root is the terminal: there the dimension `2ULL << -1` is undefined. -/
def getDensityMatrix (z : α) (nv : α → R) (m : DMem α) (e : DEdge α) : Option (DMem α × DEdge α × List (List (Cx R))) :=
  let r := apply z m e.p
  if r.2.addr = 0 then none
  else
    let v := (r.1 r.2.addr).v.toNat
    let dim := 2 <<< v
    let d := getF z nv (v + 1) r.1 r.2.addr (e.w.val nv) 1 0 0 (fun _ _ => 0)
    some (revert z d.1 r.2, { e with p := r.2 }, (List.range dim).map fun i => (List.range dim).map (d.2 i))

/-- The loop over the qubits in `getProbVectorFromDensityMatrix` (Package.hpp:2603-2622) for one number: `k` rounds are left, `a` is the
current node, `g` the probability so far and `c` the remaining bits. -/
def probLoop [LinearOrder R] (nv : α → R) (m : DMem α) (thr : R) : Nat → Nat → R → Nat → R
  | 0, _, g, _ => g
  | k + 1, a, g, c =>
    if (m a).v = -1 ∨ g ≤ thr then 0
    else
      let p0 := ((m a).e 0).w.r.val nv
      let p1 := ((m a).e 3).w.r.val nv
      if c % 2 = 0 then probLoop nv m thr k ((m a).e 0).p.addr (g * p0) (c >>> 1)
      else probLoop nv m thr k ((m a).e 3).p.addr (g * p1) (c >>> 1)

/-- `getProbVectorFromDensityMatrix(e, measurementThreshold)` (Package.hpp:2590-2626) for fewer than 63 qubits: the entries of the resulting map
in the order they are inserted. -/
def getProbVector [LinearOrder R] (nv : α → R) (m : DMem α) (e : DEdge α) (thr : R) : List (List Char × R) :=
  let a := e.p.align.addr
  let n := (m a).v.toNat + 1
  (List.range (2 <<< (m a).v.toNat)).filterMap fun k =>
    let g := probLoop nv m thr n a (e.w.r.val nv) k
    if 0 < g then some (intToString k '1' n, g) else none

end DMem
end DD
