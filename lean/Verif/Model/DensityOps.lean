import Verif.Model.Density
import Verif.Model.PkgState

/-!
# Operations on density matrix diagrams

Model of `add2`, `multiply2`, `multiply` and `makeDDNode` for density matrix nodes and of `applyOperationToDensity`
(include/dd/Package.hpp:225-231, 993-1028, 1313-1430, 1520-1757), with exact arithmetic as in Model/Package.lean. While the operations run they
modify the nodes of their operands in place (Node.hpp:127-203): the successors of a node are conjugated, exchanged and marked with flags in
their pointers, and the node is marked with the flags it was reached by. Matrix nodes are passed as density matrix nodes
(`densityFromMatrixEdge`, Node.hpp:211-213).
-/

namespace DD

/-- An edge of a density matrix node: the three flags of the pointer (Model/Density.lean) are kept with the weight. -/
abbrev FEdge (R : Type) := Edge (Cx R × DFlags)

/-- What a `dEdge` points to: a density matrix node, or a matrix node (`densityFromMatrixEdge`, Node.hpp:211-213). -/
inductive DKind where
  | d
  | m
deriving DecidableEq, Repr

/-- A `dEdge` as operand (Node.hpp:205, Edge.hpp:19-21): kind of node, address (`none` is the terminal), flags of the pointer, weight. -/
structure DOp (R : Type) where
  k : DKind
  p : Option Nat
  f : DFlags
  w : Cx R

/-- Key of the table for products: for both operands kind and address of the node and the temporary flags the node has at that time. The flags
go into the hash (Node.hpp:218-229), but are not compared (Edge.hpp:26-28, ComputeTable.hpp:59-64). -/
abbrev DKey := (DKind × Option Nat × DFlags) × (DKind × Option Nat × DFlags)

/-- Hash functions and table parameters; all arbitrary. The hash of a node involves the temporary flags of its successors
(UniqueTable.hpp:52-64, Node.hpp:218-229). -/
structure DCfg (R : Type) where
  P : PCfg R
  uH : (Fin 4 → FEdge R × DFlags) → Nat
  addH : PEdge R × PEdge R → Nat
  mulH : DKey → Nat

/-- The parts of a package that are involved: tables for vectors and matrices, the table of density matrix nodes (Package.hpp:926), the flags of its
nodes (`tmp`: bits 0-2, `dm`: bit 3; Node.hpp:85-91) and the tables for sums and products (1300, 1507). -/
structure DState (R : Type) where
  pkg : Pkg R
  dt : UTable (Cx R × DFlags) 4
  tmp : Nat → DFlags
  dm : Nat → Bool
  addC : Cache (PEdge R × PEdge R) (PEdge R)
  mulC : Cache DKey (PEdge R)

/-- An edge to a density matrix node, without flags. -/
def DOp.ofD {R : Type} (e : PEdge R) : DOp R := ⟨.d, e.p, .none, e.w⟩

/-- `densityFromMatrixEdge` (Node.hpp:211-213). -/
def DOp.ofM {R : Type} (e : PEdge R) : DOp R := ⟨.m, e.p, .none, e.w⟩

/-- The edge of a density matrix node as operand. -/
def DOp.ofF {R : Type} (e : FEdge R) : DOp R := ⟨.d, e.p, e.w.2, e.w.1⟩

/-- The operand after `applyDmChangesToEdge` (Edge.hpp:62-65, Node.hpp:188-195): the pointer has no flags if it had the density flag. -/
def DOp.align {R : Type} (x : DOp R) : DOp R := if x.f.dm then { x with f := .none } else x

/-- An edge without flags. -/
def FEdge.plain {R : Type} (e : PEdge R) : FEdge R := ⟨e.p, (e.w, .none)⟩

namespace DState

variable {R : Type} [Field R] [LinearOrder R] [IsStrictOrderedRing R] [HasSqrt R]

/-- Successors of a node modified for a path that is neither conjugated nor a first edge path (Node.hpp:139-148). -/
def densE (e : Fin 4 → FEdge R) (k : Fin 4) : FEdge R :=
  let x := e k
  ⟨x.p, (if k = 2 then x.w.1.conj else x.w.1, ⟨x.w.2.conj || decide (k = 2), x.w.2.nonRed || decide (k = 1), true⟩)⟩

/-- Successors of a node modified for a conjugated path (Node.hpp:150-158). -/
def conjE (e : Fin 4 → FEdge R) (k : Fin 4) : FEdge R :=
  let x := e (DMem.swap12 k)
  ⟨x.p, (x.w.1.conj, ⟨true, x.w.2.nonRed, true⟩)⟩

/-- Successors of a node after `getAlignedNodeRevertModificationsOnSubEdges` (Node.hpp:162-186). -/
def revE (f : DFlags) (e : Fin 4 → FEdge R) : Fin 4 → FEdge R :=
  let e' : Fin 4 → FEdge R := fun k => ⟨(e k).p, ((e k).w.1, .none)⟩
  if f.nonRed && !f.conj then e'
  else if !f.conj then fun k => if k = 2 then ⟨(e' k).p, ((e' k).w.1.conj, .none)⟩ else e' k
  else fun k => ⟨(e' (DMem.swap12 k)).p, ((e' (DMem.swap12 k)).w.1.conj, .none)⟩

/-- Replace the successors and the temporary flags of a node. -/
def setNode (s : DState R) (a : Nat) (e : Fin 4 → FEdge R) (f : DFlags) : DState R :=
  { s with dt := s.dt.setMem a { s.dt.mem a with e := e }, tmp := Function.update s.tmp a f }

/-- `applyDmChangesToEdge` (Edge.hpp:62-65, Node.hpp:127-160, 188-195). The terminal is not modified. Pointers to matrix nodes have no flags. -/
def applyDm (s : DState R) (x : DOp R) : DState R :=
  if x.f.dm then
    match x.k, x.p with
    | .d, some a =>
      let e := (s.dt.mem a).e
      s.setNode a (if x.f.nonRed && !x.f.conj then e else if !x.f.conj then densE e else conjE e) ((s.tmp a).or x.f)
    | _, _ => s
  else s

/-- `revertDmChangesToEdge` (Edge.hpp:52-55, Node.hpp:162-186, 197-203) for a pointer without flags. Matrix nodes and the terminal do not have
the density flag. -/
def revertDm (s : DState R) (k : DKind) (p : Option Nat) : DState R :=
  match k, p with
  | .d, some a => if (s.tmp a).dm then s.setNode a (revE (s.tmp a) (s.dt.mem a).e) .none else s
  | _, _ => s

/-- Temporary flags of the node an operand points to; those of matrix nodes and of the terminal are never set. -/
def flagsOf (s : DState R) (k : DKind) (p : Option Nat) : DFlags :=
  match k, p with
  | .d, some a => s.tmp a
  | _, _ => .none

/-- `makeDDNode` (Package.hpp:993-1028) with `lookup` and `searchTable` of the unique table (UniqueTable.hpp:78-115, 391-420) for density
matrix nodes: stored nodes are compared by their successors and all their flags. -/
def makeNode (D : DCfg R) (s : DState R) (v : Nat) (es : Fin 4 → PEdge R) (cached gen : Bool) : DState R × PEdge R :=
  let g := s.dt.getNode D.P.C
  let s1 : DState R := { s with tmp := Function.update s.tmp g.2 .none, dm := Function.update s.dm g.2 gen }
  match Pkg.normM es with
  | none => ({ s1 with dt := if cached then g.1 else g.1.returnNode g.2 }, zeroE)
  | some (w, es') =>
    let e : Fin 4 → FEdge R := fun i => FEdge.plain (es' i)
    let t := g.1.setMem g.2 { v := v, e := e, ref := (g.1.mem g.2).ref, ident := false, symm := false }
    let b := (v, D.uH (fun i => (e i, s1.flagsOf .d (e i).p)) % t.nbucket)
    match (t.chain b).find? (fun q => decide ((t.mem q).e = e ∧ s1.tmp q = .none ∧ s1.dm q = gen)) with
    | some q => ({ s1 with dt := if q = g.2 then t else t.returnNode g.2 }, ⟨some q, w⟩)
    | none =>
      ({ s1 with
          dt := { t with
            chain := Function.update t.chain b (g.2 :: t.chain b)
            nodeCount := t.nodeCount + 1
            peakNodeCount := max t.peakNodeCount (t.nodeCount + 1) } }, ⟨some g.2, w⟩)

/-- `makeZeroDensityOperator` (Package.hpp:225-231). -/
def makeZeroDensityOperator (D : DCfg R) (s : DState R) : Nat → DState R × PEdge R
  | 0 => (s, oneE)
  | n + 1 =>
    let r := makeZeroDensityOperator D s n
    makeNode D r.1 n ![r.2, zeroE, zeroE, zeroE] false false

/-- Level plus one of a density matrix edge; 0 for the terminal. -/
def lvD (s : DState R) (p : Option Nat) : Nat :=
  match p with
  | none => 0
  | some a => (s.dt.mem a).v + 1

/-- Successor `i` of `x` with the weight of `x` multiplied in if the node of `x` is at level `w`, else `x` (Package.hpp:1374-1400). -/
def addChild (s : DState R) (x : PEdge R) (w : Nat) (i : Fin 4) : DOp R :=
  match x.p with
  | none => .ofD x
  | some a =>
    if (s.dt.mem a).v = w then
      let e := DOp.ofF ((s.dt.mem a).e i)
      if e.w ≠ 0 then { e with w := e.w * x.w } else e
    else .ofD x

/-- `add2` (Package.hpp:1330-1429) for density matrix nodes. The first argument bounds the levels of the operands. -/
def add2F (D : DCfg R) : Nat → DState R → PEdge R → PEdge R → DState R × PEdge R
  | l, s, x, y =>
    if x.w = 0 then
      if y.w = 0 then (s, zeroE) else (s, y)
    else if y.w = 0 then (s, x)
    else if x.p = y.p then
      let w := x.w + y.w
      if w = 0 then (s, zeroE) else (s, ⟨y.p, w⟩)
    else match Pkg.look D.addH s.addC (x, y) with
      | some r => if r.w = 0 then (s, zeroE) else (s, r)
      | none =>
        match l with
        | 0 => (s, zeroE)
        | l + 1 =>
          let w := max (s.lvD x.p) (s.lvD y.p) - 1
          let q := seqFin 4 (fun i s =>
            let e1 := s.addChild x w i
            let e2 := s.addChild y w i
            let r := add2F D l ((s.applyDm e1).applyDm e2) ⟨e1.p, e1.w⟩ ⟨e2.p, e2.w⟩
            ((r.1.revertDm e1.k e1.p).revertDm e2.k e2.p, r.2)) s
          let r := makeNode D q.1 w q.2 true false
          ({ r.1 with addC := r.1.addC.insert D.addH (x, y) r.2 }, r.2)

/-- Successor `i` of `x` if its node is at level `w`, else `x` with weight one (Package.hpp:1667-1687). -/
def mulChild (s : DState R) (x : DOp R) (w : Nat) (i : Fin 4) : DOp R :=
  match x.k, x.p with
  | .d, some a => if (s.dt.mem a).v = w then .ofF ((s.dt.mem a).e i) else { x with w := 1 }
  | .m, some a => if ((s.pkg.ut .m).mem a).v = w then .ofM (((s.pkg.ut .m).mem a).e i) else { x with w := 1 }
  | _, none => { x with w := 1 }

/-- One round of the innermost loop of `multiply2` (Package.hpp:1666-1723) for entry `i` of the result; `j` is the index of the round and `rec`
the recursive call. The state and the entries so far go in and come out. For entry 2 with `generateDensityMatrix` the operands have been modified
and `continue` (1706) skips their restoration. -/
def mulRound (D : DCfg R) (rec : Bool → DState R → DOp R → DOp R → DState R × PEdge R) (l : Nat) (gen : Bool) (x y : DOp R)
    (st : DState R × (Fin 4 → PEdge R)) (ij : Fin 4 × Fin 2) : DState R × (Fin 4 → PEdge R) :=
  let i := ij.1
  let e1 := st.1.mulChild x l (Pkg.mulL .m i ij.2)
  let e2 := st.1.mulChild y l (Pkg.mulR .m i ij.2)
  let s1 := (st.1.applyDm e1).applyDm e2
  if gen && decide (i = 2) then
    (s1, if ij.2 = 0 then Function.update st.2 2 (if (st.2 1).w = 0 then zeroE else st.2 1) else st.2)
  else
    let m := rec (gen && decide (i ≠ 1)) s1 e1.align e2.align
    let q : DState R × PEdge R :=
      if ij.2 = 0 ∨ (st.2 i).w = 0 then m
      else if m.2.w ≠ 0 then
        let r := add2F D l m.1 (st.2 i) m.2
        ((r.1.revertDm .d r.2.p).revertDm e2.k e2.p, r.2)
      else (m.1, st.2 i)
    ((q.1.revertDm e1.k e1.p).revertDm e2.k e2.p, Function.update st.2 i q.2)

/-- `multiply2` (Package.hpp:1583-1757) for density matrix nodes with `start = 0`. The first argument is `var + 1`. -/
def multiply2F (D : DCfg R) : Nat → Bool → DState R → DOp R → DOp R → DState R × PEdge R
  | l, gen, s, x, y =>
    if x.w = 0 ∨ y.w = 0 then (s, zeroE)
    else match l with
    | 0 => (s, ⟨none, x.w * y.w⟩)
    | l + 1 =>
      let key : DKey := ((x.k, x.p, s.flagsOf x.k x.p), (y.k, y.p, s.flagsOf y.k y.p))
      let isDm : PEdge R → Bool := fun r => match r.p with
        | none => false
        | some a => s.dm a
      match s.mulC.lookup D.mulH (fun a b => decide (a.1.1 = b.1.1 ∧ a.1.2.1 = b.1.2.1 ∧ a.2.1 = b.2.1 ∧ a.2.2.1 = b.2.2.1))
          (fun r => isDm r == gen) key with
      | some r =>
        if r.w = 0 then (s, zeroE)
        else
          let w := r.w * x.w * y.w
          if w = 0 then (s, zeroE) else (s, ⟨r.p, w⟩)
      | none =>
        let q := ([(0, 0), (0, 1), (1, 0), (1, 1), (2, 0), (2, 1), (3, 0), (3, 1)] : List (Fin 4 × Fin 2)).foldl
          (mulRound D (multiply2F D l) l gen x y) (s, fun _ => zeroE)
        let r := makeNode D q.1 l q.2 true gen
        let key' : DKey := ((x.k, x.p, r.1.flagsOf x.k x.p), (y.k, y.p, r.1.flagsOf y.k y.p))
        let s2 := { r.1 with mulC := r.1.mulC.insert D.mulH key' r.2 }
        if r.2.w ≠ 0 then
          let w := r.2.w * x.w * y.w
          if w = 0 then (s2, zeroE) else (s2, ⟨r.2.p, w⟩)
        else (s2, r.2)

/-- Level plus one of the node of an operand. -/
def lvO (s : DState R) (x : DOp R) : Nat :=
  match x.k with
  | .d => s.lvD x.p
  | .m => s.pkg.lv .m ⟨x.p, 1⟩

/-- `multiply` (Package.hpp:1537-1579) for density matrix edges with `start = 0`. -/
def multiply (D : DCfg R) (gen : Bool) (s : DState R) (x y : DOp R) : DState R × PEdge R :=
  let s1 := (s.applyDm x).applyDm y
  let r := multiply2F D (max (s1.lvO x) (s1.lvO y)) gen s1 x.align y.align
  ((r.1.revertDm x.k x.p).revertDm y.k y.p, r.2)

/-- `incRef` (Package.hpp:914-917). -/
def incRef (D : DCfg R) (s : DState R) (e : PEdge R) : DState R := { s with dt := (s.dt.incRef D.P.C (FEdge.plain e)).1 }

/-- `decRef` (Package.hpp:918-921); `none` is the exception. -/
def decRef (D : DCfg R) (s : DState R) (e : PEdge R) : Option (DState R) :=
  (s.dt.decRef D.P.C (FEdge.plain e)).map fun r => { s with dt := r.1 }

/-- `applyOperationToDensity` (Package.hpp:1520-1535): the state and the new value of the edge `e`, which is also the result; `none` is the
exception of `decRef`. The density flag of the result is set if `generateDensityMatrix` is. -/
def applyOperationToDensity (D : DCfg R) (s : DState R) (e : DOp R) (op : PEdge R) (gen : Bool) : Option (DState R × DOp R) :=
  let c := Pkg.conjugateTranspose D.P s.pkg op
  let t1 := multiply D false { s with pkg := c.1 } e (.ofM c.2)
  let t2 := multiply D gen t1.1 (.ofM op) (.ofD t1.2)
  ((t2.1.incRef D t2.2).decRef D ⟨e.p, e.w⟩).map fun s' =>
    (s', { DOp.ofD t2.2 with f := if gen then ⟨false, false, true⟩ else .none })

end DState
end DD
