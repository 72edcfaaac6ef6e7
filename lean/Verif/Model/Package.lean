import Verif.Model.Cx
import Verif.Model.Cache
import Verif.Model.UniqueTable
import Mathlib.Data.Fin.VecNotation

/-!
# The package: normalisation, node creation and the recursive operations

Model of `include/dd/Package.hpp` with exact arithmetic: edge weights are values of type `Cx R` and the tolerance is 0,
so `cn.lookup` is the identity on values, `approximatelyZero` is `= 0`, pointer comparison of canonical weights is
comparison of values, and the bookkeeping of cached complex numbers (`getCached`, `returnToCache`) disappears (it is
modelled separately, C53). The unique tables and the compute tables are the models of `UniqueTable.lean` and
`Cache.lean` with arbitrary hash functions.
-/

namespace DD

/-- Vector or matrix diagrams (`vNode`/`mNode`, Node.hpp:19,37). -/
inductive Kind where
  | v
  | m
deriving DecidableEq, Repr

/-- Number of outgoing edges: `RADIX` and `NEDGE` (Definitions.hpp:51-52). -/
@[reducible] def ar : Kind → Nat
  | .v => 2
  | .m => 4

/-- Edges of the package. -/
abbrev PEdge (R : Type) := Edge (Cx R)

section
variable {R : Type} [Field R]

/-- `Edge::zero` (Edge.hpp:35). -/
def zeroE : PEdge R := ⟨none, 0⟩
/-- `Edge::one` (Edge.hpp:34). -/
def oneE : PEdge R := ⟨none, 1⟩

end

/-- Hash functions and table parameters; all arbitrary. The hash functions of the compute tables include the mask
(ComputeTable.hpp:40-45, UnaryComputeTable.hpp:37-41). -/
structure PCfg (R : Type) where
  C : UCfg
  uH : (k : Kind) → (Fin (ar k) → PEdge R) → Nat
  addH : Kind → PEdge R × PEdge R → Nat
  mulH : Kind → PEdge R × PEdge R → Nat
  kronH : Kind → PEdge R × PEdge R → Nat
  innerH : PEdge R × PEdge R → Nat
  transH : PEdge R → Nat
  conjH : PEdge R → Nat

/-- State of the package (the parts of Package.hpp used by vector and matrix diagrams): unique tables (Package.hpp:924-926),
compute tables (1298-1310, 1434-1435, 1505-1518, 1765, 1927-1937) and the identity table (2219). -/
structure Pkg (R : Type) where
  ut : (k : Kind) → UTable (Cx R) (ar k)
  addC : Kind → Cache (PEdge R × PEdge R) (PEdge R)
  mulC : Kind → Cache (PEdge R × PEdge R) (PEdge R)
  kronC : Kind → Cache (PEdge R × PEdge R) (PEdge R)
  innerC : Cache (PEdge R × PEdge R) (Cx R)
  transC : Cache (PEdge R) (PEdge R)
  conjC : Cache (PEdge R) (PEdge R)
  idTab : Nat → Option (PEdge R)

/-- Evaluate `n` state-changing computations in the order of their index and collect the results (the `for` loops over
successor edges). -/
def seqFin {S β : Type} : (n : Nat) → (Fin n → S → S × β) → S → S × (Fin n → β)
  | 0, _, s => (s, Fin.elim0)
  | n + 1, f, s =>
    let r := f 0 s
    let q := seqFin n (fun i => f i.succ) r.1
    (q.1, Fin.cons r.2 q.2)

namespace Pkg

section
variable {R : Type} [Field R] [LinearOrder R] [IsStrictOrderedRing R] [HasSqrt R]

/-- Replace the unique table of one kind. -/
def setUt (s : Pkg R) (k : Kind) (t : UTable (Cx R) (ar k)) : Pkg R := { s with ut := Function.update s.ut k t }

/-- First step of `normalize` for vector nodes (Package.hpp:139-146): with `cached`, edges of weight zero are replaced by
the zero edge (in the code unless the weight is already the zero of the complex table, in which case the edge is the
zero edge for all diagrams the package builds). -/
def dropZeros (cached : Bool) (es : Fin 2 → PEdge R) : Fin 2 → PEdge R :=
  fun i => if cached && decide ((es i).w = 0) then zeroE else es i

/-- Second step of `normalize` for vector nodes (Package.hpp:148-223): weight of the edge to the node and the normalised
outgoing edges; `none` if the result is the zero edge. At tolerance 0 the branch `r.w.approximatelyZero()` (193-195)
and the branches that replace the normalised edges by the zero edge (199-201, 217-219) cannot be taken. -/
def normV1 (es : Fin 2 → PEdge R) : Option (Cx R × (Fin 2 → PEdge R)) :=
  if (es 0).w = 0 then
    if (es 1).w = 0 then none
    else some ((es 1).w, Function.update es 1 ⟨(es 1).p, 1⟩)
  else if (es 1).w = 0 then some ((es 0).w, Function.update es 0 ⟨(es 0).p, 1⟩)
  else
    let mag0 := (es 0).w.mag2
    let mag1 := (es 1).w.mag2
    let norm2 := mag0 + mag1
    let mag2Max := if mag0 ≥ mag1 then mag0 else mag1
    let argMax : Fin 2 := if mag0 ≥ mag1 then 0 else 1
    let norm := HasSqrt.sqrt norm2
    let magMax := HasSqrt.sqrt mag2Max
    let commonFactor := norm / magMax
    let rw : Cx R := ⟨(es argMax).w.re * commonFactor, (es argMax).w.im * commonFactor⟩
    let argMin : Fin 2 := argMax + 1
    some (rw, Function.update (Function.update es argMax ⟨(es argMax).p, ⟨magMax / norm, 0⟩⟩)
      argMin ⟨(es argMin).p, (es argMin).w / rw⟩)

/-- `normalize` for vector nodes (Package.hpp:134-223). -/
def normV (cached : Bool) (es : Fin 2 → PEdge R) : Option (Cx R × (Fin 2 → PEdge R)) := normV1 (dropZeros cached es)

/-- Determination of the largest amplitude in `normalize` for matrix nodes (Package.hpp:399-419): the first index of
maximal magnitude among the non-zero weights. -/
def argMaxM (es : Fin 4 → PEdge R) : Option (Fin 4) :=
  (List.finRange 4).foldl (fun (acc : Option (Fin 4)) i =>
    if (es i).w = 0 then acc
    else match acc with
      | none => some i
      | some j => if (es i).w.mag2 - (es j).w.mag2 > 0 then some i else some j) none

/-- `normalize` for matrix nodes (Package.hpp:380-471). The incoming weight `e.w` is one for every caller
(Package.hpp:996, 1013). -/
def normM (es : Fin 4 → PEdge R) : Option (Cx R × (Fin 4 → PEdge R)) :=
  match argMaxM es with
  | none => none
  | some j =>
    let maxc := (es j).w
    some (maxc, fun i =>
      if i = j then ⟨(es i).p, 1⟩
      else if (es i).w = 0 then zeroE
      else ⟨(es i).p, (es i).w / maxc⟩)

/-- `normalize` (Package.hpp:134, 380), by kind of node. -/
def norm (k : Kind) (cached : Bool) (es : Fin (ar k) → PEdge R) : Option (Cx R × (Fin (ar k) → PEdge R)) :=
  match k with
  | .v => normV cached es
  | .m => normM es

/-- `isSymmetric` of the target of an edge; the terminal is symmetric (Node.hpp:56, 77). -/
def isSymm (s : Pkg R) (e : PEdge R) : Bool :=
  match e.p with
  | none => true
  | some a => ((s.ut .m).mem a).symm

/-- `isIdentity` of the target of an edge; the terminal resembles the identity (Node.hpp:55, 77). -/
def isIdent (s : Pkg R) (e : PEdge R) : Bool :=
  match e.p with
  | none => true
  | some a => ((s.ut .m).mem a).ident

/-- `checkSpecialMatrices` (Package.hpp:814-836) for the new node at `a`; `tr` is `transpose`. -/
def checkSpecial (tr : Pkg R → PEdge R → Pkg R × PEdge R) (s : Pkg R) (a : Nat) : Pkg R :=
  let nd := (s.ut .m).mem a
  if !(s.isSymm (nd.e 0)) || !(s.isSymm (nd.e 3)) then s
  else
    let r := tr s (nd.e 1)
    let s1 := r.1
    if r.2 ≠ nd.e 2 then s1
    else
      let id := s1.isIdent (nd.e 0) && decide ((nd.e 1).w = 0) && decide ((nd.e 2).w = 0) &&
        decide ((nd.e 0).w = 1) && decide ((nd.e 3).w = 1) && s1.isIdent (nd.e 3)
      s1.setUt .m ((s1.ut .m).setMem a { (s1.ut .m).mem a with symm := true, ident := id })

/-- `makeDDNode` (Package.hpp:993-1028), with the function `transpose` used for the marks of new matrix nodes as a
parameter. If the node is not needed because all weights vanish, it goes back to the allocator unless the computation
is `cached` (156-162, 424-428). The contents written to such an unused cell are not represented. -/
def makeNodeWith (tr : Pkg R → PEdge R → Pkg R × PEdge R) (P : PCfg R) (k : Kind) (s : Pkg R) (v : Nat)
    (es : Fin (ar k) → PEdge R) (cached : Bool) : Pkg R × PEdge R :=
  let g := (s.ut k).getNode P.C
  match norm k cached es with
  | none => (s.setUt k (if cached then g.1 else g.1.returnNode g.2), zeroE)
  | some (w, es') =>
    let t2 := g.1.setMem g.2 { v := v, e := es', ref := (g.1.mem g.2).ref, ident := false, symm := false }
    let l := t2.lookup (P.uH k) g.2
    let s3 := s.setUt k l.1
    (if l.2 = g.2 ∧ k = .m then checkSpecial tr s3 l.2 else s3, ⟨some l.2, w⟩)

/-- Look up a compute table whose operands are compared for equality. -/
def look {κ ρ : Type} [DecidableEq κ] (h : κ → Nat) (c : Cache κ ρ) (k : κ) : Option ρ :=
  c.lookup h (fun a b => decide (a = b)) (fun _ => true) k

/-- `transpose` (Package.hpp:1437-1465). The first argument is a bound on the level of the edge (level of the node plus
one); the recursion of the code is on the structure of the diagram. -/
def transposeF (P : PCfg R) : Nat → Pkg R → PEdge R → Pkg R × PEdge R
  | 0, s, a => (s, a)
  | l + 1, s, a =>
    match a.p with
    | none => (s, a)
    | some p =>
      let nd := (s.ut .m).mem p
      if nd.symm then (s, a)
      else match look P.transH s.transC a with
        | some r => (s, r)
        | none =>
          -- e[2*i+j] = transpose(a.p->e[2*j+i])
          let q := seqFin 4 (fun idx s => transposeF P l s (nd.e (![0, 2, 1, 3] idx))) s
          let r := makeNodeWith (transposeF P l) P .m q.1 nd.v q.2 false
          let res : PEdge R := ⟨r.2.p, r.2.w * a.w⟩
          ({ r.1 with transC := r.1.transC.insert P.transH a res }, res)

/-- `makeDDNode` (Package.hpp:993-1028). -/
def makeDDNode (P : PCfg R) (k : Kind) (s : Pkg R) (v : Nat) (es : Fin (ar k) → PEdge R) (cached : Bool) :
    Pkg R × PEdge R :=
  makeNodeWith (transposeF P v) P k s v es cached

/-- Level of the target of an edge plus one; 0 for the terminal. -/
def lv (s : Pkg R) (k : Kind) (e : PEdge R) : Nat := (s.ut k).lvl e

/-- `transpose(a)` (Package.hpp:1437-1465). -/
def transpose (P : PCfg R) (s : Pkg R) (a : PEdge R) : Pkg R × PEdge R := transposeF P (s.lv .m a) s a

/-- `conjugateTranspose` (Package.hpp:1466-1500). -/
def conjTransposeF (P : PCfg R) : Nat → Pkg R → PEdge R → Pkg R × PEdge R
  | 0, s, a => (s, ⟨a.p, a.w.conj⟩)
  | l + 1, s, a =>
    match a.p with
    | none => (s, ⟨none, a.w.conj⟩)
    | some p =>
      let nd := (s.ut .m).mem p
      match look P.conjH s.conjC a with
        | some r => (s, r)
        | none =>
          let q := seqFin 4 (fun idx s => conjTransposeF P l s (nd.e (![0, 2, 1, 3] idx))) s
          let r := makeDDNode P .m q.1 nd.v q.2 false
          let res : PEdge R := ⟨r.2.p, r.2.w * a.w.conj⟩
          ({ r.1 with conjC := r.1.conjC.insert P.conjH a res }, res)

/-- `conjugateTranspose(a)` (Package.hpp:1466-1500). -/
def conjugateTranspose (P : PCfg R) (s : Pkg R) (a : PEdge R) : Pkg R × PEdge R := conjTransposeF P (s.lv .m a) s a

/-- Successor `i` of `x` with the weight of `x` multiplied in if the node of `x` is at level `w`, else `x`
(Package.hpp:1374-1386, 1388-1400). -/
def addChild (s : Pkg R) (k : Kind) (x : PEdge R) (w : Nat) (i : Fin (ar k)) : PEdge R :=
  match x.p with
  | none => x
  | some a =>
    let nd := (s.ut k).mem a
    if nd.v = w then (if (nd.e i).w ≠ 0 then ⟨(nd.e i).p, (nd.e i).w * x.w⟩ else nd.e i) else x

/-- `add2` (Package.hpp:1330-1429). The first argument bounds the levels of the operands. -/
def add2F (P : PCfg R) (k : Kind) : Nat → Pkg R → PEdge R → PEdge R → Pkg R × PEdge R
  | l, s, x, y =>
    if x.w = 0 then
      if y.w = 0 then (s, zeroE) else (s, y)
    else if y.w = 0 then (s, x)
    else if x.p = y.p then
      let w := x.w + y.w
      if w = 0 then (s, zeroE) else (s, ⟨y.p, w⟩)
    else match look (P.addH k) (s.addC k) (x, y) with
      | some r => if r.w = 0 then (s, zeroE) else (s, r)
      | none =>
        match l with
        | 0 => (s, zeroE)
        | l + 1 =>
          -- level of the result: the larger of the two levels
          let w := max (s.lv k x) (s.lv k y) - 1
          let q := seqFin (ar k) (fun i s' => add2F P k l s' (addChild s k x w i) (addChild s k y w i)) s
          let r := makeDDNode P k q.1 w q.2 true
          ({ r.1 with addC := Function.update r.1.addC k ((r.1.addC k).insert (P.addH k) (x, y) r.2) }, r.2)

/-- `add` (Package.hpp:1313-1328). -/
def add (P : PCfg R) (k : Kind) (s : Pkg R) (x y : PEdge R) : Pkg R × PEdge R :=
  add2F P k (max (s.lv k x) (s.lv k y)) s x y

/-- Successor `i` of `x` if its node is at level `w`, else `x` with weight one (Package.hpp:1667-1679). -/
def mulChild (s : Pkg R) (k : Kind) (x : PEdge R) (w : Nat) (i : Fin (ar k)) : PEdge R :=
  match x.p with
  | none => ⟨none, 1⟩
  | some a =>
    let nd := (s.ut k).mem a
    if nd.v = w then nd.e i else ⟨some a, 1⟩

/-- Row/column bookkeeping of `multiply2` (Package.hpp:1655-1663): successor of the left operand used for entry `idx` of
the result in step `kk` of the inner loop: `rows * i + k`, where `idx = cols * i + j`. -/
def mulL (k : Kind) (idx : Fin (ar k)) (kk : Fin 2) : Fin 4 :=
  match k with
  | .v => ![![0, 1], ![2, 3]] idx kk
  | .m => ![![0, 1], ![0, 1], ![2, 3], ![2, 3]] idx kk

/-- The same for the right operand: `j + cols * k`. -/
def mulR (k : Kind) (idx : Fin (ar k)) (kk : Fin 2) : Fin (ar k) :=
  match k with
  | .v => kk
  | .m => ![![0, 2], ![1, 3], ![0, 2], ![1, 3]] idx kk

/-- `multiply2` (Package.hpp:1582-1759) for matrix times vector (`k = v`) and matrix times matrix (`k = m`), with
`start = 0`. The first argument is `var + 1`. The branch for identities (1619-1651) is not compiled: its condition
compares the node type with an edge type, which are never the same. -/
def multiply2F (P : PCfg R) (k : Kind) : Nat → Pkg R → PEdge R → PEdge R → Pkg R × PEdge R
  | l, s, x, y =>
    if x.w = 0 ∨ y.w = 0 then (s, zeroE)
    else match l with
    | 0 => (s, ⟨none, x.w * y.w⟩)
    | l + 1 =>
      let key : PEdge R × PEdge R := (⟨x.p, 1⟩, ⟨y.p, 1⟩)
      match look (P.mulH k) (s.mulC k) key with
      | some r =>
        if r.w = 0 then (s, zeroE)
        else
          let w := r.w * x.w * y.w
          if w = 0 then (s, zeroE) else (s, ⟨r.p, w⟩)
      | none =>
        let q := seqFin (ar k) (fun idx s' =>
          let m0 := multiply2F P k l s' (mulChild s .m x l (mulL k idx 0)) (mulChild s k y l (mulR k idx 0))
          let m1 := multiply2F P k l m0.1 (mulChild s .m x l (mulL k idx 1)) (mulChild s k y l (mulR k idx 1))
          if m0.2.w = 0 then m1
          else if m1.2.w ≠ 0 then add2F P k l m1.1 m0.2 m1.2
          else (m1.1, m0.2)) s
        let r := makeDDNode P k q.1 l q.2 true
        let s2 := { r.1 with mulC := Function.update r.1.mulC k ((r.1.mulC k).insert (P.mulH k) key r.2) }
        if r.2.w ≠ 0 then
          let w := r.2.w * x.w * y.w
          if w = 0 then (s2, zeroE) else (s2, ⟨r.2.p, w⟩)
        else (s2, r.2)

/-- `multiply` (Package.hpp:1537-1579) with `start = 0`. -/
def multiply (P : PCfg R) (k : Kind) (s : Pkg R) (x y : PEdge R) : Pkg R × PEdge R :=
  multiply2F P k (max (s.lv .m x) (s.lv k y)) s x y

/-- The loop of the identity shortcut of `kronecker2` (Package.hpp:1986-1992): `n` times
`e = makeDDNode(e.p->v + 1, {e, 0, 0, e})`. -/
def identOnTop (P : PCfg R) : Nat → Pkg R → PEdge R → Pkg R × PEdge R
  | 0, s, e => (s, e)
  | n + 1, s, e =>
    let r := makeDDNode P .m s (s.lv .m e) ![e, zeroE, zeroE, e] false
    identOnTop P n r.1 r.2

/-- `kronecker2` (Package.hpp:1963-2011) with `incIdx = true`. The first argument bounds the level of `x`. -/
def kron2F (P : PCfg R) (k : Kind) : Nat → Pkg R → PEdge R → PEdge R → Pkg R × PEdge R
  | l, s, x, y =>
    if x.w = 0 ∨ y.w = 0 then (s, zeroE)
    else match x.p with
    | none => (s, ⟨y.p, x.w * y.w⟩)
    | some a =>
      match look (P.kronH k) (s.kronC k) (x, y) with
      | some r => if r.w = 0 then (s, zeroE) else (s, r)
      | none =>
        let nd := (s.ut k).mem a
        if k = .m ∧ nd.ident = true then
          let r := identOnTop P (nd.v + 1) s y
          let e : PEdge R := ⟨r.2.p, y.w⟩
          ({ r.1 with kronC := Function.update r.1.kronC k ((r.1.kronC k).insert (P.kronH k) (x, y) e) }, e)
        else match l with
        | 0 => (s, zeroE)
        | l + 1 =>
          let q := seqFin (ar k) (fun i s' => kron2F P k l s' (nd.e i) y) s
          let r := makeDDNode P k q.1 (s.lv k y + nd.v) q.2 true
          let e : PEdge R := ⟨r.2.p, r.2.w * x.w⟩
          ({ r.1 with kronC := Function.update r.1.kronC k ((r.1.kronC k).insert (P.kronH k) (x, y) e) }, e)

/-- `kronecker` (Package.hpp:1939-1953) with `incIdx = true`. -/
def kronecker (P : PCfg R) (k : Kind) (s : Pkg R) (x y : PEdge R) : Pkg R × PEdge R :=
  kron2F P k (s.lv k x) s x y

/-- Successor `i` of the left operand of the inner product, conjugated (Package.hpp:1868-1875). -/
def innerChildL (s : Pkg R) (x : PEdge R) (w : Nat) (i : Fin 2) : PEdge R :=
  match x.p with
  | none => ⟨none, 1⟩
  | some a =>
    let nd := (s.ut .v).mem a
    if nd.v = w then ⟨(nd.e i).p, (nd.e i).w.conj⟩ else ⟨some a, 1⟩

/-- Private `innerProduct` (Package.hpp:1841-1895). The first argument is `var`. -/
def innerF (P : PCfg R) : Nat → Pkg R → PEdge R → PEdge R → Pkg R × Cx R
  | l, s, x, y =>
    if x.w = 0 ∨ y.w = 0 then (s, 0)
    else match l with
    | 0 => (s, x.w * y.w)
    | l + 1 =>
      let key : PEdge R × PEdge R := (⟨x.p, 1⟩, ⟨y.p, 1⟩)
      match look P.innerH s.innerC key with
      | some r => (s, r * x.w * y.w)
      | none =>
        let q := seqFin 2 (fun i s' => innerF P l s' (innerChildL s x l i) (mulChild s .v y l i)) s
        let sum := 0 + q.2 0 + q.2 1
        ({ q.1 with innerC := q.1.innerC.insert P.innerH key sum }, sum * x.w * y.w)

/-- `innerProduct` (Package.hpp:1773-1793). -/
def innerProduct (P : PCfg R) (s : Pkg R) (x y : PEdge R) : Pkg R × Cx R :=
  if x.w = 0 ∨ y.w = 0 then (s, 0)
  else innerF P (max (s.lv .v x) (s.lv .v y)) s ⟨x.p, x.w.conj⟩ y

/-- `fidelity` (Package.hpp:1795-1798). -/
def fidelity (P : PCfg R) (s : Pkg R) (x y : PEdge R) : Pkg R × R :=
  let r := innerProduct P s x y
  (r.1, r.2.re * r.2.re + r.2.im * r.2.im)

end

end Pkg
end DD
