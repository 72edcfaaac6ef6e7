import Verif.Model.UniqueTable
import Verif.Model.Ptr
import Verif.Model.Cache
import Mathlib.Data.Fintype.Basic

/-!
# The tables of the package together

The package owns one table of numbers, three tables of nodes and fifteen operation caches, all of which refer to each other by
pointers. This file puts the models of the single tables together, with pointers as edge weights (in contrast to
Model/PkgState.lean, where weights are values), and models the collection of garbage over all of them
(Package.hpp:928-984).
-/

namespace DD

/-- The kinds of nodes: vectors, matrices, density matrices (Node.hpp:18-24, 36-42, 72-80). -/
inductive NK where
  | v | m | d
deriving DecidableEq

instance : Fintype NK := ⟨{.v, .m, .d}, by intro x; cases x <;> decide⟩

/-- Number of outgoing edges (Definitions.hpp:62-65). -/
def NK.ar : NK → Nat
  | .v => 2
  | .m => 4
  | .d => 4

/-- An edge whose weight is a pair of tagged pointers into the number table: `vEdge`, `mEdge`, `dEdge` (Edge.hpp:18-21).
The flags that `dEdge` keeps in the low bits of its pointer are left out (they are the subject of C48): the code aligns
the pointer before it follows it. -/
abbrev PtrEdge := Edge (CNum Loc)

/-- An edge whose weight is a pair of numbers: `vCachedEdge`, `mCachedEdge`, `dCachedEdge` (Edge.hpp:71-96). -/
abbrev ValEdge (R : Type) := Edge (Cx R)

/-- An edge in a cache entry, with the kind of its node. -/
inductive CArg (R : Type) where
  | ptr (k : NK) (e : PtrEdge)
  | val (k : NK) (e : ValEdge R)
deriving DecidableEq

/-- Something a pointer can refer to: a node of one of the unique tables or a number. -/
inductive PRef where
  | node (k : NK) (a : Nat)
  | num (l : Loc)
deriving DecidableEq

/-- The node an edge points to; the terminal node is static. -/
def nodeRefs (k : NK) : Option Nat → List PRef
  | none => []
  | some a => [.node k a]

/-- The pointers in an edge: to its node, and to the two parts of its weight. -/
def ptrRefs (k : NK) (e : PtrEdge) : List PRef := .num e.w.r.loc :: .num e.w.i.loc :: nodeRefs k e.p

/-- The pointers in an edge of a cache entry. -/
def CArg.refs {R : Type} : CArg R → List PRef
  | .ptr k e => ptrRefs k e
  | .val k e => nodeRefs k e.p

/-- The caches of the package (Package.hpp:1298-1300, 1434-1435, 1505-1507, 1765, 1927-1928, 2168, 2218, 2224-2225). -/
inductive CK where
  | vectorAdd | matrixAdd | densityAdd
  | matrixTranspose | conjugateMatrixTranspose
  | matrixVectorMultiplication | matrixMatrixMultiplication | densityDensityMultiplication
  | vectorInnerProduct | vectorKronecker | matrixKronecker
  | toffoliTable | idTable | stochasticNoiseOperationCache | densityNoise
deriving DecidableEq

/-- The type of an edge of a cache entry. -/
inductive ATy where
  | ptr (k : NK)
  | val (k : NK)

/-- An edge has a type. -/
def CArg.has {R : Type} : CArg R → ATy → Prop
  | .ptr k _, .ptr k' => k = k'
  | .val k _, .val k' => k = k'
  | _, _ => False

/-- The template arguments of the caches: types of the edges in the key, type of the result (Package.hpp:1298-1300,
1434-1435, 1505-1507, 1765, 1927-1928, 2168, 2218, 2224-2225). -/
def CK.sig : CK → List ATy × ATy
  | .vectorAdd => ([.val .v, .val .v], .val .v)
  | .matrixAdd => ([.val .m, .val .m], .val .m)
  | .densityAdd => ([.val .d, .val .d], .val .d)
  | .matrixTranspose => ([.ptr .m], .ptr .m)
  | .conjugateMatrixTranspose => ([.ptr .m], .ptr .m)
  | .matrixVectorMultiplication => ([.ptr .m, .ptr .v], .val .v)
  | .matrixMatrixMultiplication => ([.ptr .m, .ptr .m], .val .m)
  | .densityDensityMultiplication => ([.ptr .d, .ptr .d], .val .d)
  | .vectorInnerProduct => ([.ptr .v, .ptr .v], .val .v)
  | .vectorKronecker => ([.ptr .v, .ptr .v], .val .v)
  | .matrixKronecker => ([.ptr .m, .ptr .m], .val .m)
  | .toffoliTable => ([], .ptr .m)
  | .idTable => ([], .ptr .m)
  | .stochasticNoiseOperationCache => ([], .ptr .m)
  | .densityNoise => ([.ptr .d], .ptr .d)

/-- The key of a cache entry: edges, and data that contain no pointers (numbers of qubits, controls, targets, kinds of
noise; DensityNoiseTable.hpp:36-40, ToffoliTable.hpp:27-34, StochasticNoiseOperationTable.hpp:33). -/
abbrev CKey (R : Type) := List (CArg R) × List Int

/-- The state of the package: numbers, nodes with the edges the user has referenced, numbers the user has referenced
directly, caches. The vector of identities (Package.hpp:2218) and the array of noise operations
(StochasticNoiseOperationTable.hpp:76) are represented like the hashed caches, with the index as hash; clearing them looks
at a counter in the second case and at nothing in the first (2210-2215), which makes no difference (C18). -/
structure JState (R : Type) where
  ct : CTab R
  tab : (k : NK) → UHist (CNum Loc) k.ar
  nums : List (CNum Loc)
  cache : CK → Cache (CKey R) (CArg R)

/-- Parameters: number table, unique tables, hash functions of the tables and caches, the rounding of the results of arithmetic operations
on `fp` (Definitions.hpp:32; used by the operations of Model/Approx.lean). -/
structure JCfg (R : Type) where
  C : CCfg R
  U : UCfg
  H : (k : NK) → (Fin k.ar → PtrEdge) → Nat
  h : CK → CKey R → Nat
  fl : R → R := id

namespace CTab

variable {R : Type} [Field R] [LinearOrder R] [FloorRing R]

/-- The increments of number counts done while `incRef` walks over a diagram (UniqueTable.hpp:148-150). -/
def incRefL (C : CCfg R) (t : CTab R) (L : List (CNum Loc)) : CTab R := L.foldl (fun t c => t.incRefC C c) t

/-- The decrements of number counts done while `decRef` walks over a diagram (UniqueTable.hpp:180-182); `none` is the
exception. -/
def decRefL (C : CCfg R) : CTab R → List (CNum Loc) → Option (CTab R)
  | t, [] => some t
  | t, c :: L => (t.decRefC C c).bind (fun t => decRefL C t L)

end CTab

namespace JState

variable {R : Type} [Field R] [LinearOrder R] [FloorRing R]

/-- What may be referred to: stored nodes, static and stored numbers. -/
def Known (J : JCfg R) (s : JState R) : PRef → Prop
  | .node k a => a ∈ (s.tab k).tab.all
  | .num l => s.ct.Live J.C l

/-- Whether two nodes count as the same node: `nodesAreEqual` (UniqueTable.hpp:78-84) and `Edge::operator==` (Edge.hpp:26-28),
which compares weights up to the tolerance. -/
def sameEdges (J : JCfg R) (s : JState R) {n : Nat} (a b : Fin n → PtrEdge) : Bool :=
  decide (∀ i, (a i).p = (b i).p ∧ (⟨.zero, .one, s.ct.tol⟩ : NumEnv Loc R).eqC (s.ct.value J.C) (a i).w (b i).w = true)

/-- A new package (Package.hpp:94-98). -/
def init (J : JCfg R) (tol : R) (nq : Nat) (nbucket : NK → Nat) (cell : (k : NK) → Node (CNum Loc) k.ar) : JState R where
  ct := CTab.create J.C tol
  tab := fun k => ⟨UTable.init J.U nq (nbucket k) (cell k), [], fun _ => 0⟩
  nums := []
  cache := fun _ => Cache.empty

/-- Clear the caches in `L`. -/
def clearCaches (L : CK → Bool) (s : JState R) : JState R :=
  { s with cache := fun c => if L c then (s.cache c).clear else s.cache c }

/-- The caches cleared when vector nodes have been collected (Package.hpp:948-953). -/
def forV : CK → Bool
  | .vectorAdd | .vectorInnerProduct | .vectorKronecker | .matrixVectorMultiplication => true
  | _ => false

/-- The caches cleared when nodes of matrices or density matrices have been collected (Package.hpp:955-968). -/
def forM : CK → Bool
  | .matrixAdd | .matrixTranspose | .conjugateMatrixTranspose | .matrixKronecker | .matrixVectorMultiplication
  | .matrixMatrixMultiplication | .toffoliTable | .idTable | .stochasticNoiseOperationCache | .densityAdd
  | .densityDensityMultiplication | .densityNoise => true
  | _ => false

/-- The caches cleared when numbers have been collected (Package.hpp:970-982). -/
def forN : CK → Bool
  | .matrixVectorMultiplication | .matrixMatrixMultiplication | .matrixTranspose | .conjugateMatrixTranspose
  | .vectorInnerProduct | .vectorKronecker | .matrixKronecker | .stochasticNoiseOperationCache | .densityAdd
  | .densityDensityMultiplication | .densityNoise => true
  | _ => false

/-- `possiblyNeedsCollection` (UniqueTable.hpp:205). -/
def needs {n : Nat} (t : UTable (CNum Loc) n) : Bool := decide (t.gcLimit ≤ t.nodeCount)

/-- The second half of `garbageCollect` (Package.hpp:940-983): the node tables, after `nc` numbers have been collected. -/
def gcNodes (J : JCfg R) (s : JState R) (force : Bool) (nc : Nat) : JState R × Bool :=
  let r := fun k => (s.tab k).tab.garbageCollect J.U force
  let s1 : JState R := { s with tab := fun k => { s.tab k with tab := (r k).1 } }
  let s2 := if 0 < (r .v).2 then s1.clearCaches forV else s1
  let s3 := if 0 < (r .m).2 ∨ 0 < (r .d).2 then s2.clearCaches forM else s2
  let s4 := if 0 < nc then s3.clearCaches forN else s3
  (s4, decide (0 < (r .v).2) || decide (0 < (r .m).2) || decide (0 < nc))

/-- `garbageCollect` (Package.hpp:928-984). -/
def garbageCollect (J : JCfg R) (s : JState R) (force : Bool) : JState R × Bool :=
  if !force && !needs (s.tab .v).tab && !needs (s.tab .m).tab && !needs (s.tab .d).tab &&
      !s.ct.possiblyNeedsCollection then (s, false)
  else
    let c := s.ct.garbageCollect J.C force
    let force := if 0 < c.2 then true else force
    gcNodes J { s with ct := c.1 } force c.2

/-- `reset` (Package.hpp:118-122): `clearUniqueTables` (986-990), `clearComputeTables` (1079-1098, all caches),
`ComplexNumbers::clear`. -/
def reset (J : JCfg R) (s : JState R) : JState R where
  ct := s.ct.clear J.C
  tab := fun k => ⟨(s.tab k).tab.clear J.U, [], fun _ => 0⟩
  nums := []
  cache := fun c => (s.cache c).clear

end JState

variable {R : Type} [Field R] [LinearOrder R] [FloorRing R]

/-- One call. Operations of the package are sequences of such calls: they look up numbers, make nodes out of known edges
and store entries made of known edges in the caches. References are given back only if they were taken. The entries of the
table of identities are made by `makeIdent` only and have weight one (2183-2206; for layer B this is part of C34). -/
inductive JStep (J : JCfg R) (tols : R → Prop) : JState R → JState R → Prop
  /-- `ComplexTable::lookup` -/
  | lookup {s} (v : R) (hv : 0 ≤ v) : JStep J tols s { s with ct := (s.ct.lookup J.C v).1 }
  /-- `ComplexNumbers::setTolerance` -/
  | setTolerance {s} (τ : R) (hτ : tols τ) : JStep J tols s { s with ct := s.ct.setTolerance τ }
  /-- a node is created or found (Package.hpp:993-1028) -/
  | mk {s} (k : NK) (v : Nat) (es : Fin k.ar → PtrEdge) (ident symm : Bool) (hv : v < (s.tab k).tab.nvars)
      (hes : ∀ i b, (es i).p = some b → b ∈ (s.tab k).tab.all ∧ ((s.tab k).tab.mem b).v < v)
      (hw : ∀ i, ∀ x ∈ ptrRefs k (es i), s.Known J x) :
      JStep J tols s { s with
        tab := Function.update s.tab k
          { s.tab k with tab := ((s.tab k).tab.mkNodeBy (s.sameEdges J) (J.H k) J.U v es ident symm).1 } }
  /-- a cell is fetched, but no node comes into being (Package.hpp:995, 147-155, 422-428) -/
  | take {s} (k : NK) :
      JStep J tols s { s with
        tab := Function.update s.tab k { s.tab k with tab := ((s.tab k).tab.getNode J.U).1 } }
  /-- a cell is fetched and given back (Package.hpp:995, 150-153, 423-426) -/
  | takeBack {s} (k : NK) :
      JStep J tols s { s with
        tab := Function.update s.tab k
          { s.tab k with tab := ((s.tab k).tab.getNode J.U).1.returnNode ((s.tab k).tab.getNode J.U).2 } }
  /-- the marks of a node are set (Package.hpp:814-836) -/
  | mark {s} (k : NK) (a : Nat) (ident symm : Bool) :
      JStep J tols s { s with
        tab := Function.update s.tab k { s.tab k with tab := (s.tab k).tab.mark a ident symm } }
  /-- `incRef(e)` (Package.hpp:914-917) -/
  | incRef {s} (k : NK) (e : PtrEdge) (he : ∀ x ∈ ptrRefs k e, s.Known J x) :
      JStep J tols s { s with
        ct := s.ct.incRefL J.C ((s.tab k).tab.incRef J.U e).2
        tab := Function.update s.tab k ⟨((s.tab k).tab.incRef J.U e).1, e :: (s.tab k).held,
          fun w => (s.tab k).wref w + ((s.tab k).tab.incRef J.U e).2.count w⟩ }
  /-- `decRef(e)` (Package.hpp:918-921), when no exception is thrown -/
  | decRef {s} (k : NK) (e : PtrEdge) (he : e ∈ (s.tab k).held) (r) (hr : (s.tab k).tab.decRef J.U e = some r)
      (t) (ht : s.ct.decRefL J.C r.2 = some t) :
      JStep J tols s { s with
        ct := t
        tab := Function.update s.tab k ⟨r.1, (s.tab k).held.erase e, fun w => (s.tab k).wref w - r.2.count w⟩ }
  /-- `ComplexNumbers::incRef(c)` -/
  | incNum {s} (c : CNum Loc) (hr : s.Known J (.num c.r.loc)) (hi : s.Known J (.num c.i.loc)) :
      JStep J tols s { s with ct := s.ct.incRefC J.C c, nums := c :: s.nums }
  /-- `ComplexNumbers::decRef(c)`, when no exception is thrown -/
  | decNum {s} (c : CNum Loc) (hc : c ∈ s.nums) (t) (ht : s.ct.decRefC J.C c = some t) :
      JStep J tols s { s with ct := t, nums := s.nums.erase c }
  /-- `insert` of a cache -/
  | insert {s} (c : CK) (key : CKey R) (r : CArg R) (hk : List.Forall₂ CArg.has key.1 c.sig.1) (hres : r.has c.sig.2)
      (hkey : ∀ a ∈ key.1, ∀ x ∈ a.refs, s.Known J x) (hr : ∀ x ∈ r.refs, s.Known J x)
      (hid : c = .idTable → ∀ e, r = .ptr .m e → e.w = CNum.one) :
      JStep J tols s { s with cache := Function.update s.cache c ((s.cache c).insert (J.h c) key r) }
  /-- `garbageCollect(force)` -/
  | garbageCollect {s} (force : Bool) : JStep J tols s (s.garbageCollect J force).1
  /-- `resize(nq)` to at least the current size (see C52 for shrinking) -/
  | resize {s} (nq : Nat) (hn : ∀ k, (s.tab k).tab.nvars ≤ nq) :
      JStep J tols s { s with tab := fun k => { s.tab k with tab := (s.tab k).tab.resize nq } }
  /-- `clearComputeTables()` (Package.hpp:1079-1098) -/
  | clearComputeTables {s} : JStep J tols s (s.clearCaches (fun _ => true))
  /-- `reset()` -/
  | reset {s} : JStep J tols s (s.reset J)

/-- The states of a package. -/
inductive JReach (J : JCfg R) (tols : R → Prop) : JState R → Prop
  | init (τ : R) (hτ : tols τ) (nq : Nat) (nbucket : NK → Nat) (hnb : ∀ k, 0 < nbucket k)
      (cell : (k : NK) → Node (CNum Loc) k.ar) : JReach J tols (JState.init J τ nq nbucket cell)
  | step {s s'} (h : JReach J tols s) (hs : JStep J tols s s') : JReach J tols s'

end DD
