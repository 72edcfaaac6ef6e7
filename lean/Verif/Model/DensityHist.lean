import Verif.Model.DensityOps
import Verif.Model.History

/-!
# Histories of a package with density matrix diagrams

Functions on vectors and matrices as in `PStep` (Model/History.lean) and functions on density matrix edges, in any order, as long as
`generateDensityMatrix` is never set: no pointer has flags.
-/

namespace DD

variable {R : Type} [Field R] [LinearOrder R] [IsStrictOrderedRing R] [HasSqrt R]

/-- The density matrix table without the flags. -/
def UTable.plain {R : Type} {n : Nat} (t : UTable (Cx R × DFlags) n) : UTable (Cx R) n where
  nvars := t.nvars
  nbucket := t.nbucket
  mem := fun a => { v := (t.mem a).v, e := fun i => ⟨((t.mem a).e i).p, ((t.mem a).e i).w.1⟩, ref := (t.mem a).ref, ident := (t.mem a).ident,
                    symm := (t.mem a).symm }
  brk := t.brk
  allocations := t.allocations
  allocationSize := t.allocationSize
  avail := t.avail
  chain := t.chain
  nodeCount := t.nodeCount
  peakNodeCount := t.peakNodeCount
  active := t.active
  activeNodeCount := t.activeNodeCount
  maxActive := t.maxActive
  gcLimit := t.gcLimit

namespace DState

/-- The tables of a new package; the counterpart of `Pkg.init` (Package.hpp:92-96, 924-926, 1300, 1507). -/
def init (D : DCfg R) (nq nbV nbM nbD : Nat) (cellV : Node (Cx R) 2) (cellM : Node (Cx R) 4) (cellD : Node (Cx R × DFlags) 4) : DState R where
  pkg := Pkg.init D.P nq nbV nbM cellV cellM
  dt := UTable.init D.P.C nq nbD cellD
  tmp := fun _ => .none
  dm := fun _ => false
  addC := Cache.empty
  mulC := Cache.empty

/-- The nodes an operand can refer to. -/
def nodes (s : DState R) : DKind → UTable (Cx R) 4
  | .d => s.dt.plain
  | .m => s.pkg.ut .m

/-- `garbageCollect` (Package.hpp:928-984) with the table of density matrix nodes; `needC` and `collC` as in `GcEnv`. -/
def garbageCollect (D : DCfg R) (force needC collC : Bool) (s : DState R) : DState R × Bool :=
  if !force && !decide ((s.pkg.ut .v).gcLimit ≤ (s.pkg.ut .v).nodeCount) && !decide ((s.pkg.ut .m).gcLimit ≤ (s.pkg.ut .m).nodeCount) &&
      !decide (s.dt.gcLimit ≤ s.dt.nodeCount) && !needC then (s, false)
  else
    let m := (s.pkg.ut .m).garbageCollect D.P.C (force || collC)
    let d := s.dt.garbageCollect D.P.C (force || collC)
    let r := s.pkg.garbageCollect D.P ⟨force, needC, collC, decide (s.dt.gcLimit ≤ s.dt.nodeCount), decide (0 < d.2)⟩
    let clr : Bool := decide (0 < m.2) || decide (0 < d.2) || collC
    ({ s with
        pkg := r.1
        dt := d.1
        addC := if clr then s.addC.clear else s.addC
        mulC := if clr then s.mulC.clear else s.mulC }, r.2)

/-- `clearComputeTables` (Package.hpp:1079-1098). -/
def clearComputeTables (s : DState R) : DState R :=
  { s with pkg := s.pkg.clearComputeTables, addC := s.addC.clear, mulC := s.mulC.clear }

/-- `reset` (Package.hpp:118-122, 986-990, 1079-1098). -/
def reset (D : DCfg R) (s : DState R) : DState R :=
  { s with pkg := s.pkg.reset D.P, dt := s.dt.clear D.P.C, addC := s.addC.clear, mulC := s.mulC.clear }

/-- `resize` (Package.hpp:103-115); `none` is the exception. -/
def resize (nq : Nat) (s : DState R) : Option (DState R) :=
  (s.pkg.resize nq).map fun p => { s with pkg := p, dt := s.dt.resize nq }

end DState

/-- A package and the edges its user holds references to: vectors and matrices by kind, and density matrices. -/
structure DHist (R : Type) where
  st : DState R
  held : Kind → List (PEdge R)
  heldD : List (PEdge R)

/-- One call of a function of the package. Calls that concern vectors and matrices only are those of `PStep` after which all matrix nodes are still
there; calls that concern all tables have constructors of their own. Operands are diagrams of the package; a matrix diagram may be passed as
operand of a multiplication. -/
inductive DStep (D : DCfg R) (h : DHist R) : DHist R → Prop
  | call (p : PHist R) : PStep D.P ⟨h.st.pkg, h.held⟩ p →
      (∀ a ∈ (h.st.pkg.ut .m).all, a ∈ (p.pkg.ut .m).all ∧ ((p.pkg.ut .m).mem a).v = ((h.st.pkg.ut .m).mem a).v ∧
        ((p.pkg.ut .m).mem a).e = ((h.st.pkg.ut .m).mem a).e) →
      DStep D h { h with st := { h.st with pkg := p.pkg }, held := p.held }
  | makeZeroDensityOperator (n : Nat) : n ≤ h.st.dt.nvars → DStep D h { h with st := (DState.makeZeroDensityOperator D h.st n).1 }
  | makeDDNode (v : Nat) (es : Fin 4 → PEdge R) (cached : Bool) : v < h.st.dt.nvars → (∀ i, Valid h.st.dt.plain v (es i)) →
      DStep D h { h with st := (DState.makeNode D h.st v es cached false).1 }
  | multiply (l : Nat) (kx ky : DKind) (x y : PEdge R) : l ≤ h.st.dt.nvars → Valid (h.st.nodes kx) l x → Valid (h.st.nodes ky) l y →
      DStep D h { h with st := (DState.multiply D false h.st ⟨kx, x.p, .none, x.w⟩ ⟨ky, y.p, .none, y.w⟩).1 }
  | applyOperationToDensity (l : Nat) (e op : PEdge R) (r : DState R × DOp R) : Valid h.st.dt.plain l e → Valid (h.st.pkg.ut .m) l op →
      l ≤ h.st.dt.nvars → e ∈ h.heldD → DState.applyOperationToDensity D h.st (.ofD e) op false = some r →
      DStep D h { h with st := r.1, heldD := (⟨r.2.p, r.2.w⟩ :: h.heldD).erase e }
  | incRef (l : Nat) (e : PEdge R) : Valid h.st.dt.plain l e →
      DStep D h { h with st := DState.incRef D h.st e, heldD := e :: h.heldD }
  | decRef (e : PEdge R) (s : DState R) : e ∈ h.heldD → DState.decRef D h.st e = some s →
      DStep D h { h with st := s, heldD := h.heldD.erase e }
  | garbageCollect (force needC collC : Bool) : DStep D h { h with st := (h.st.garbageCollect D force needC collC).1 }
  | clearComputeTables : DStep D h { h with st := h.st.clearComputeTables }
  | resize (nq : Nat) (s : DState R) : (∀ k, (h.st.pkg.ut k).nvars ≤ nq) → h.st.dt.nvars ≤ nq → h.st.resize nq = some s →
      DStep D h { h with st := s }
  | reset : DStep D h ⟨h.st.reset D, fun _ => [], []⟩

/-- A newly created package. -/
inductive DStart (D : DCfg R) : DHist R → Prop
  | init (nq nbV nbM nbD : Nat) (cellV : Node (Cx R) 2) (cellM : Node (Cx R) 4) (cellD : Node (Cx R × DFlags) 4) : nq ≤ Pkg.maxQubits →
      0 < nbV → 0 < nbM → 0 < nbD → DStart D ⟨DState.init D nq nbV nbM nbD cellV cellM cellD, fun _ => [], []⟩

/-- The states a package can be in. -/
def DReach (D : DCfg R) (h : DHist R) : Prop := ∃ h0, DStart D h0 ∧ Relation.ReflTransGen (DStep D) h0 h

end DD
