import Verif.Model.Package

/-!
# Life of a package: construction, reference counting, garbage collection, reset
-/

namespace DD

/-- What the parts of the package that are not modelled here (the table of complex numbers and the density matrix nodes)
contribute to a garbage collection: whether they ask for one and whether they collect anything. All combinations are
considered. -/
structure GcEnv where
  force : Bool
  needC : Bool
  collC : Bool
  needD : Bool
  collD : Bool

namespace Pkg

variable {R : Type}

/-- A new package for `nq` qubits (Package.hpp:92-96, 103-115); `nbV`, `nbM` are the numbers of buckets. The contents of
cells that have never been used are arbitrary. -/
def init (P : PCfg R) (nq nbV nbM : Nat) (cellV : Node (Cx R) 2) (cellM : Node (Cx R) 4) : Pkg R where
  ut := fun
    | .v => UTable.init P.C nq nbV cellV
    | .m => UTable.init P.C nq nbM cellM
  addC := fun _ => Cache.empty
  mulC := fun _ => Cache.empty
  kronC := fun _ => Cache.empty
  innerC := Cache.empty
  transC := Cache.empty
  conjC := Cache.empty
  idTab := fun _ => none

/-- `incRef` (Package.hpp:914-917). -/
def incRef (P : PCfg R) (k : Kind) (s : Pkg R) (e : PEdge R) : Pkg R :=
  { s with ut := Function.update s.ut k ((s.ut k).incRef P.C e).1 }

/-- `decRef` (Package.hpp:918-921); `none` is the exception. -/
def decRef (P : PCfg R) (k : Kind) (s : Pkg R) (e : PEdge R) : Option (Pkg R) :=
  ((s.ut k).decRef P.C e).map fun r => { s with ut := Function.update s.ut k r.1 }

/-- Clearing of the tables that involve vectors (Package.hpp:949-954). -/
def clearV (s : Pkg R) : Pkg R :=
  { s with
    addC := Function.update s.addC .v (s.addC .v).clear
    innerC := s.innerC.clear
    kronC := Function.update s.kronC .v (s.kronC .v).clear
    mulC := Function.update s.mulC .v (s.mulC .v).clear }

/-- Clearing of the tables that involve matrices (Package.hpp:956-969). The tables of Toffoli gates, noise operations and
density matrices are not part of this model. -/
def clearM (s : Pkg R) : Pkg R :=
  { s with
    addC := Function.update s.addC .m (s.addC .m).clear
    transC := s.transC.clear
    conjC := s.conjC.clear
    kronC := Function.update s.kronC .m (s.kronC .m).clear
    mulC := fun k => (s.mulC k).clear
    idTab := fun _ => none }

/-- Clearing of the tables that contain numbers (Package.hpp:971-982). -/
def clearN (s : Pkg R) : Pkg R :=
  { s with
    mulC := fun k => (s.mulC k).clear
    transC := s.transC.clear
    conjC := s.conjC.clear
    innerC := s.innerC.clear
    kronC := fun k => (s.kronC k).clear }

/-- `garbageCollect` (Package.hpp:928-984). -/
def garbageCollect (P : PCfg R) (g : GcEnv) (s : Pkg R) : Pkg R × Bool :=
  if !g.force && !decide ((s.ut .v).gcLimit ≤ (s.ut .v).nodeCount) && !decide ((s.ut .m).gcLimit ≤ (s.ut .m).nodeCount) &&
      !g.needD && !g.needC then (s, false)
  else
    let force := g.force || g.collC
    let v := (s.ut .v).garbageCollect P.C force
    let m := (s.ut .m).garbageCollect P.C force
    let s1 : Pkg R := { s with ut := fun
      | .v => v.1
      | .m => m.1 }
    let s2 := if 0 < v.2 then s1.clearV else s1
    let s3 := if 0 < m.2 ∨ g.collD = true then s2.clearM else s2
    let s4 := if g.collC then s3.clearN else s3
    (s4, decide (0 < v.2) || decide (0 < m.2) || g.collC)

/-- `reset` (Package.hpp:118-122, 986-990, 1079-1098). -/
def reset (P : PCfg R) (s : Pkg R) : Pkg R where
  ut := fun k => (s.ut k).clear P.C
  addC := fun k => (s.addC k).clear
  mulC := fun k => (s.mulC k).clear
  kronC := fun k => (s.kronC k).clear
  innerC := s.innerC.clear
  transC := s.transC.clear
  conjC := s.conjC.clear
  idTab := fun _ => none

/-- `clearComputeTables` (Package.hpp:1079-1098). -/
def clearComputeTables (s : Pkg R) : Pkg R where
  ut := s.ut
  addC := fun k => (s.addC k).clear
  mulC := fun k => (s.mulC k).clear
  kronC := fun k => (s.kronC k).clear
  innerC := s.innerC.clear
  transC := s.transC.clear
  conjC := s.conjC.clear
  idTab := fun _ => none

/-- The largest number of qubits of a package (Package.hpp:91): the type `Qubit` has eight bits (Definitions.hpp:20). -/
def maxQubits : Nat := 128

/-- `resize` (Package.hpp:103-115); `none` is the exception. The identity table is a vector (Package.hpp:2218): entries
beyond the new size are dropped and new ones are empty. The tables of density matrices and noise are not part of this
model. -/
def resize (nq : Nat) (s : Pkg R) : Option (Pkg R) :=
  if maxQubits < nq then none
  else some { s with
    ut := fun k => (s.ut k).resize nq
    idTab := fun i => if i < (s.ut .m).nvars ∧ i < nq then s.idTab i else none }

end Pkg

/-- A package and the edges its user holds references to, by kind: `incRef` has been called on them and `decRef` has not
yet been. -/
structure PHist (R : Type) where
  pkg : Pkg R
  held : Kind → List (PEdge R)

end DD
