import Verif.Model.Build
import Verif.Model.PkgState
import Verif.Model.Reduce
import Verif.Spec
import Mathlib.Logic.Relation

/-!
# Histories of a package

A package is created, functions of its interface are called on it in any order, and references are taken and released.
`PStep` has one constructor per function; its premises are what the interface asks of a caller: operands are diagrams of
this package over the same number of qubits (or, for `kronecker`, diagrams whose product fits into the package), and only
references that have been taken are released. A package is only enlarged, never shrunk (C52). The results are not kept in the history: a caller that wants to use them
after a garbage collection has to take a reference. `reduceAncillae` and `reduceGarbage` are three steps each: the
recursion, `decRef` and `incRef`.
-/

namespace DD

variable {R : Type} [Field R] [LinearOrder R] [IsStrictOrderedRing R] [HasSqrt R]

/-- Admissible controls of a gate on `n` qubits with the given target: a `std::set` (Control.hpp:48) lists them in order
of the qubits; no qubit occurs twice, none is the target, all belong to the circuit. -/
structure GoodControls (controls : List Ctrl) (target n : Nat) : Prop where
  sorted : controls.Pairwise (fun a b => a.qubit < b.qubit)
  target : ∀ c ∈ controls, c.qubit ≠ target
  range : ∀ c ∈ controls, c.qubit < n

/-- One call of a function of the package. -/
inductive PStep (P : PCfg R) (h : PHist R) : PHist R → Prop
  | makeDDNode (k : Kind) (v : Nat) (es : Fin (ar k) → PEdge R) (cached : Bool) :
      v < (h.pkg.ut k).nvars → (∀ i, Valid (h.pkg.ut k) v (es i)) →
      PStep P h { h with pkg := (Pkg.makeDDNode P k h.pkg v es cached).1 }
  | add (k : Kind) (l : Nat) (x y : PEdge R) : Valid (h.pkg.ut k) l x → Valid (h.pkg.ut k) l y →
      PStep P h { h with pkg := (Pkg.add P k h.pkg x y).1 }
  | multiply (k : Kind) (l : Nat) (x y : PEdge R) : Valid (h.pkg.ut .m) l x → Valid (h.pkg.ut k) l y →
      PStep P h { h with pkg := (Pkg.multiply P k h.pkg x y).1 }
  | kronecker (k : Kind) (lx ly : Nat) (x y : PEdge R) : Valid (h.pkg.ut k) lx x → Valid (h.pkg.ut k) ly y →
      ly + lx ≤ (h.pkg.ut k).nvars → PStep P h { h with pkg := (Pkg.kronecker P k h.pkg x y).1 }
  | transpose (l : Nat) (x : PEdge R) : Valid (h.pkg.ut .m) l x →
      PStep P h { h with pkg := (Pkg.transpose P h.pkg x).1 }
  | conjugateTranspose (l : Nat) (x : PEdge R) : Valid (h.pkg.ut .m) l x →
      PStep P h { h with pkg := (Pkg.conjugateTranspose P h.pkg x).1 }
  | innerProduct (l : Nat) (x y : PEdge R) : Valid (h.pkg.ut .v) l x → Valid (h.pkg.ut .v) l y →
      PStep P h { h with pkg := (Pkg.innerProduct P h.pkg x y).1 }
  | makeIdent (n : Nat) : n ≤ (h.pkg.ut .m).nvars → PStep P h { h with pkg := (Pkg.makeIdent P h.pkg n).1 }
  | makeZeroState (n : Nat) (r : Pkg R × PEdge R) : Pkg.makeZeroState P h.pkg n = some r → PStep P h { h with pkg := r.1 }
  | makeBasisState (n : Nat) (state : List Bool) (r : Pkg R × PEdge R) :
      Pkg.makeBasisState P h.pkg n state = some r → PStep P h { h with pkg := r.1 }
  | makeBasisStates (n : Nat) (state : List Basis) (r : Pkg R × PEdge R) :
      Pkg.makeBasisStates P h.pkg n state = some r → PStep P h { h with pkg := r.1 }
  | makeStateFromVector (xs : List (Cx R)) (r : Pkg R × PEdge R) : xs.length ≤ 2 ^ (h.pkg.ut .v).nvars →
      Pkg.makeStateFromVector P h.pkg xs = some r → PStep P h { h with pkg := r.1 }
  | makeDDFromMatrix (M : List (List (Cx R))) (r : Pkg R × PEdge R) : M.length ≤ 2 ^ (h.pkg.ut .m).nvars →
      (∀ row ∈ M, row.length = M.length) →
      Pkg.makeDDFromMatrix P h.pkg M = some r → PStep P h { h with pkg := r.1 }
  | makeGateDD (U : Fin 4 → Cx R) (n : Nat) (controls : List Ctrl) (target : Nat) (r : Pkg R × PEdge R) :
      target < n → GoodControls controls target n →
      Pkg.makeGateDD P h.pkg U n controls target = some r → PStep P h { h with pkg := r.1 }
  | makeTwoQubitGateDD (U : Fin 4 → Fin 4 → Cx R) (n target0 target1 : Nat) (r : Pkg R × PEdge R) :
      target0 < n → target1 < n → target0 ≠ target1 →
      Pkg.makeTwoQubitGateDD P h.pkg U n target0 target1 = some r → PStep P h { h with pkg := r.1 }
  | deleteEdge (k : Kind) (l : Nat) (e : PEdge R) (v : Nat) (idx : Fin (ar k)) : Valid (h.pkg.ut k) l e →
      l ≤ (h.pkg.ut k).nvars → PStep P h { h with pkg := (Pkg.deleteEdge P k h.pkg e v idx).1 }
  | partialTrace (l : Nat) (a : PEdge R) (elim : List Bool) : Valid (h.pkg.ut .m) l a → l ≤ (h.pkg.ut .m).nvars →
      elim.length = l → PStep P h { h with pkg := (Pkg.partialTrace P h.pkg a elim).1 }
  | trace (l : Nat) (a : PEdge R) : Valid (h.pkg.ut .m) l a → l ≤ (h.pkg.ut .m).nvars →
      PStep P h { h with pkg := (Pkg.trace P h.pkg a).1 }
  | reduceAncillaeRec (l : Nat) (e : PEdge R) (mask : List Bool) (regular : Bool) (lb : Nat) : Valid (h.pkg.ut .m) l e →
      PStep P h { h with pkg := (Pkg.reduceAncillaeRec P mask regular lb h.pkg e).1 }
  | reduceGarbageVRec (l : Nat) (e : PEdge R) (mask : List Bool) (lb : Nat) : Valid (h.pkg.ut .v) l e →
      PStep P h { h with pkg := (Pkg.reduceGarbageVRec P mask lb h.pkg e).1 }
  | reduceGarbageMRec (l : Nat) (e : PEdge R) (mask : List Bool) (regular : Bool) (lb : Nat) : Valid (h.pkg.ut .m) l e →
      PStep P h { h with pkg := (Pkg.reduceGarbageMRec P mask regular lb h.pkg e).1 }
  | incRef (k : Kind) (l : Nat) (e : PEdge R) : Valid (h.pkg.ut k) l e →
      PStep P h ⟨h.pkg.incRef P k e, Function.update h.held k (e :: h.held k)⟩
  | decRef (k : Kind) (e : PEdge R) (s : Pkg R) : e ∈ h.held k → h.pkg.decRef P k e = some s →
      PStep P h ⟨s, Function.update h.held k ((h.held k).erase e)⟩
  | garbageCollect (g : GcEnv) : PStep P h { h with pkg := (h.pkg.garbageCollect P g).1 }
  | clearComputeTables : PStep P h { h with pkg := h.pkg.clearComputeTables }
  | resize (nq : Nat) (s : Pkg R) : (∀ k, (h.pkg.ut k).nvars ≤ nq) → h.pkg.resize nq = some s → PStep P h { h with pkg := s }
  | reset : PStep P h ⟨h.pkg.reset P, fun _ => []⟩

/-- A newly created package; the constructor throws if too many qubits are requested (Package.hpp:92-96, 103-115). -/
inductive PStart (P : PCfg R) : PHist R → Prop
  | init (nq nbV nbM : Nat) (cellV : Node (Cx R) 2) (cellM : Node (Cx R) 4) : nq ≤ Pkg.maxQubits → 0 < nbV → 0 < nbM →
      PStart P ⟨Pkg.init P nq nbV nbM cellV cellM, fun _ => []⟩

/-- The states a package can be in. -/
def PReach (P : PCfg R) (h : PHist R) : Prop := ∃ h0, PStart P h0 ∧ Relation.ReflTransGen (PStep P) h0 h

end DD
