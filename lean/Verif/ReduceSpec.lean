import Verif.PkgSpec

/-!
# Specification of the reductions

What removing ancillary and garbage qubits means for vectors and matrices. A mask marks the qubits concerned; qubits
beyond its end are not marked.
-/

namespace DD

section
variable {R : Type} [Field R]

/-- Some marked qubit has the value 1. -/
def Raised {l : Nat} (mask : List Bool) (b : Fin l → Fin 2) : Prop := ∃ i : Fin l, mask.getD i false = true ∧ b i = 1

/-- `b` and `b'` agree on the qubits that are not marked. -/
def AgreeOff {l : Nat} (mask : List Bool) (b b' : Fin l → Fin 2) : Prop := ∀ i : Fin l, mask.getD i false = false → b' i = b i

open Classical in
/-- The matrix with all columns (`regular`) or rows that belong to an ancilla with value 1 set to zero. -/
noncomputable def ancMat {l : Nat} (mask : List Bool) (regular : Bool) (M : QMat R l) : QMat R l :=
  fun r c => if Raised mask (if regular then c else r) then 0 else M r c

open Classical in
/-- The entries that differ only in marked qubits are added up; the sum stands where all marked qubits are 0. -/
noncomputable def garbVec {l : Nat} (mask : List Bool) (ψ : (Fin l → Fin 2) → Cx R) : (Fin l → Fin 2) → Cx R :=
  fun r => if Raised mask r then 0 else ∑ r', if AgreeOff mask r r' then ψ r' else 0

/-- The same for each column (`regular`) or each row of a matrix. -/
noncomputable def garbMat {l : Nat} (mask : List Bool) (regular : Bool) (M : QMat R l) : QMat R l :=
  fun r c => if regular then garbVec mask (fun r' => M r' c) r else garbVec mask (fun c' => M r c') c

end

variable {R : Type} [Field R] [LinearOrder R] [IsStrictOrderedRing R] [HasSqrt R]

/-- The call did not throw; it led from the reachable state `h` to a reachable state with the package and edge `r`, in which
the reference the caller held on `e` has moved to the result, which is a diagram on `l` qubits. All diagrams of the package
keep their meaning. -/
def Moved (P : PCfg R) (h : PHist R) (k : Kind) (l : Nat) (e : PEdge R) (call : Option (Pkg R × PEdge R)) (r : Pkg R × PEdge R) :
    Prop :=
  call = some r ∧ Valid (r.1.ut k) l r.2 ∧ Unchanged h.pkg r.1 ∧
    ∃ h' : PHist R, PReach P h' ∧ h'.pkg = r.1 ∧ (h'.held k).Perm (r.2 :: (h.held k).erase e) ∧
      ∀ k', k' ≠ k → h'.held k' = h.held k'

end DD
