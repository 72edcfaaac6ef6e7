import Verif.Spec
import Verif.Model.History
import Mathlib.Algebra.BigOperators.Fin
import Mathlib.LinearAlgebra.Matrix.Notation

/-!
# Specification of the package functions

What the functions of the package are supposed to compute, in terms of vectors and matrices indexed by bit strings.
Nothing here refers to how the package computes.
-/

namespace DD

section
variable {R : Type} [Field R]

/-- Square matrices over `l` qubits. -/
abbrev QMat (R : Type) (l : Nat) := Matrix (Fin l → Fin 2) (Fin l → Fin 2) (Cx R)

/-- Every diagram of the package `s` is also one of `s'` and represents the same vector or matrix there. -/
def Unchanged (s s' : Pkg R) : Prop :=
  ∀ k l e, Valid (s.ut k) l e → Valid (s'.ut k) l e ∧ amp (s'.ut k) l e = amp (s.ut k) l e

/-- All controls are satisfied by the basis state `c`. -/
def CtrlOK {n : Nat} (controls : List Ctrl) (c : Fin n → Fin 2) : Prop :=
  ∀ q ∈ controls, ∀ h : q.qubit < n, c ⟨q.qubit, h⟩ = if q.neg then 0 else 1

open Classical in
/-- `U` applied to qubit `t` if the controls are satisfied, otherwise nothing. -/
noncomputable def gateMat {n : Nat} (U : Matrix (Fin 2) (Fin 2) (Cx R)) (controls : List Ctrl) (t : Fin n) : QMat R n :=
  fun r c =>
    if ∀ i, i ≠ t → r i = c i then
      if CtrlOK controls c then U (r t) (c t) else if r t = c t then 1 else 0
    else 0

/-- Index of a pair of bits, the first one being the more significant one. -/
def pair (a b : Fin 2) : Fin 4 := ![![0, 1], ![2, 3]] a b

/-- `U` applied to the qubits `t0` (more significant index) and `t1`. -/
def twoMat {n : Nat} (U : Fin 4 → Fin 4 → Cx R) (t0 t1 : Fin n) : QMat R n :=
  fun r c => if ∀ i, i ≠ t0 → i ≠ t1 → r i = c i then U (pair (r t0) (r t1)) (pair (c t0) (c t1)) else 0

/-- Adjoint. -/
def adj {l : Nat} (M : QMat R l) : QMat R l := fun r c => (M c r).conj

/-- Kronecker product; the qubits of the right factor are the lower ones. -/
def kronMat {lx ly : Nat} (A : QMat R lx) (B : QMat R ly) : QMat R (ly + lx) :=
  fun r c => A (fun i => r (Fin.natAdd ly i)) (fun i => c (Fin.natAdd ly i)) *
    B (fun i => r (Fin.castAdd lx i)) (fun i => c (Fin.castAdd lx i))

/-- Kronecker product of vectors. -/
def kronVec {lx ly : Nat} (x : (Fin lx → Fin 2) → Cx R) (y : (Fin ly → Fin 2) → Cx R) : (Fin (ly + lx) → Fin 2) → Cx R :=
  fun i => x (fun q => i (Fin.natAdd ly q)) * y (fun q => i (Fin.castAdd lx q))

/-- Inner product, linear in the second argument. -/
def inner {l : Nat} (x y : (Fin l → Fin 2) → Cx R) : Cx R := ∑ i, (x i).conj * y i

/-- Number of qubits below `i` that are not in `E`. -/
def pos (E : Nat → Bool) (i : Nat) : Nat := (List.range i).countP (fun j => !E j)

theorem pos_succ (E : Nat → Bool) (i : Nat) : pos E (i + 1) = pos E i + if E i then 0 else 1 := by
  unfold pos; rw [List.range_succ, List.countP_append]
  cases h : E i <;> simp [h]

theorem pos_mono (E : Nat → Bool) {i j : Nat} (h : i ≤ j) : pos E i ≤ pos E j := by
  induction h with
  | refl => exact le_rfl
  | step _ ih => rw [Nat.succ_eq_add_one, pos_succ]; omega

theorem pos_lt (E : Nat → Bool) {i l : Nat} (hi : i < l) (he : E i = false) : pos E i < pos E l := by
  have h1 := pos_succ E i
  rw [he] at h1
  have h2 := pos_mono E (show i + 1 ≤ l from hi)
  simp at h1
  omega

/-- A bit string over `l` qubits from the bits of the qubits in `E` and those of the other ones. -/
def fill {l : Nat} (E : Nat → Bool) (x : {i : Fin l // E i = true} → Fin 2) (r : Fin (pos E l) → Fin 2) : Fin l → Fin 2 :=
  fun i => if h : E i = true then x ⟨i, h⟩ else r ⟨pos E i, pos_lt E i.isLt (by simpa using h)⟩

/-- Partial trace over the qubits in `E`; the remaining qubits keep their order. -/
def ptrace {l : Nat} (E : Nat → Bool) (M : QMat R l) : QMat R (pos E l) :=
  fun r c => ∑ x : {i : Fin l // E i = true} → Fin 2, M (fill E x r) (fill E x c)

end

/-- The amplitudes of the six named single-qubit states; `Pkg.sqrt12` is the square root of 1/2. -/
def basisAmp {R : Type} [Field R] [HasSqrt R] (b : Basis) : Fin 2 → Cx R :=
  let h : R := Pkg.sqrt12
  match b with
  | .zero => ![1, 0]
  | .one => ![0, 1]
  | .plus => ![⟨h, 0⟩, ⟨h, 0⟩]
  | .minus => ![⟨h, 0⟩, ⟨-h, 0⟩]
  | .right => ![⟨h, 0⟩, ⟨0, h⟩]
  | .left => ![⟨h, 0⟩, ⟨0, -h⟩]

/-- Square root of the probability of an outcome, zero if it was not observed. -/
def rootProb {R : Type} [Zero R] [HasSqrt R] (probs : Nat → Option R) (i : Nat) : R :=
  match probs i with
  | some p => HasSqrt.sqrt p
  | none => 0

end DD
