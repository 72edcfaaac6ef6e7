import Verif.Proofs.RealEx
import Mathlib.Data.Matrix.Mul

/-!
# C23: multiplication
-/

namespace DD

variable {R : Type} [Field R] [LinearOrder R] [IsStrictOrderedRing R] [HasSqrt R] [LawfulSqrt R] {P : PCfg R}
  {h : PHist R}

/-- `multiply(A, x)` represents the matrix-vector product. -/
theorem C23_vector (hC : P.C.Good) (hr : PReach P h) {l : Nat} {A x : PEdge R} (hA : Valid (h.pkg.ut .m) l A)
    (hx : Valid (h.pkg.ut .v) l x) :
    let r := Pkg.multiply P .v h.pkg A x
    Valid (r.1.ut .v) l r.2 ∧ vec (r.1.ut .v) l r.2 = (mat (h.pkg.ut .m) l A).mulVec (vec (h.pkg.ut .v) l x) ∧
      Unchanged h.pkg r.1 := by
  have o := multiply_spec (k := .v) hC.growth (hr.inv hC).wf hA hx
  refine ⟨o.valid, ?_, o.ext.unchanged (hr.inv hC).wf⟩
  rw [o.vec_eq]
  rfl

/-- `multiply(A, B)` represents the matrix product. -/
theorem C23_matrix (hC : P.C.Good) (hr : PReach P h) {l : Nat} {A B : PEdge R} (hA : Valid (h.pkg.ut .m) l A)
    (hB : Valid (h.pkg.ut .m) l B) :
    let r := Pkg.multiply P .m h.pkg A B
    Valid (r.1.ut .m) l r.2 ∧ mat (r.1.ut .m) l r.2 = mat (h.pkg.ut .m) l A * mat (h.pkg.ut .m) l B ∧
      Unchanged h.pkg r.1 := by
  have o := multiply_spec (k := .m) hC.growth (hr.inv hC).wf hA hB
  refine ⟨o.valid, ?_, o.ext.unchanged (hr.inv hC).wf⟩
  rw [o.mat_eq]
  funext r c
  rw [Matrix.mul_apply]
  have h1 : ∀ a b : Fin 2, (![0, 0, 1, 1] : Fin 4 → Fin 2) (rc a b) = a := by decide
  have h2 : ∀ a b : Fin 2, (![0, 1, 0, 1] : Fin 4 → Fin 2) (rc a b) = b := by decide
  refine Finset.sum_congr rfl fun j _ => ?_
  simp only [h1, h2]
  rfl

end DD

namespace DD.Ex

/-- The hypotheses are met by a state and two matrices of `setup`. -/
example : ∃ (h : PHist ℝ) (x A B : PEdge ℝ), PReach (PR ℝ) h ∧ Valid (h.pkg.ut .v) 3 x ∧
    Valid (h.pkg.ut .m) 3 A ∧ Valid (h.pkg.ut .m) 3 B ∧ x.w ≠ 0 ∧ A.w ≠ 0 ∧ B.w ≠ 0 := by
  obtain ⟨h, x, y, A, B, hr, _, vx, vy, vA, vB, _, _, _, _, _, _, wx, wy, wA, wB⟩ := setup (R := ℝ)
  exact ⟨h, x, A, B, hr, vx, vA, vB, wx, wA, wB⟩

end DD.Ex
