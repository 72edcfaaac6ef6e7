import Verif.Proofs.RealEx

/-!
# C22: addition
-/

namespace DD

variable {R : Type} [Field R] [LinearOrder R] [IsStrictOrderedRing R] [HasSqrt R] [LawfulSqrt R] {P : PCfg R}
  {h : PHist R}

/-- `add(x, y)` represents the sum, whatever is stored in the caches; all other diagrams keep their meaning. -/
theorem C22_vector (hC : P.C.Good) (hr : PReach P h) {l : Nat} {x y : PEdge R} (hx : Valid (h.pkg.ut .v) l x)
    (hy : Valid (h.pkg.ut .v) l y) :
    let r := Pkg.add P .v h.pkg x y
    Valid (r.1.ut .v) l r.2 ∧ vec (r.1.ut .v) l r.2 = vec (h.pkg.ut .v) l x + vec (h.pkg.ut .v) l y ∧
      Unchanged h.pkg r.1 := by
  have o := add_spec hC.growth (hr.inv hC).wf hx hy
  exact ⟨o.valid, o.vec_eq, o.ext.unchanged (hr.inv hC).wf⟩

theorem C22_matrix (hC : P.C.Good) (hr : PReach P h) {l : Nat} {x y : PEdge R} (hx : Valid (h.pkg.ut .m) l x)
    (hy : Valid (h.pkg.ut .m) l y) :
    let r := Pkg.add P .m h.pkg x y
    Valid (r.1.ut .m) l r.2 ∧ mat (r.1.ut .m) l r.2 = mat (h.pkg.ut .m) l x + mat (h.pkg.ut .m) l y ∧
      Unchanged h.pkg r.1 := by
  have o := add_spec hC.growth (hr.inv hC).wf hx hy
  exact ⟨o.valid, o.mat_eq, o.ext.unchanged (hr.inv hC).wf⟩

end DD

namespace DD.Ex

/-- The hypotheses are met by the two states and the two matrices of `setup`. -/
example : ∃ (h : PHist ℝ) (x y A B : PEdge ℝ), PReach (PR ℝ) h ∧ Valid (h.pkg.ut .v) 3 x ∧ Valid (h.pkg.ut .v) 3 y ∧
    Valid (h.pkg.ut .m) 3 A ∧ Valid (h.pkg.ut .m) 3 B ∧ x.w ≠ 0 ∧ y.w ≠ 0 ∧ A.w ≠ 0 ∧ B.w ≠ 0 := by
  obtain ⟨h, x, y, A, B, hr, _, vx, vy, vA, vB, _, _, _, _, _, _, wx, wy, wA, wB⟩ := setup (R := ℝ)
  exact ⟨h, x, y, A, B, hr, vx, vy, vA, vB, wx, wy, wA, wB⟩

end DD.Ex
