import Verif.Proofs.RealEx

/-!
# C35: identity and symmetry marks
-/

namespace DD

variable {R : Type} [Field R] [LinearOrder R] [IsStrictOrderedRing R] [HasSqrt R] [LawfulSqrt R] {P : PCfg R}
  {h : PHist R}

/-- A stored matrix node is marked as identity iff it represents the identity matrix. -/
theorem C35_identity (hC : P.C.Good) (hr : PReach P h) {a : Nat} (ha : a ∈ (h.pkg.ut .m).all) :
    ((h.pkg.ut .m).mem a).ident = true ↔ mat (h.pkg.ut .m) (((h.pkg.ut .m).mem a).v + 1) ⟨some a, 1⟩ = 1 := by
  have := (hr.inv hC).wf.isIdent_iff (valid_node ha rfl) (by simp)
  simpa [Pkg.isIdent] using this

/-- A stored matrix node is marked as symmetric iff it represents a symmetric matrix. -/
theorem C35_symmetric (hC : P.C.Good) (hr : PReach P h) {a : Nat} (ha : a ∈ (h.pkg.ut .m).all) :
    ((h.pkg.ut .m).mem a).symm = true ↔
      (mat (h.pkg.ut .m) (((h.pkg.ut .m).mem a).v + 1) ⟨some a, 1⟩).transpose =
        mat (h.pkg.ut .m) (((h.pkg.ut .m).mem a).v + 1) ⟨some a, 1⟩ := by
  have := (hr.inv hC).wf.isSymm_iff (valid_node ha rfl) (by simp)
  simpa [Pkg.isSymm] using this

end DD

namespace DD.Ex

/-- The hypotheses are met. -/
example : ∃ (h : PHist ℝ) (a : Nat), PReach (PR ℝ) h ∧ a ∈ (h.pkg.ut .m).all := by
  obtain ⟨h, x, y, A, B, hr, hn, vx, vy, vA, vB, hx, hA, ax, ay, aA, aB, wx, wy, wA, wB⟩ := setup (R := ℝ)
  obtain ⟨a, _, ha, _⟩ := vA.exists_node wA
  exact ⟨h, a, hr, ha⟩

end DD.Ex
