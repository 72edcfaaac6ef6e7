import Verif.Proofs.RealEx

/-!
# C36: element access
-/

namespace DD

variable {R : Type} [Field R] [LinearOrder R] [IsStrictOrderedRing R] [HasSqrt R] [LawfulSqrt R] {P : PCfg R}
  {h : PHist R}

/-- Element access by index agrees with the exported vector. -/
theorem C36_vector (hC : P.C.Good) (hr : PReach P h) {l : Nat} {x : PEdge R} (hx : Valid (h.pkg.ut .v) (l + 1) x) (hw : x.w ≠ 0) :
    ∃ xs, Pkg.getVector (h.pkg.ut .v) x = some xs ∧ xs.length = 2 ^ (l + 1) ∧
      ∀ i (hi : i < xs.length), Pkg.valueV (h.pkg.ut .v) x i = xs[i] ∧ vec (h.pkg.ut .v) (l + 1) x (bitsOf (l + 1) i) = xs[i] := by
  have hc := ((hr.inv hC).wf.tab .v).child
  refine ⟨_, getVector_spec hc hx hw, by simp, fun i hi => ?_⟩
  rw [valueV_spec hc hx, List.getElem_map, List.getElem_range]
  exact ⟨rfl, rfl⟩

/-- Element access by indices agrees with the exported matrix. -/
theorem C36_matrix (hC : P.C.Good) (hr : PReach P h) {l : Nat} {A : PEdge R} (hA : Valid (h.pkg.ut .m) (l + 1) A) (hw : A.w ≠ 0) :
    ∃ M, Pkg.getMatrix (h.pkg.ut .m) A = some M ∧ M.length = 2 ^ (l + 1) ∧ (∀ row ∈ M, row.length = 2 ^ (l + 1)) ∧
      ∀ i j (hi : i < M.length) (hj : j < M[i].length), Pkg.valueM (h.pkg.ut .m) A i j = M[i][j] ∧
        mat (h.pkg.ut .m) (l + 1) A (bitsOf (l + 1) i) (bitsOf (l + 1) j) = M[i][j] := by
  have hc := ((hr.inv hC).wf.tab .m).child
  refine ⟨_, getMatrix_spec hc hA hw, by simp, by simp, fun i j hi hj => ?_⟩
  rw [valueM_spec hc hA]
  simp only [List.getElem_map, List.getElem_range]
  exact ⟨trivial, trivial⟩

/-- Element access by a string of digits. -/
theorem C36_path_vector (hC : P.C.Good) (hr : PReach P h) {l : Nat} {x : PEdge R} (hx : Valid (h.pkg.ut .v) l x)
    (digits : Nat → Fin 2) : Pkg.valueByPath (h.pkg.ut .v) x digits = vec (h.pkg.ut .v) l x (fun q => digits q) :=
  valueByPath_spec ((hr.inv hC).wf.tab .v).child hx digits

/-- Element access by a string of digits; digit `2 r + c` selects row bit `r` and column bit `c`. -/
theorem C36_path_matrix (hC : P.C.Good) (hr : PReach P h) {l : Nat} {A : PEdge R} (hA : Valid (h.pkg.ut .m) l A)
    (r c : Nat → Fin 2) : Pkg.valueByPath (h.pkg.ut .m) A (fun q => rc (r q) (c q)) = mat (h.pkg.ut .m) l A (fun q => r q) (fun q => c q) :=
  valueByPath_spec ((hr.inv hC).wf.tab .m).child hA _

end DD

namespace DD.Ex

/-- The hypotheses are met. -/
example : ∃ (h : PHist ℝ) (x A : PEdge ℝ), PReach (PR ℝ) h ∧ Valid (h.pkg.ut .v) (2 + 1) x ∧ x.w ≠ 0 ∧
    Valid (h.pkg.ut .m) (2 + 1) A ∧ A.w ≠ 0 := by
  obtain ⟨h, x, y, A, B, hr, hn, vx, vy, vA, vB, hx, hA, ax, ay, aA, aB, wx, wy, wA, wB⟩ := setup (R := ℝ)
  exact ⟨h, x, A, hr, vx, wx, vA, wA⟩

end DD.Ex
