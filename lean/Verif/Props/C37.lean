import Verif.Proofs.RealEx

/-!
# C37: deletion of edges
-/

namespace DD

variable {R : Type} [Field R] [LinearOrder R] [IsStrictOrderedRing R] [HasSqrt R] [LawfulSqrt R] {P : PCfg R}
  {h : PHist R}

/-- `deleteEdge(e, v, i)` sets the entries whose digit at qubit `v` is `i` to zero. -/
theorem C37_vector (hC : P.C.Good) (hr : PReach P h) {l : Nat} {x : PEdge R} (hx : Valid (h.pkg.ut .v) l x)
    (hl : l ≤ (h.pkg.ut .v).nvars) (v : Fin l) (i : Fin 2) :
    let r := Pkg.deleteEdge P .v h.pkg x v i
    Valid (r.1.ut .v) l r.2 ∧ vec (r.1.ut .v) l r.2 = (fun d => if d v = i then 0 else vec (h.pkg.ut .v) l x d) ∧
      Unchanged h.pkg r.1 := by
  have o := deleteEdge_spec (k := .v) hC.growth (v := v) (idx := i) (hr.inv hC).wf hx hl
  refine ⟨o.valid, ?_, o.ext.unchanged (hr.inv hC).wf⟩
  rw [o.vec_eq]
  funext d
  unfold delD
  rw [dif_pos v.isLt]; rfl

theorem C37_matrix (hC : P.C.Good) (hr : PReach P h) {l : Nat} {A : PEdge R} (hA : Valid (h.pkg.ut .m) l A)
    (hl : l ≤ (h.pkg.ut .m).nvars) (v : Fin l) (i j : Fin 2) :
    let r := Pkg.deleteEdge P .m h.pkg A v (rc i j)
    Valid (r.1.ut .m) l r.2 ∧
      mat (r.1.ut .m) l r.2 = (fun r c => if r v = i ∧ c v = j then 0 else mat (h.pkg.ut .m) l A r c) ∧
      Unchanged h.pkg r.1 := by
  have o := deleteEdge_spec (k := .m) hC.growth (v := v) (idx := rc i j) (hr.inv hC).wf hA hl
  refine ⟨o.valid, ?_, o.ext.unchanged (hr.inv hC).wf⟩
  rw [o.mat_eq]
  funext r c
  unfold delD
  rw [dif_pos v.isLt]
  have hrc : ∀ a b c d : Fin 2, rc a b = rc c d ↔ a = c ∧ b = d := by decide
  exact if_congr (hrc _ _ _ _) rfl rfl

end DD

namespace DD.Ex

/-- The hypotheses are met. -/
example : ∃ (h : PHist ℝ) (x A : PEdge ℝ), PReach (PR ℝ) h ∧ Valid (h.pkg.ut .v) 3 x ∧ x.w ≠ 0 ∧ 3 ≤ (h.pkg.ut .v).nvars ∧
    Valid (h.pkg.ut .m) 3 A ∧ A.w ≠ 0 ∧ 3 ≤ (h.pkg.ut .m).nvars := by
  obtain ⟨h, x, y, A, B, hr, hn, vx, vy, vA, vB, hx, hA, ax, ay, aA, aB, wx, wy, wA, wB⟩ := setup (R := ℝ)
  exact ⟨h, x, A, hr, vx, wx, by rw [hn]; omega, vA, wA, by rw [hn]; omega⟩

end DD.Ex
