import Verif.Proofs.RealEx

/-!
# C31: controlled single-qubit gates
-/

namespace DD

variable {R : Type} [Field R] [LinearOrder R] [IsStrictOrderedRing R] [HasSqrt R] [LawfulSqrt R] {P : PCfg R}
  {h : PHist R}

theorem C31_gate (hC : P.C.Good) (hr : PReach P h) {n : Nat} (hn : n ≤ (h.pkg.ut .m).nvars) (U : Fin 4 → Cx R)
    {controls : List Ctrl} {target : Fin n} (hc : GoodControls controls target n) :
    ∃ r, Pkg.makeGateDD P h.pkg U n controls target = some r ∧ Valid (r.1.ut .m) n r.2 ∧
      mat (r.1.ut .m) n r.2 = gateMat (fun a b => U (rc a b)) controls target ∧ Unchanged h.pkg r.1 := by
  obtain ⟨r, e1, o⟩ := makeGateDD_spec hC.growth (U := U) hc.sorted target.isLt hc.target (hr.inv hC).wf hn
  refine ⟨r, e1, o.valid, ?_, o.ext.unchanged (hr.inv hC).wf⟩
  rw [o.mat_eq]
  funext a b
  exact highVal_gateMat target.isLt hc.target a b

omit [LawfulSqrt R] in
theorem C31_reject {n : Nat} (hn : n > (h.pkg.ut .m).nvars) (U : Fin 4 → Cx R) (controls : List Ctrl) (target : Nat) :
    Pkg.makeGateDD P h.pkg U n controls target = none := by
  unfold Pkg.makeGateDD; rw [if_pos hn]

end DD

namespace DD.Ex

/-- The hypotheses are met: a gate with a positive and a negative control, one below and one above the target. -/
example : ∃ h : PHist ℝ, PReach (PR ℝ) h ∧ 3 ≤ (h.pkg.ut .m).nvars ∧ GoodControls cs0 (1 : Fin 3) 3 ∧ ∃ x ∈ h.held .m, x.w ≠ 0 := by
  obtain ⟨h, x, y, A, B, hr, hn, vx, vy, vA, vB, hx, hA, ax, ay, aA, aB, wx, wy, wA, wB⟩ := setup (R := ℝ)
  exact ⟨h, hr, by rw [hn]; omega, cs0_good, A, hA, wA⟩

end DD.Ex
