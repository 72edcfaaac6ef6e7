import Verif.Proofs.RealEx

/-!
# C25: transpose and adjoint
-/

namespace DD

variable {R : Type} [Field R] [LinearOrder R] [IsStrictOrderedRing R] [HasSqrt R] [LawfulSqrt R] {P : PCfg R}
  {h : PHist R}

theorem C25_transpose (hC : P.C.Good) (hr : PReach P h) {l : Nat} {A : PEdge R} (hA : Valid (h.pkg.ut .m) l A) :
    let r := Pkg.transpose P h.pkg A
    Valid (r.1.ut .m) l r.2 ∧ mat (r.1.ut .m) l r.2 = (mat (h.pkg.ut .m) l A).transpose ∧ Unchanged h.pkg r.1 := by
  have o := transpose_spec hC.growth (hr.inv hC).wf hA
  refine ⟨o.valid, ?_, o.ext.unchanged (hr.inv hC).wf⟩
  rw [o.mat_eq]
  funext r c
  rw [swapD_rc]; rfl

theorem C25_adjoint (hC : P.C.Good) (hr : PReach P h) {l : Nat} {A : PEdge R} (hA : Valid (h.pkg.ut .m) l A) :
    let r := Pkg.conjugateTranspose P h.pkg A
    Valid (r.1.ut .m) l r.2 ∧ mat (r.1.ut .m) l r.2 = adj (mat (h.pkg.ut .m) l A) ∧ Unchanged h.pkg r.1 := by
  have o := conjugateTranspose_spec hC.growth (hr.inv hC).wf hA
  refine ⟨o.valid, ?_, o.ext.unchanged (hr.inv hC).wf⟩
  rw [o.mat_eq]
  funext r c
  rw [swapD_rc]; rfl

end DD

namespace DD.Ex

/-- The hypotheses are met by a matrix that is neither symmetric nor Hermitian. -/
example : ∃ (h : PHist ℝ) (A : PEdge ℝ), PReach (PR ℝ) h ∧ Valid (h.pkg.ut .m) 3 A ∧ A.w ≠ 0 ∧
    (mat (h.pkg.ut .m) 3 A).transpose ≠ mat (h.pkg.ut .m) 3 A ∧ adj (mat (h.pkg.ut .m) 3 A) ≠ mat (h.pkg.ut .m) 3 A := by
  obtain ⟨h, x, y, A, B, hr, _, vx, vy, vA, vB, _, _, _, _, aA, aB, wx, wy, wA, wB⟩ := setup (R := ℝ)
  have e1 : gateMat (fun a b => (U0 : Fin 4 → Cx ℝ) (rc a b)) [] (0 : Fin 3) ![1, 0, 0] ![0, 0, 0] = ⟨0, 3⟩ := by
    unfold gateMat
    rw [if_pos (by intro i hi; fin_cases i <;> simp_all), if_pos (by simp [CtrlOK])]; rfl
  have e2 : gateMat (fun a b => (U0 : Fin 4 → Cx ℝ) (rc a b)) [] (0 : Fin 3) ![0, 0, 0] ![1, 0, 0] = ⟨2, 1⟩ := by
    unfold gateMat
    rw [if_pos (by intro i hi; fin_cases i <;> simp_all), if_pos (by simp [CtrlOK])]; rfl
  refine ⟨h, B, hr, vB, wB, ?_, ?_⟩
  · intro he
    have := congrFun (congrFun he ![1, 0, 0]) ![0, 0, 0]
    rw [Matrix.transpose_apply, aB, e1, e2] at this
    have := congrArg Cx.re this
    norm_num at this
  · intro he
    have := congrFun (congrFun he ![1, 0, 0]) ![0, 0, 0]
    unfold adj at this
    rw [aB, e1, e2] at this
    have := congrArg Cx.re this
    norm_num at this

end DD.Ex
