import Verif.Proofs.Ctrl2Fin
import Verif.Proofs.RealEx

/-!
# C33: controlled two-qubit gates

`ctrlTwoMat U controls t0 t1` is `U` on the two targets when the controls are satisfied and the identity otherwise.
-/

namespace DD

open Gates

variable {P : PCfg ℝ} {h : PHist ℝ} {n : Nat} {controls : List Ctrl} {t0 t1 : Fin n}

/-- A construction that succeeds with a diagram of the matrix `M` and leaves all diagrams of `s` alone. -/
def Constructs (s : Pkg ℝ) (n : Nat) (r : Option (Pkg ℝ × PEdge ℝ)) (M : QMat ℝ n) : Prop :=
  ∃ q, r = some q ∧ Valid (q.1.ut .m) n q.2 ∧ mat (q.1.ut .m) n q.2 = M ∧ Unchanged s q.1

/-- Two different targets and a set of controls, at most one on a qubit, on other qubits. -/
structure GoodTwo (controls : List Ctrl) (t0 t1 : Fin n) : Prop where
  ne : t0 ≠ t1
  first : GoodControls controls t0 n
  second : GoodControls controls t1 n

theorem GoodTwo.ctx (g : GoodTwo controls t0 t1) : TwoCtx n controls t0 t1 :=
  ⟨g.ne, g.first.sorted, fun c hc => ⟨g.first.target c hc, g.second.target c hc⟩, g.first.range⟩

theorem Yd.constructs {s : Pkg ℝ} (hw : PWF P s ∅) {r : Option (Pkg ℝ × PEdge ℝ)} {U : Fin 4 → Fin 4 → Cx ℝ}
    (y : Yd P s n controls t0 t1 (mat4 U) 1 r) : Constructs s n r (ctrlTwoMat U controls t0 t1) := by
  obtain ⟨q, e, st⟩ := y
  exact ⟨q, e, st.valid, st.val.trans (sel_ctrl _ _ _ _), st.ext.unchanged hw⟩

section
variable (hC : P.C.Good) (hr : PReach P h) (hn : n ≤ (h.pkg.ut .m).nvars) (hc : GoodTwo controls t0 t1)
include hC hr hn hc

/-- SWAP. -/
theorem C33_swap :
    Constructs h.pkg n (Pkg.makeSWAPDD P h.pkg n controls t0 t1) (ctrlTwoMat SWAPmat controls t0 t1) :=
  (swap_yd hc.ctx hC.growth (hr.inv hC).wf hn).constructs (hr.inv hC).wf

/-- iSWAP. -/
theorem C33_iswap :
    Constructs h.pkg n (Pkg.makeiSWAPDD P h.pkg n controls t0 t1) (ctrlTwoMat iSWAPmat controls t0 t1) :=
  (iswap_yd hc.ctx hC.growth (hr.inv hC).wf hn).constructs (hr.inv hC).wf

/-- Inverse iSWAP. -/
theorem C33_iswapinv :
    Constructs h.pkg n (Pkg.makeiSWAPinvDD P h.pkg n controls t0 t1) (ctrlTwoMat iSWAPinvmat controls t0 t1) :=
  (iswapinv_yd hc.ctx hC.growth (hr.inv hC).wf hn).constructs (hr.inv hC).wf

/-- DCX. -/
theorem C33_dcx :
    Constructs h.pkg n (Pkg.makeDCXDD P h.pkg n controls t0 t1) (ctrlTwoMat DCXmat controls t0 t1) :=
  (dcx_yd hc.ctx hC.growth (hr.inv hC).wf hn).constructs (hr.inv hC).wf

/-- RZZ. -/
theorem C33_rzz (theta : ℝ) :
    Constructs h.pkg n (Pkg.makeRZZDD P h.pkg n controls t0 t1 theta) (ctrlTwoMat (RZZmat theta) controls t0 t1) :=
  (rzz_yd hc.ctx hC.growth (hr.inv hC).wf hn theta).constructs (hr.inv hC).wf

/-- RYY. -/
theorem C33_ryy (theta : ℝ) :
    Constructs h.pkg n (Pkg.makeRYYDD P h.pkg n controls t0 t1 theta) (ctrlTwoMat (RYYmat theta) controls t0 t1) :=
  (ryy_yd hc.ctx hC.growth (hr.inv hC).wf hn theta).constructs (hr.inv hC).wf

/-- RXX. -/
theorem C33_rxx (theta : ℝ) :
    Constructs h.pkg n (Pkg.makeRXXDD P h.pkg n controls t0 t1 theta) (ctrlTwoMat (RXXmat theta) controls t0 t1) :=
  (rxx_yd hc.ctx hC.growth (hr.inv hC).wf hn theta).constructs (hr.inv hC).wf

/-- RZX. -/
theorem C33_rzx (theta : ℝ) :
    Constructs h.pkg n (Pkg.makeRZXDD P h.pkg n controls t0 t1 theta) (ctrlTwoMat (RZXmat theta) controls t0 t1) :=
  (rzx_yd hc.ctx hC.growth (hr.inv hC).wf hn theta).constructs (hr.inv hC).wf

/-- ECR. -/
theorem C33_ecr :
    Constructs h.pkg n (Pkg.makeECRDD P h.pkg n controls t0 t1) (ctrlTwoMat ECRmat controls t0 t1) :=
  (ecr_yd hc.ctx hC.growth (hr.inv hC).wf hn).constructs (hr.inv hC).wf

/-- XX-YY. -/
theorem C33_xx_minus_yy (theta beta : ℝ) :
    Constructs h.pkg n (Pkg.makeXXMinusYYDD P h.pkg n controls t0 t1 theta beta) (ctrlTwoMat (XXMinusYYmat theta beta) controls t0 t1) :=
  (xxm_yd hc.ctx hC.growth (hr.inv hC).wf hn theta beta).constructs (hr.inv hC).wf

/-- XX+YY. -/
theorem C33_xx_plus_yy (theta beta : ℝ) :
    Constructs h.pkg n (Pkg.makeXXPlusYYDD P h.pkg n controls t0 t1 theta beta) (ctrlTwoMat (XXPlusYYmat theta beta) controls t0 t1) :=
  (xxp_yd hc.ctx hC.growth (hr.inv hC).wf hn theta beta).constructs (hr.inv hC).wf

/-- Peres: with the first target as the more significant bit, the two targets are incremented. -/
theorem C33_peres :
    Constructs h.pkg n (Pkg.makePeresDD P h.pkg n controls t0 t1) (ctrlTwoMat (fun r c => if r = c + 1 then 1 else 0) controls t0 t1) := by
  have e : tens 1 (mat2 Xmat) * ctl10 (mat2 Xmat) = mat4 (fun r c => if r = c + 1 then 1 else 0) := by
    rw [ctl10_x, m_x, tens_tn, ← id2_eq]
    unfold mat4
    ext1 a b; fin_cases a <;> fin_cases b <;> simp [tn, cx10, id2, Matrix.mul_apply, Fin.sum_univ_four] <;> decide
  exact ((peres_yd hc.ctx hC.growth (hr.inv hC).wf hn).congr e rfl).constructs (hr.inv hC).wf

/-- The inverse of Peres: the two targets are decremented. -/
theorem C33_peresdag :
    Constructs h.pkg n (Pkg.makePeresdagDD P h.pkg n controls t0 t1)
      (ctrlTwoMat (fun r c => if r + 1 = c then 1 else 0) controls t0 t1) := by
  have e : ctl10 (mat2 Xmat) * tens 1 (mat2 Xmat) = mat4 (fun r c => if r + 1 = c then 1 else 0) := by
    rw [ctl10_x, m_x, tens_tn, ← id2_eq]
    unfold mat4
    ext1 a b; fin_cases a <;> fin_cases b <;> simp [tn, cx10, id2, Matrix.mul_apply, Fin.sum_univ_four] <;> decide
  exact ((peresdag_yd hc.ctx hC.growth (hr.inv hC).wf hn).congr e rfl).constructs (hr.inv hC).wf

end

end DD

namespace DD.Ex

/-- The hypotheses are met: a package with held diagrams, targets 3 and 1, a positive control on qubit 0 and a negative
one on qubit 2. -/
example : ∃ h : PHist ℝ, PReach (PR ℝ) h ∧ 4 ≤ (h.pkg.ut .m).nvars ∧ GoodTwo (n := 4) cs0 3 1 ∧ ∃ x ∈ h.held .m, x.w ≠ 0 := by
  obtain ⟨h, x, y, A, B, hr, hn, vx, vy, vA, vB, hx, hA, ax, ay, aA, aB, wx, wy, wA, wB⟩ := setup (R := ℝ)
  refine ⟨h, hr, by rw [hn]; omega, ⟨by decide, ?_, ?_⟩, A, hA, wA⟩
  · constructor <;> simp [cs0]
  · constructor <;> simp [cs0]

end DD.Ex
