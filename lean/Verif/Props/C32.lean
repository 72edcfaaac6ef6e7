import Verif.Proofs.RealEx

/-!
# C32: two-qubit gates
-/

namespace DD

variable {R : Type} [Field R] [LinearOrder R] [IsStrictOrderedRing R] [HasSqrt R] [LawfulSqrt R] {P : PCfg R}
  {h : PHist R}

/-- Missing for the full property: 128 qubits, for which it is false (`C32_128_false`). -/
theorem C32_gate_partial (hC : P.C.Good) (hr : PReach P h) {n : Nat} (hn : n ≤ (h.pkg.ut .m).nvars) (h128 : n < 128)
    (U : Fin 4 → Fin 4 → Cx R) {t0 t1 : Fin n} (ht : t0 ≠ t1) :
    ∃ r, Pkg.makeTwoQubitGateDD P h.pkg U n t0 t1 = some r ∧ Valid (r.1.ut .m) n r.2 ∧
      mat (r.1.ut .m) n r.2 = twoMat U t0 t1 ∧ Unchanged h.pkg r.1 := by
  obtain ⟨r, e1, o⟩ := makeTwoQubitGateDD_spec hC.growth (U := U) (fun he => ht (Fin.ext he)) t0.isLt t1.isLt
    (hr.inv hC).wf hn h128
  refine ⟨r, e1, o.valid, ?_, o.ext.unchanged (hr.inv hC).wf⟩
  rw [o.mat_eq]
  funext a b
  exact tw_twoMat t0.isLt t1.isLt a b

/-- For 128 qubits, the size of a default package, the lines above the larger target are missing from the result: unless
the larger target is the top qubit or the gate is zero, the result is not a diagram over 128 qubits. -/
theorem C32_128_false (hC : P.C.Good) (hr : PReach P h) (hn : 128 ≤ (h.pkg.ut .m).nvars)
    {U : Fin 4 → Fin 4 → Cx R} (hU : ∃ i j, U i j ≠ 0) {t0 t1 : Nat} (ht : t0 ≠ t1) (h0 : t0 < 127) (h1 : t1 < 127) :
    ∃ r, Pkg.makeTwoQubitGateDD P h.pkg U 128 t0 t1 = some r ∧ Valid (r.1.ut .m) (max t0 t1 + 1) r.2 ∧
      ¬ Valid (r.1.ut .m) 128 r.2 := by
  obtain ⟨r, e1, o⟩ := makeTwoQubitGateDD_reach hC.growth (U := U) (n := 128) ht (by omega) (by omega) (hr.inv hC).wf hn
  have hup : Pkg.upperLines 128 (max t0 t1) = 0 := by
    unfold Pkg.upperLines
    have : Pkg.toQubit 128 = -128 := by decide
    rw [this]; omega
  rw [hup, Nat.add_zero] at o
  refine ⟨r, e1, o.valid, fun hv => ?_⟩
  have hw : r.2.w ≠ 0 := by
    intro hw
    obtain ⟨i, j, hij⟩ := hU
    have h2 := congrFun (congrFun o.mat_eq
      (fun q => if (q : Nat) = t0 then Pkg.hi2 i else if (q : Nat) = t1 then Pkg.lo2 i else 0))
      (fun q => if (q : Nat) = t0 then Pkg.hi2 j else if (q : Nat) = t1 then Pkg.lo2 j else 0)
    rw [tw_twoMat (by omega) (by omega)] at h2
    unfold twoMat at h2
    rw [if_pos (by
      intro q hq0 hq1
      have a0 : (q : Nat) ≠ t0 := fun he => hq0 (Fin.ext he)
      have a1 : (q : Nat) ≠ t1 := fun he => hq1 (Fin.ext he)
      beta_reduce
      rw [if_neg a0, if_neg a1, if_neg a0, if_neg a1])] at h2
    simp only [if_pos, if_neg (Ne.symm ht)] at h2
    have hp : ∀ i : Fin 4, pair (Pkg.hi2 i) (Pkg.lo2 i) = i := by decide
    rw [hp, hp] at h2
    exact hij (h2.symm.trans (amp_w_zero hw _))
  have := hv.level o.valid hw
  omega

omit [LawfulSqrt R] in
theorem C32_reject {n : Nat} (hn : n > (h.pkg.ut .m).nvars) (U : Fin 4 → Fin 4 → Cx R) (t0 t1 : Nat) :
    Pkg.makeTwoQubitGateDD P h.pkg U n t0 t1 = none := by
  unfold Pkg.makeTwoQubitGateDD; rw [if_pos hn]

end DD

namespace DD.Ex

/-- The hypotheses are met, with the targets in both orders. -/
example : ∃ h : PHist ℝ, PReach (PR ℝ) h ∧ 5 ≤ (h.pkg.ut .m).nvars ∧ 5 < 128 ∧ (1 : Fin 5) ≠ 3 ∧ (3 : Fin 5) ≠ 1 ∧
    ∃ x ∈ h.held .m, x.w ≠ 0 := by
  obtain ⟨h, x, y, A, B, hr, hn, vx, vy, vA, vB, hx, hA, ax, ay, aA, aB, wx, wy, wA, wB⟩ := setup (R := ℝ)
  exact ⟨h, hr, by rw [hn]; omega, by omega, by decide, by decide, A, hA, wA⟩

/-- The hypotheses of `C32_128_false` are met by a new package of default size. -/
example : ∃ h : PHist ℝ, PReach (PR ℝ) h ∧ 128 ≤ (h.pkg.ut .m).nvars ∧
    ∃ i j : Fin 4, (fun i j => if i = j then 1 else 0 : Fin 4 → Fin 4 → Cx ℝ) i j ≠ 0 := by
  let h0 : PHist ℝ := ⟨Pkg.init (PR ℝ) 128 1 1 ⟨0, fun _ => zeroE, 0, false, false⟩ ⟨0, fun _ => zeroE, 0, false, false⟩, fun _ => []⟩
  refine ⟨h0, ⟨h0, .init 128 1 1 _ _ (by decide) (by decide) (by decide), .refl⟩, le_rfl, 0, 0, ?_⟩
  exact one_ne_zero

end DD.Ex
