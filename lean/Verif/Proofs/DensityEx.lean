import Verif.Proofs.DensityHist
import Verif.Proofs.RealEx

/-! # A package with density matrices for the examples -/

namespace DD.Ex

open DD

variable {R : Type} [Field R] [LinearOrder R] [IsStrictOrderedRing R] [HasSqrt R] [LawfulSqrt R]

/-- All tables and caches have one bucket. -/
def DR (R : Type) : DCfg R := ⟨PR R, fun _ => 0, fun _ => 0, fun _ => 0⟩

theorem _root_.DD.DReach.step {D : DCfg R} {h h' : DHist R} (hr : DReach D h) (hs : DStep D h h') : DReach D h' := by
  obtain ⟨h0, h1, h2⟩ := hr
  exact ⟨h0, h1, h2.tail hs⟩

/-- A package with a controlled gate on three qubits and a reference to the density matrix of the zero state of three qubits. -/
theorem setupD : ∃ (h : DHist R) (e op : PEdge R), DReach (DR R) h ∧ h.st.dt.nvars = 6 ∧ e ∈ h.heldD ∧ Valid h.st.dt.plain 3 e ∧
    Valid (h.st.pkg.ut .m) 3 op ∧ mat (h.st.pkg.ut .m) 3 op = gateMat (fun a b => U0 (rc a b)) cs0 1 ∧
    densityOf h.st 3 (.ofD e) = zeroRho R 3 := by
  have hC : (DR R).P.C.Good := PR_good R
  let h0 : DHist R := ⟨DState.init (DR R) 6 1 1 1 ⟨0, fun _ => zeroE, 0, false, false⟩ ⟨0, fun _ => zeroE, 0, false, false⟩
    ⟨0, fun _ => ⟨none, (0, .none)⟩, 0, false, false⟩, fun _ => [], []⟩
  have r0 : DReach (DR R) h0 := ⟨h0, .init 6 1 1 1 _ _ _ (by decide) (by decide) (by decide) (by decide), .refl⟩
  have p0 := (r0.inv hC).pkg
  have n0 : ∀ k, (h0.st.pkg.ut k).nvars = 6 := by intro k; cases k <;> rfl
  obtain ⟨r, e1, o1⟩ := makeGateDD_spec hC.growth (U := U0) cs0_good.sorted (by decide : 1 < 3) cs0_good.target p0.wf (n := 3) (by rw [n0]; omega)
  have r1 := r0.step (DStep.call ⟨r.1, fun _ => []⟩ (PStep.makeGateDD U0 3 cs0 1 r (by decide) cs0_good e1)
    fun a ha => (o1.ext .m).le a ha)
  have z := DState.makeZero_spec hC (r1.inv hC).wf 3 (show 3 ≤ 6 by decide)
  have r2 := r1.step (DStep.makeZeroDensityOperator 3 (show 3 ≤ 6 by decide))
  have r3 := r2.step (DStep.incRef 3 _ z.valid)
  have sh := SameShape.plain ((r2.inv hC).incRef hC z.valid).2
  refine ⟨_, _, r.2, r3, ((r2.inv hC).incRef hC z.valid).2.nvars.trans z.ext.nvars, List.mem_cons_self .., z.valid.mono sh, o1.valid.mono (z.ext.pkg .m).le, ?_, ?_⟩
  · have hu := z.ext.pkg.unchanged (r1.inv hC).pkg.wf .m 3 r.2 o1.valid
    refine (mat_ext_amp.2 (congrFun hu.2)).trans ?_
    rw [o1.mat_eq]
    funext a b
    exact highVal_gateMat (by decide) cs0_good.target a b
  · rw [densityOf_eq]
    refine (mat_ext_amp.2 fun d => amp_mono sh (r2.inv hC).wf.child z.valid d).trans ?_
    funext a b
    refine (z.val _).trans ?_
    have : ∀ x y : Fin 2, rc x y = 0 ↔ x = 0 ∧ y = 0 := by decide
    unfold zeroRho
    simp only [this, forall_and]

end DD.Ex
