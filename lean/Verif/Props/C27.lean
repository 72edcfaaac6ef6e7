import Verif.Proofs.RealEx
import Mathlib.LinearAlgebra.Matrix.Trace

/-!
# C27: trace and partial trace
-/

namespace DD

variable {R : Type} [Field R] [LinearOrder R] [IsStrictOrderedRing R] [HasSqrt R] [LawfulSqrt R] {P : PCfg R}
  {h : PHist R}


/-- `partialTrace(A, eliminate)` for a mask over the qubits of `A`. -/
theorem C27_partialTrace (hC : P.C.Good) (hr : PReach P h) {l : Nat} {A : PEdge R} (hA : Valid (h.pkg.ut .m) l A)
    (hl : l ≤ (h.pkg.ut .m).nvars) {elim : List Bool} (he : elim.length = l) :
    let r := Pkg.partialTrace P h.pkg A elim
    let E := fun i => elim.getD i false
    Valid (r.1.ut .m) (pos E l) r.2 ∧ mat (r.1.ut .m) (pos E l) r.2 = ptrace E (mat (h.pkg.ut .m) l A) ∧
      Unchanged h.pkg r.1 := by
  have o := partialTrace_spec hC.growth (hr.inv hC).wf hA hl (Or.inr he)
  rw [keep_eq_pos] at o
  refine ⟨o.valid, ?_, o.ext.unchanged (hr.inv hC).wf⟩
  rw [o.mat_eq]
  funext r c
  exact tv_ptrace ((hr.inv hC).wf.tab .m).child hA r c

/-- `trace(A)`. -/
theorem C27_trace (hC : P.C.Good) (hr : PReach P h) {l : Nat} {A : PEdge R} (hA : Valid (h.pkg.ut .m) l A)
    (hl : l ≤ (h.pkg.ut .m).nvars) :
    let r := Pkg.trace P h.pkg A
    r.2 = Matrix.trace (mat (h.pkg.ut .m) l A) ∧ Unchanged h.pkg r.1 := by
  have hE : ∀ i < l, (List.replicate (h.pkg.ut .m).nvars true).getD i false = true := by
    intro i hi
    have : i < (h.pkg.ut .m).nvars := by omega
    simp [List.getD, this]
  have o := partialTrace_spec hC.growth (hr.inv hC).wf hA hl (Or.inl hE)
  generalize hEE : (fun i => (List.replicate (h.pkg.ut .m).nvars true).getD i false) = E at o
  have hE' : ∀ i < l, E i = true := by intro i hi; rw [← hEE]; exact hE i hi
  rw [keep_eq_pos] at o
  refine ⟨?_, o.ext.unchanged (hr.inv hC).wf⟩
  have hp : pos E l = 0 := by
    unfold pos
    rw [List.countP_eq_zero]
    intro i hi
    rw [List.mem_range] at hi
    rw [hE' i hi]; simp
  have h1 := o.mat_eq
  have h2 : mat ((Pkg.partialTrace P h.pkg A (List.replicate (h.pkg.ut .m).nvars true)).1.ut .m) (pos E l)
      (Pkg.partialTrace P h.pkg A (List.replicate (h.pkg.ut .m).nvars true)).2 = ptrace E (mat (h.pkg.ut .m) l A) := by
    rw [h1]
    funext r c
    exact tv_ptrace ((hr.inv hC).wf.tab .m).child hA r c
  have h3 : ∀ (t : UTable (Cx R) 4) (e : PEdge R) (m : Nat) (hm : m = 0) (r c : Fin m → Fin 2), mat t m e r c = e.w := by
    intro t e m hm r c; subst hm; rfl
  show (Pkg.partialTrace P h.pkg A (List.replicate (h.pkg.ut .m).nvars true)).2.w = _
  rw [← h3 _ _ _ hp (fun i => (hp ▸ i).elim0) (fun i => (hp ▸ i).elim0), h2]
  unfold ptrace Matrix.trace
  refine Fintype.sum_equiv ⟨fun x i => x ⟨i, hE' i i.isLt⟩, fun y i => y i.1, fun x => rfl, fun y => rfl⟩ _ _ (fun x => ?_)
  rw [Matrix.diag_apply]
  have : ∀ r, fill E x r = fun i => x ⟨i, hE' i i.isLt⟩ := by
    intro r; funext i; unfold fill; rw [dif_pos (hE' i i.isLt)]
  rw [this]; rfl

end DD

namespace DD.Ex

/-- The hypotheses are met: tracing out the middle one of three qubits. -/
example : ∃ (h : PHist ℝ) (A : PEdge ℝ), PReach (PR ℝ) h ∧ Valid (h.pkg.ut .m) 3 A ∧ 3 ≤ (h.pkg.ut .m).nvars ∧ A.w ≠ 0 ∧
    [false, true, false].length = 3 ∧ pos (fun i => [false, true, false].getD i false) 3 = 2 := by
  obtain ⟨h, x, y, A, B, hr, hn, vx, vy, vA, vB, hx, hA, ax, ay, aA, aB, wx, wy, wA, wB⟩ := setup (R := ℝ)
  exact ⟨h, A, hr, vA, by rw [hn]; omega, wA, rfl, by decide⟩

end DD.Ex
