import Verif.Proofs.Use
import Verif.Model.RealNum

/-!
# The package over the real numbers

With `R = ℝ` the numbers `Cx ℝ` are the complex numbers. The theorems about the package hold for every ordered field with
square roots; this file provides a non-trivial reachable package over it, on which the
hypotheses of the theorems are met.
-/

namespace DD

namespace Ex

/-- Configuration of the examples: the table parameters of the code, constant hash functions (everything collides). -/
def PR (R : Type) : PCfg R := ⟨UCfg.default, fun _ _ => 0, fun _ _ => 0, fun _ _ => 0, fun _ _ => 0, fun _ => 0, fun _ => 0, fun _ => 0⟩

theorem PR_good (R : Type) : (PR R).C.Good := UCfg.default_good

/-- A 2x2 matrix without symmetries. -/
def U0 {R : Type} [Field R] : Fin 4 → Cx R := ![1, ⟨2, 1⟩, ⟨0, 3⟩, ⟨-1, 1⟩]

/-- A positive control on qubit 0 and a negative one on qubit 2. -/
def cs0 : List Ctrl := [⟨0, false⟩, ⟨2, true⟩]

theorem cs0_good : GoodControls cs0 1 3 := by
  constructor
  · simp [cs0]
  · simp [cs0]
  · simp [cs0]

variable {R : Type} [Field R] [LinearOrder R] [IsStrictOrderedRing R] [HasSqrt R] [LawfulSqrt R]

/-- Building a gate in a reachable package. -/
theorem gate_step {h : PHist R} (hr : PReach (PR R) h) (hn : ∀ k, (h.pkg.ut k).nvars = 6) (n : Nat) (hle : n ≤ 6)
    (U : Fin 4 → Cx R) (cs : List Ctrl) (t : Fin n) (hcs : GoodControls cs t n) :
    ∃ (h' : PHist R) (x : PEdge R), PReach (PR R) h' ∧ (∀ k, (h'.pkg.ut k).nvars = 6) ∧ Unchanged h.pkg h'.pkg ∧
      Valid (h'.pkg.ut .m) n x ∧ mat (h'.pkg.ut .m) n x = gateMat (fun a b => U (rc a b)) cs t := by
  have hC := PR_good R
  obtain ⟨r, e1, o1⟩ := makeGateDD_spec hC.growth (U := U) hcs.sorted t.isLt hcs.target (hr.inv hC).wf (n := n) (by rw [hn]; omega)
  refine ⟨_, r.2, hr.step (PStep.makeGateDD U n cs t r t.isLt hcs e1), ?_,
    o1.ext.unchanged (hr.inv hC).wf, o1.valid, ?_⟩
  · exact fun k => by rw [← hn k]; exact (o1.ext k).nvars
  · dsimp only
    rw [o1.mat_eq]
    funext a b
    exact highVal_gateMat t.isLt hcs.target a b

/-- A package in which two states of three qubits and two gates have been built, and references to one state and
one gate are held. -/
theorem setup : ∃ (h : PHist R) (x y A B : PEdge R), PReach (PR R) h ∧ (∀ k, (h.pkg.ut k).nvars = 6) ∧
    Valid (h.pkg.ut .v) 3 x ∧ Valid (h.pkg.ut .v) 3 y ∧ Valid (h.pkg.ut .m) 3 A ∧ Valid (h.pkg.ut .m) 3 B ∧
    x ∈ h.held .v ∧ A ∈ h.held .m ∧
    vec (h.pkg.ut .v) 3 x = (fun d => basisAmp .plus (d 0) * basisAmp .one (d 1) * basisAmp .left (d 2)) ∧
    vec (h.pkg.ut .v) 3 y = (fun d => basisAmp .minus (d 0) * basisAmp .one (d 1) * basisAmp .zero (d 2)) ∧
    mat (h.pkg.ut .m) 3 A = gateMat (fun a b => U0 (rc a b)) cs0 1 ∧
    mat (h.pkg.ut .m) 3 B = gateMat (fun a b => U0 (rc a b)) [] 0 ∧
    x.w ≠ 0 ∧ y.w ≠ 0 ∧ A.w ≠ 0 ∧ B.w ≠ 0 := by
  have hC := PR_good R
  have hg := hC.growth
  let h0 : PHist R := ⟨Pkg.init (PR R) 6 1 1 ⟨0, fun _ => zeroE, 0, false, false⟩ ⟨0, fun _ => zeroE, 0, false, false⟩, fun _ => []⟩
  have r0 : PReach (PR R) h0 := ⟨h0, .init 6 1 1 _ _ (by decide) (by decide) (by decide), .refl⟩
  have n0 : ∀ k, (h0.pkg.ut k).nvars = 6 := by intro k; cases k <;> rfl
  -- two states
  have basis : ∀ (h : PHist R) (L : List Basis), PReach (PR R) h → (∀ k, (h.pkg.ut k).nvars = 6) → L.length = 3 →
      ∃ (h' : PHist R) (x : PEdge R), PReach (PR R) h' ∧ (∀ k, (h'.pkg.ut k).nvars = 6) ∧ Unchanged h.pkg h'.pkg ∧
        Valid (h'.pkg.ut .v) 3 x ∧ vec (h'.pkg.ut .v) 3 x = (fun d => ∏ i : Fin 3, basisAmp (L.getD i .zero) (d i)) ∧ x.w = 1 := by
    intro h L hr hn hL
    obtain ⟨o1, w1⟩ := basisLoop_spec hg (fun i => L.getD i .zero) 3 h.pkg (hr.inv hC).wf (by rw [hn]; omega)
    refine ⟨_, _, hr.step (PStep.makeBasisStates 3 L (Pkg.basisLoop (PR R) (fun i => L.getD i .zero) 3 h.pkg) ?_), ?_,
      o1.ext.unchanged (hr.inv hC).wf, o1.valid, o1.vec_eq, w1⟩
    · unfold Pkg.makeBasisStates
      rw [if_neg (by rw [hn]; omega), if_neg (by omega)]
    · exact fun k => by rw [← hn k]; exact (o1.ext k).nvars
  have gate : ∀ (h : PHist R) (cs : List Ctrl) (t : Fin 3), PReach (PR R) h → (∀ k, (h.pkg.ut k).nvars = 6) →
      GoodControls cs t 3 →
      ∃ (h' : PHist R) (x : PEdge R), PReach (PR R) h' ∧ (∀ k, (h'.pkg.ut k).nvars = 6) ∧ Unchanged h.pkg h'.pkg ∧
        Valid (h'.pkg.ut .m) 3 x ∧ mat (h'.pkg.ut .m) 3 x = gateMat (fun a b => U0 (rc a b)) cs t := by
    intro h cs t hr hn hcs
    obtain ⟨r, e1, o1⟩ := makeGateDD_spec hg (U := U0) hcs.sorted t.isLt hcs.target (hr.inv hC).wf (n := 3) (by rw [hn]; omega)
    refine ⟨_, r.2, hr.step (PStep.makeGateDD U0 3 cs t r t.isLt hcs e1), ?_,
      o1.ext.unchanged (hr.inv hC).wf, o1.valid, ?_⟩
    · exact fun k => by rw [← hn k]; exact (o1.ext k).nvars
    · dsimp only
      rw [o1.mat_eq]
      funext a b
      exact highVal_gateMat t.isLt hcs.target a b
  obtain ⟨h1, x, r1, n1, u1, vx, ax, wx⟩ := basis h0 [.plus, .one, .left] r0 n0 rfl
  obtain ⟨h2, y, r2, n2, u2, vy, ay, wy⟩ := basis h1 [.minus, .one, .zero] r1 n1 rfl
  obtain ⟨h3, A, r3, n3, u3, vA, aA⟩ := gate h2 cs0 1 r2 n2 cs0_good
  obtain ⟨h4, B, r4, n4, u4, vB, aB⟩ := gate h3 [] 0 r3 n3 ⟨by simp, by simp, by simp⟩
  have vx4 := (u4 _ _ _ (u3 _ _ _ (u2 _ _ _ vx).1).1).1
  have vy4 := (u4 _ _ _ (u3 _ _ _ vy).1).1
  have vA4 := (u4 _ _ _ vA).1
  have ax4 := ((u4.vec (u3 _ _ _ (u2 _ _ _ vx).1).1).trans (u3.vec (u2 _ _ _ vx).1)).trans (u2.vec vx)
  have ay4 := (u4.vec (u3 _ _ _ vy).1).trans (u3.vec vy)
  have aA4 := u4.mat vA
  -- references
  have inc : ∀ (h : PHist R) (k : Kind) (l : Nat) (e : PEdge R), PReach (PR R) h → Valid (h.pkg.ut k) l e →
      Unchanged h.pkg (h.pkg.incRef (PR R) k e) := by
    intro h k l e hr hv k' l' e' hv'
    have := reshape_value ((hr.inv hC).incRef hC k hv).2 (fun k => ((hr.inv hC).wf.tab k).child) k' hv'
    exact ⟨this.1, funext this.2⟩
  have s5 := PStep.incRef (P := PR R) (h := h4) .v 3 x vx4
  have r5 := r4.step s5
  have n5 := fun k => ((r4.inv hC).incRef_nvars hC vx4 k).trans (n4 k)
  have u5 := inc h4 .v 3 x r4 vx4
  have vA5 := (u5 _ _ _ vA4).1
  have s6 := PStep.incRef (P := PR R) (h := ⟨h4.pkg.incRef (PR R) .v x, Function.update h4.held .v (x :: h4.held .v)⟩) .m 3 A vA5
  have r6 := r5.step s6
  have n6 := fun k => ((r5.inv hC).incRef_nvars hC vA5 k).trans (n5 k)
  have u6 := inc _ .m 3 A r5 vA5
  have nz : ∀ {e : PEdge R} {l : Nat} {t : UTable (Cx R) 4} (r c : Fin l → Fin 2), mat t l e r c ≠ 0 → e.w ≠ 0 := by
    intro e l t r c hne hw
    exact hne (amp_w_zero hw _)
  refine ⟨_, x, y, A, B, r6, n6, (u6 _ _ _ (u5 _ _ _ vx4).1).1, (u6 _ _ _ (u5 _ _ _ vy4).1).1, (u6 _ _ _ vA5).1,
    (u6 _ _ _ (u5 _ _ _ vB).1).1, ?_, ?_, ?_, ?_, ?_, ?_, ?_, ?_, ?_, ?_⟩
  · simp [Function.update]
  · simp [Function.update]
  · dsimp only
    rw [u6.vec (u5 _ _ _ vx4).1, u5.vec vx4, ax4, ax]
    funext d
    rw [Fin.prod_univ_three]; rfl
  · dsimp only
    rw [u6.vec (u5 _ _ _ vy4).1, u5.vec vy4, ay4, ay]
    funext d
    rw [Fin.prod_univ_three]; rfl
  · dsimp only
    rw [u6.mat vA5, u5.mat vA4, aA4, aA]
  · dsimp only
    rw [u6.mat (u5 _ _ _ vB).1, u5.mat vB, aB]
  · rw [wx]; exact one_ne_zero
  · rw [wy]; exact one_ne_zero
  · refine nz (l := 3) (t := h3.pkg.ut .m) (fun _ => 0) (fun _ => 0) ?_
    rw [aA]
    unfold gateMat
    rw [if_pos (fun _ _ => rfl)]
    rw [if_pos rfl]
    split_ifs
    · exact one_ne_zero
    · exact one_ne_zero
  · refine nz (l := 3) (t := h4.pkg.ut .m) (fun _ => 0) (fun _ => 0) ?_
    rw [aB]
    unfold gateMat
    rw [if_pos (fun _ _ => rfl)]
    rw [if_pos rfl]
    split_ifs
    · exact one_ne_zero
    · exact one_ne_zero

end Ex
end DD
