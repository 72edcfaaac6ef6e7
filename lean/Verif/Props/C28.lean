import Verif.Proofs.RealEx

/-!
# C28: basis and zero states
-/

namespace DD

variable {R : Type} [Field R] [LinearOrder R] [IsStrictOrderedRing R] [HasSqrt R] [LawfulSqrt R] {P : PCfg R}
  {h : PHist R}

theorem C28_product (hC : P.C.Good) (hr : PReach P h) {n : Nat} (hn : n ≤ (h.pkg.ut .v).nvars) {state : List Basis}
    (hl : n ≤ state.length) :
    ∃ r, Pkg.makeBasisStates P h.pkg n state = some r ∧ Valid (r.1.ut .v) n r.2 ∧
      vec (r.1.ut .v) n r.2 = (fun d => ∏ i : Fin n, basisAmp (state[i]) (d i)) ∧ Unchanged h.pkg r.1 := by
  unfold Pkg.makeBasisStates
  rw [if_neg (by omega), if_neg (by omega)]
  have o := (basisLoop_spec hC.growth (fun i => state.getD i .zero) n h.pkg (hr.inv hC).wf hn).1
  refine ⟨_, rfl, o.valid, ?_, o.ext.unchanged (hr.inv hC).wf⟩
  rw [o.vec_eq]
  funext d
  refine Finset.prod_congr rfl (fun i _ => ?_)
  have : state.getD i .zero = state[i] := by
    have := i.isLt
    rw [List.getD_eq_getElem?_getD, List.getElem?_eq_getElem (by omega)]; rfl
  rw [this]

theorem bits_prod {n : Nat} (b : Nat → Bool) (d : Fin n → Fin 2) :
    ∏ i : Fin n, basisAmp (R := R) (if b i then .one else .zero) (d i) =
      if d = (fun i : Fin n => if b i then 1 else 0) then 1 else 0 := by
  have h1 : ∀ (c : Bool) (x : Fin 2), basisAmp (R := R) (if c then .one else .zero) x = if x = (if c then 1 else 0) then 1 else 0 := by
    intro c x
    cases c <;> fin_cases x <;> rfl
  simp only [h1]
  by_cases hd : d = (fun i : Fin n => if b i then 1 else 0)
  · rw [if_pos hd]
    refine Finset.prod_eq_one (fun i _ => ?_)
    rw [hd, if_pos rfl]
  · rw [if_neg hd]
    have : ∃ i, d i ≠ if b i then 1 else 0 := by
      by_contra hc; push Not at hc; exact hd (funext hc)
    obtain ⟨i, hi⟩ := this
    exact Finset.prod_eq_zero (Finset.mem_univ i) (if_neg hi)

theorem C28_basis (hC : P.C.Good) (hr : PReach P h) {n : Nat} (hn : n ≤ (h.pkg.ut .v).nvars) {state : List Bool}
    (hl : n ≤ state.length) :
    ∃ r, Pkg.makeBasisState P h.pkg n state = some r ∧ Valid (r.1.ut .v) n r.2 ∧
      vec (r.1.ut .v) n r.2 = (fun d => if d = (fun i : Fin n => if state[i] then 1 else 0) then 1 else 0) ∧
      Unchanged h.pkg r.1 := by
  unfold Pkg.makeBasisState
  rw [if_neg (by omega)]
  have o := (basisLoop_spec hC.growth (fun i => if state.getD i false then .one else .zero) n h.pkg (hr.inv hC).wf hn).1
  refine ⟨_, rfl, o.valid, ?_, o.ext.unchanged (hr.inv hC).wf⟩
  rw [o.vec_eq]
  funext d
  rw [bits_prod (fun i => state.getD i false)]
  have : ∀ i : Fin n, state.getD i false = state[i] := by
    intro i
    have := i.isLt
    rw [List.getD_eq_getElem?_getD, List.getElem?_eq_getElem (by omega)]; rfl
  simp only [this]

theorem C28_zero (hC : P.C.Good) (hr : PReach P h) {n : Nat} (hn : n ≤ (h.pkg.ut .v).nvars) :
    ∃ r, Pkg.makeZeroState P h.pkg n = some r ∧ Valid (r.1.ut .v) n r.2 ∧
      vec (r.1.ut .v) n r.2 = (fun d => if d = 0 then 1 else 0) ∧ Unchanged h.pkg r.1 := by
  unfold Pkg.makeZeroState
  rw [if_neg (by omega)]
  have o := (basisLoop_spec hC.growth (fun _ => .zero) n h.pkg (hr.inv hC).wf hn).1
  refine ⟨_, rfl, o.valid, ?_, o.ext.unchanged (hr.inv hC).wf⟩
  rw [o.vec_eq]
  funext d
  exact bits_prod (fun _ => false) d

omit [LawfulSqrt R] in
/-- Requests for more qubits than the package has, or with too few labels, are rejected. -/
theorem C28_reject {n : Nat} (state : List Basis) (bits : List Bool) :
    (n > (h.pkg.ut .v).nvars → Pkg.makeBasisStates P h.pkg n state = none ∧ Pkg.makeBasisState P h.pkg n bits = none ∧
      Pkg.makeZeroState P h.pkg n = none) ∧
    (state.length < n → Pkg.makeBasisStates P h.pkg n state = none) := by
  refine ⟨fun hn => ⟨?_, ?_, ?_⟩, fun hl => ?_⟩
  · unfold Pkg.makeBasisStates; rw [if_pos hn]
  · unfold Pkg.makeBasisState; rw [if_pos hn]
  · unfold Pkg.makeZeroState; rw [if_pos hn]
  · unfold Pkg.makeBasisStates
    rw [if_pos hl]
    split_ifs <;> rfl

end DD

namespace DD.Ex

/-- The hypotheses are met in a package with contents. -/
example : ∃ h : PHist ℝ, PReach (PR ℝ) h ∧ 3 ≤ (h.pkg.ut .v).nvars ∧ 3 ≤ [Basis.plus, .one, .left].length ∧
    3 ≤ [true, false, true].length ∧ ∃ x ∈ h.held .v, x.w ≠ 0 := by
  obtain ⟨h, x, y, A, B, hr, hn, vx, vy, vA, vB, hx, hA, ax, ay, aA, aB, wx, wy, wA, wB⟩ := setup (R := ℝ)
  exact ⟨h, hr, by rw [hn]; omega, by decide, by decide, x, hx, wx⟩

end DD.Ex
