import Verif.Proofs.ApproxRenorm
import Verif.Proofs.ApproxInnerAcc
import Verif.Proofs.ApproxGate2

/-! # All states of a package with a tolerance -/

namespace DD

open Pkg UTable JState

variable {R : Type} [Field R] [LinearOrder R] [IsStrictOrderedRing R] [FloorRing R] {J : JCfg R} {τ : R}
variable {s s' s'' : JState R} [HasSqrt R] [LawfulSqrt R]

theorem TStep.inv (hJ : J.Good) (hτ : 0 ≤ τ) (h : TInv J τ s) (hs : TStep J τ s s') : TInv J τ s' := by
  cases hs with
  | makeState xs e hx he => exact (makeState_acc hJ hτ h hx he).1
  | add l x y hx hy => exact (add_acc hJ hτ h hx hy).1
  | makeMatrix M e hx he => exact (makeMatrix_acc hJ hτ h hx he).1
  | transpose l x hx => exact (transpose_acc hJ hτ h hx).1
  | multiply l x y hx hy => exact (multiply_acc hJ hτ h hx hy).1
  | makeIdent n hn hz => exact (makeIdent_acc hJ hτ h hz hn).1
  | makeGate U n controls target e hc hU hz he =>
    have hn : n ≤ (s.tab .m).tab.nvars := by
      by_contra hn
      unfold JState.makeGateDD at he
      rw [if_pos (by omega)] at he
      cases he
    obtain ⟨r, e1, a1, -⟩ := makeGate_acc hJ hτ h hc.sorted target.isLt hc.target hz hn hU.1 hU.2
    rw [e1] at he
    rw [Option.some.injEq] at he
    subst he
    exact a1
  | makeTwoQubitGate U n target0 target1 K e ht hK hU hz he =>
    have hn : n ≤ (s.tab .m).tab.nvars := by
      by_contra hn
      unfold JState.makeTwoQubitGateDD at he
      rw [if_pos (by omega)] at he
      cases he
    obtain ⟨r, e1, a1, -⟩ := makeTwo_acc hJ hτ h (fun e => ht (Fin.ext e)) target0.isLt target1.isLt hz hn hK hU
    rw [e1] at he
    rw [Option.some.injEq] at he
    subst he
    exact a1
  | makeBasisStates n state e hsq hz he =>
    unfold JState.makeBasisStates at he
    split_ifs at he with h1 h2
    rw [Option.some.injEq] at he
    have := (basisLoop_acc hJ hτ hsq h (fun i => state.getD i .zero) n (by omega) hz).1
    rw [he] at this
    exact this
  | makeBasisState n state e hsq hz he =>
    unfold JState.makeBasisState at he
    split_ifs at he with h1
    rw [Option.some.injEq] at he
    have := (basisLoop_acc hJ hτ hsq h (fun i => if state.getD i false then .one else .zero) n (by omega) hz).1
    rw [he] at this
    exact this
  | makeZeroState n e hsq hz he =>
    unfold JState.makeZeroState at he
    split_ifs at he with h1
    rw [Option.some.injEq] at he
    have := (basisLoop_acc hJ hτ hsq h (fun _ => .zero) n (by omega) hz).1
    rw [he] at this
    exact this
  | innerProduct l x y hx hy => exact (innerProduct_acc hJ hτ h hx hy).inv
  | makeNode l es hl hes hz hs =>
    obtain ⟨_, _, u⟩ := makeU_acc hJ hτ hz h hl hes le_rfl hs
    exact u.inv
  | other hst hn hm hc ht hp hid hin =>
    obtain ⟨pin, hi⟩ := h.reach.inv hJ (zero_tol hτ)
    exact h.keep hJ hτ (h.reach.step hst) (hst.agree hJ (zero_tol hτ) hi) (fun a ha => Or.inl (hn a ha))
      (fun a ha => (hm a ha).imp id (fun hv i => validM_kn (hv i)))
      (fun i k hk => Or.inl (hc i k hk)) (fun i k hk => Or.inl (ht i k hk)) (fun i k hk => Or.inl (hp i k hk))
      (fun i k hk => Or.inl (hid i k hk)) (fun i k hk => Or.inl (hin i k hk))

theorem TReach.inv (hJ : J.Good) (hR : J.Rounds τ) (hτ : 0 ≤ τ) (h : TReach J τ s) : TInv J τ s := by
  induction h with
  | init nq nbucket hnb cell =>
    refine ⟨hR, JReach.init (tols := (· = τ)) τ rfl nq nbucket hnb cell, fun a ha => ?_, fun a ha => ?_, fun i k hk => ?_,
      fun i k hk => ?_, fun i k hk => ?_, fun i k hk => ?_, fun i k hk => ?_⟩
    · have : a ∈ (UTable.init J.U nq (nbucket .v) (cell .v)).all := ha
      simp [UTable.all, UTable.init] at this
    · have : a ∈ (UTable.init J.U nq (nbucket .m) (cell .m)).all := ha
      simp [UTable.all, UTable.init] at this
    · simp [JState.init, Cache.empty] at hk
    · simp [JState.init, Cache.empty] at hk
    · simp [JState.init, Cache.empty] at hk
    · simp [JState.init, Cache.empty] at hk
    · simp [JState.init, Cache.empty] at hk
  | step h hs ih => exact hs.inv hJ hτ ih

end DD
