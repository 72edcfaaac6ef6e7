import Verif.Proofs.ApproxCopyLoop

/-! # Accuracy of copies: the weight of the root -/

namespace DD

open Pkg UTable JState

variable {R : Type} [Field R] [LinearOrder R] [IsStrictOrderedRing R] [FloorRing R] {J : JCfg R} {τ : R}
variable {o s s' : JState R} [HasSqrt R] [LawfulSqrt R]

/-- The last step of a copy: the weight of the root is multiplied and looked up. -/
theorem scale_spec (hJ : J.Good) (hτ : 0 ≤ τ) (ho : TInv J τ o) (h : TInv J τ s) {δ : R} (hd0 : 0 ≤ δ) (hδ : δ + 5 * τ ≤ 1 / 100) {n a : Nat}
    (hm : 1000 * ((n : R) + 1) * τ ≤ 1) {e r : PtrEdge} (hv : o.ValidV J n e) (hp : e.p = some a) (hr : RootRes J τ δ o s a r) :
    let q := s.scaleC J (o.ct.cval J.C e.w) r
    TInv J τ q.1 ∧ Grow J s q.1 ∧ (TReach J τ s → TReach J τ q.1) ∧ q.1.ValidV J n q.2 ∧
      (∀ d, |mag (q.1.vecJ J n q.2 d) - mag (o.vecJ J n e d)| ≤ ((n : R) + 1) * (2 * δ + 25 * τ) * (1 + mag (o.ct.cval J.C e.w))) ∧
      (o.Steady J n e.p → ∀ d, mag (q.1.vecJ J n q.2 d - o.vecJ J n e d) ≤ ((n : R) + 1) * (2 * δ + 25 * τ) * (1 + mag (o.ct.cval J.C e.w))) := by
  intro q
  have hnode := hv.node
  rw [hp] at hnode
  have hva : ((o.tab .v).tab.mem a).v + 1 = n := hnode.2
  obtain ⟨b, hb, hcp⟩ := hr.node
  rw [hva] at hcp
  have hphase := hr.phase
  rw [hva] at hphase
  set w := o.ct.cval J.C e.w with hw
  set ρ := s.ct.cval J.C r.w with hρ
  set M : R := 1 + mag w with hM
  have w0 := mag_nonneg w
  have n0 : (0 : R) ≤ n := Nat.cast_nonneg n
  have nt : 0 ≤ (n : R) * τ := mul_nonneg n0 hτ
  have hsz := abs_le.1 hr.size
  have htol := h.tol hJ hτ
  obtain ⟨l1, l2, l3, l4⟩ := lookupC_grow hJ hτ h (s.ct.mulV J.fl ρ w)
  have ms := (mulV_spec (t := s.ct) (h.ok hJ hτ) (a := ρ) (b := w) (p := 51 / 50) (q := M) (by linarith) (by linarith) (by norm_num) (by linarith)).2
  rw [htol] at ms
  have hq1 : q.1 = (s.lookupC J (s.ct.mulV J.fl ρ w)).1 := rfl
  have hq2 : q.2 = ⟨r.p, (s.lookupC J (s.ct.mulV J.fl ρ w)).2⟩ := rfl
  set c := q.1.ct.cval J.C q.2.w with hc
  have hcρ : mag (c - ρ * w) ≤ 3.03 * τ * M := by
    have e1 : c - ρ * w = (c - s.ct.mulV J.fl ρ w) + (s.ct.mulV J.fl ρ w - ρ * w) := by ring
    have := mag_add (c - s.ct.mulV J.fl ρ w) (s.ct.mulV J.fl ρ w - ρ * w)
    rw [← e1] at this
    have l4' : mag (c - s.ct.mulV J.fl ρ w) ≤ 3 / 2 * τ := l4
    have : 0 ≤ τ * mag w := mul_nonneg hτ w0
    nlinarith
  have hcp' := hcp.mono h l1 l2
  have hB : ∀ d, mag (q.1.namp J n (some b) d) ≤ 1.005 := fun d => by
    refine (namp_bound hτ l1 n _ d hcp'.node).trans ((kid_pow hτ n hm).trans ?_)
    linarith
  have v1 : q.1.ValidV J n q.2 := by
    refine ⟨?_, ?_, ?_⟩
    · exact l3.1
    · exact l3.2
    · rw [hq2]; dsimp only; rw [hb]; exact hcp'.node
  have ev : ∀ d, q.1.vecJ J n q.2 d = c * q.1.namp J n (some b) d := fun d => by
    rw [vecJ_eq, ← hc, hq2]; dsimp only; rw [hb]
  have eo : ∀ d, o.vecJ J n e d = w * o.namp J n (some a) d := fun d => by rw [vecJ_eq, hp]
  have hdw : 0 ≤ δ * mag w := mul_nonneg hd0 w0
  have htw : 0 ≤ τ * mag w := mul_nonneg hτ w0
  refine ⟨l1, l2, fun hh => lookupC_reach' hh _, v1, fun d => ?_, fun hst d => ?_⟩
  · rw [ev, eo, mag_mul, mag_mul]
    have k1 : |mag c - mag w| ≤ (δ + 9.43 * τ) * M := by
      have m1 := abs_le.1 (mag_dist hcρ)
      rw [mag_mul] at m1
      rw [abs_le]
      have a1 : (mag ρ - 1) * mag w ≤ (δ + 32 / 5 * τ) * mag w := mul_le_mul_of_nonneg_right hsz.2 w0
      have a2 : -(δ + 32 / 5 * τ) * mag w ≤ (mag ρ - 1) * mag w := mul_le_mul_of_nonneg_right hsz.1 w0
      constructor <;> nlinarith
    have e2 : mag c * mag (q.1.namp J n (some b) d) - mag w * mag (o.namp J n (some a) d) =
        (mag c - mag w) * mag (q.1.namp J n (some b) d) + mag w * (mag (q.1.namp J n (some b) d) - mag (o.namp J n (some a) d)) := by ring
    rw [e2]
    refine (abs_add_le _ _).trans ?_
    rw [abs_mul, abs_mul, abs_of_nonneg w0, abs_of_nonneg (mag_nonneg (q.1.namp J n (some b) d))]
    have b1 : |mag c - mag w| * mag (q.1.namp J n (some b) d) ≤ (δ + 9.43 * τ) * M * 1.005 :=
      mul_le_mul k1 (hB d) (mag_nonneg _) (mul_nonneg (by linarith) (by linarith))
    have b2 : mag w * |mag (q.1.namp J n (some b) d) - mag (o.namp J n (some a) d)| ≤ M * (n * (2 * δ + 25 * τ)) :=
      mul_le_mul (by linarith) (hcp'.mods d) (abs_nonneg _) (by linarith)
    nlinarith
  · rw [ev, eo]
    rw [hp] at hst
    have k1 : mag (c - w) ≤ (δ + 13.43 * τ) * M := by
      have e1 : c - w = (c - ρ * w) + (ρ - 1) * w := by ring
      have := mag_add (c - ρ * w) ((ρ - 1) * w)
      rw [← e1, mag_mul] at this
      have a1 := mul_le_mul_of_nonneg_right (hphase hst) w0
      nlinarith
    have e2 : c * q.1.namp J n (some b) d - w * o.namp J n (some a) d =
        (c - w) * q.1.namp J n (some b) d + w * (q.1.namp J n (some b) d - o.namp J n (some a) d) := by ring
    rw [e2]
    refine (mag_add _ _).trans ?_
    rw [mag_mul, mag_mul]
    have b1 : mag (c - w) * mag (q.1.namp J n (some b) d) ≤ (δ + 13.43 * τ) * M * 1.005 :=
      mul_le_mul k1 (hB d) (mag_nonneg _) (mul_nonneg (by linarith) (by linarith))
    have b2 : mag w * mag (q.1.namp J n (some b) d - o.namp J n (some a) d) ≤ M * (n * (2 * δ + 25 * τ)) :=
      mul_le_mul (by linarith) (hcp'.amps hst d) (mag_nonneg _) (by linarith)
    nlinarith

/-- The order in which the nodes of a vector are copied. -/
theorem order_spec (ho : TInv J τ o) (hty : o.Tidy J) {g : Bool} {n a : Nat} {e : PtrEdge} (hv : o.ValidV J n e) (hp : e.p = some a)
    (hw : o.ct.cval J.C e.w ≠ 0) (hl : g = true ∨ 3 ≤ n) {δ : R} (hs : o.SumsLe J δ n e.p) :
    ∃ N, Trav.Runs (n := 1) g (o.tabV J .v) ((o.tabV J .v).lvl ⟨e.p, o.ct.cval J.C e.w⟩) ⟨some ⟨e.p, o.ct.cval J.C e.w⟩, [], []⟩ (N ++ [a]) ∧
      Topo (n := 2) (o.tabV J .v) n (N ++ [a]) ∧ ∀ b ∈ N ++ [a], o.SumsLe J δ (((o.tab .v).tab.mem b).v + 1) (some b) := by
  have hnode := hv.node
  rw [hp] at hnode
  have hx : Valid (o.tabV J .v) n (⟨e.p, o.ct.cval J.C e.w⟩ : PEdge R) := (valid_some (by exact hp)).2 ⟨hnode.1, hnode.2, hw⟩
  have hc := tidy_children ho hty
  obtain ⟨N, hrun, hN⟩ := Trav.runs (n := 1) (g := g) hc (Trav.allFresh_v _) hx hp trivial hl
  refine ⟨N, hrun, hN, ?_⟩
  have key := Trav.runs_mem (n := 1) (N := fun b => b ∈ (o.tab .v).tab.all ∧ o.SumsLe J δ (((o.tab .v).tab.mem b).v + 1) (some b)) (by
    intro b hb i c hbc
    have vk := (ho.kids b hb.1 i).1
    have hn := vk.node
    have hbc' : (((o.tab .v).tab.mem b).e i).p = some c := hbc
    rw [hbc'] at hn
    have := hb.2.2 i
    rw [hbc', ← hn.2] at this
    exact ⟨hn.1, this⟩) hrun (by
      intro x hx b hb
      cases hx
      dsimp only at hb
      rw [hp] at hb
      cases hb
      rw [hp, ← hnode.2] at hs
      exact ⟨hnode.1, hs⟩) (by simp) (by simp)
  exact fun b hb => (key b hb).2

end DD
