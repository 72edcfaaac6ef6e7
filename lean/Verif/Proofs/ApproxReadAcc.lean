import Verif.Model.ApproxRead
import Verif.Proofs.ApproxInnerAcc
import Verif.Proofs.ApproxGateDD

/-! # Accuracy of reading matrices and of traces -/

namespace DD

open Pkg UTable JState

variable {R : Type} [Field R] [LinearOrder R] [IsStrictOrderedRing R] [FloorRing R] {J : JCfg R} {τ : R}
variable {s s' s'' : JState R} [HasSqrt R] [LawfulSqrt R]

theorem nampM_le (hτ1 : τ < 1) (h : TInv J τ s) {K : Nat → R} (hK : ∀ j, 1 ≤ K j) {l : Nat} {p : Option Nat} (hp : s.NodeM l p)
    (h0 : p = none → l = 0) (hr : s.RowCol J K l p) (r c : Fin l → Fin 2) : mag (s.nampM J l p (fun i => rc (r i) (c i))) ≤ kappa K l :=
  (Finset.single_le_sum (f := fun c : Fin l → Fin 2 => mag (s.nampM J l p (fun i => rc (r i) (c i)))) (fun _ _ => mag_nonneg _)
    (Finset.mem_univ c)).trans (nampM_row hτ1 h hK l p hp h0 hr r)

/-- An entry of an edge. -/
theorem edge_le (hτ1 : τ < 1) (h : TInv J τ s) {K : Nat → R} (hK : ∀ j, 1 ≤ K j) {l : Nat} {e : PtrEdge} (he : s.KnM J τ l e)
    (hr : s.RowCol J K l e.p) {W : R} (hw : mag (s.ct.cval J.C e.w) ≤ W) (r c : Fin l → Fin 2) :
    mag (s.ct.cval J.C e.w * s.nampM J l e.p (fun i => rc (r i) (c i))) ≤ W * kappa K l := by
  have k1 := kappa_one hK l
  have w0 := (mag_nonneg _).trans hw
  by_cases h0 : e.p = none → l = 0
  · exact mag_mono_mul hw (nampM_le hτ1 h hK he.node h0 hr r c)
  · push Not at h0
    rcases he.2.2 h0.1 hτ1 with h1 | h1
    · exact absurd h1 h0.2
    · rw [h1, cval_zero, zero_mul, mag_zero]
      exact mul_nonneg w0 (by linarith)

theorem readMF_acc (hJ : J.Good) (hτ : 0 ≤ τ) (hτ1 : τ < 1) (h : TInv J τ s) {K : Nat → R} (hK : ∀ j, 1 ≤ K j) :
    ∀ (l : Nat) (e : PtrEdge) (amp : Cx R) (r c : Fin l → Fin 2)
    (W A : R), s.KnM J τ l e → s.RowCol J K l e.p → 1 ≤ W → 1 ≤ A → mag (s.ct.cval J.C e.w) ≤ W → mag amp ≤ A →
    mag (readMF J s l e amp r c - amp * s.matJ J l e r c) ≤ 2 * τ * ((l : R) + 1) * (kappa K l * rho τ ^ l) * (W * A) := by
  have ht := h.tol hJ hτ
  have ht0 : 0 ≤ s.ct.tol := by rw [ht]; exact hτ
  have r1 := rho_one hτ
  intro l
  induction l with
  | zero =>
    intro e amp r c W A hv hr hW hA hw ha
    have ms := (mulV_spec (h.ok hJ hτ) hw ha hW hA).2
    rw [ht] at ms
    rw [matJ_eq]
    show mag (s.ct.mulV J.fl (s.ct.cval J.C e.w) amp - amp * (s.ct.cval J.C e.w * 1)) ≤ _
    rw [mul_one, mul_comm amp]
    refine ms.trans ?_
    have := mul_nonneg hτ (by nlinarith : 0 ≤ W * A)
    have k0 : kappa K 0 = 1 := by simp [kappa]
    simp only [Nat.cast_zero, zero_add, mul_one, pow_zero, k0]
    linarith
  | succ l ih =>
    intro e amp r c W A hv hr hW hA hw ha
    have ms := mulV_spec (h.ok hJ hτ) hw ha hW hA
    rw [ht] at ms
    have hWA : 1 ≤ W * A := by nlinarith
    have hRWA : 1 ≤ rho τ * (W * A) := by nlinarith
    have g1 : ∀ m, 1 ≤ kappa K m * rho τ ^ m := fun m => by
      have := kappa_one hK m
      have : (1 : R) ≤ rho τ ^ m := one_le_pow₀ r1
      nlinarith
    have kg : ∀ m, kappa K m ≤ kappa K m * rho τ ^ m := fun m =>
      le_mul_of_one_le_right (by linarith [kappa_one hK m]) (one_le_pow₀ r1)
    have gs : kappa K (l + 1) * rho τ ^ (l + 1) = K l * rho τ * (kappa K l * rho τ ^ l) := by rw [kappa_succ, pow_succ]; ring
    obtain ⟨p, w⟩ := e
    cases p with
    | none =>
      rcases hv.2.2 rfl hτ1 with h0 | h0
      · omega
      · dsimp only at h0
        rw [matJ_eq]
        show mag (s.ct.mulV J.fl (s.ct.cval J.C w) amp - amp * (s.ct.cval J.C w * _)) ≤ _
        rw [h0, cval_zero, mulV_zero_left _ _ ht0 (by rw [ht]; exact hτ1), zero_mul, mul_zero, sub_self, mag_zero]
        have := g1 (l + 1)
        have : (0 : R) ≤ ((l + 1 : Nat) : R) := Nat.cast_nonneg _
        have : 0 ≤ kappa K (l + 1) * rho τ ^ (l + 1) := by linarith
        have : 0 ≤ W * A := by linarith
        positivity
    | some a =>
      have hn := hv.node
      have bd := nampM_le hτ1 h hK hn (by intro h; cases h) hr r c
      have e1 : mag (s.ct.mulV J.fl (s.ct.cval J.C w) amp * s.nampM J (l + 1) (some a) (fun i => rc (r i) (c i)) -
          amp * s.matJ J (l + 1) ⟨some a, w⟩ r c) ≤ 2 * τ * (W * A) * (kappa K (l + 1) * rho τ ^ (l + 1)) := by
        rw [matJ_eq, ← mul_assoc, mul_comm amp, ← sub_mul]
        refine (mag_mono_mul ms.2 (bd.trans (kg _))).trans ?_
        have : 0 ≤ τ * (W * A) * (kappa K (l + 1) * rho τ ^ (l + 1)) := mul_nonneg (mul_nonneg hτ (by linarith)) (by linarith [g1 (l + 1)])
        linarith
      have hl : ((s.tab .m).tab.mem a).v = l := by have := hn.2; omega
      have v1 := h.kidsM a hn.1 (rc (r (Fin.last l)) (c (Fin.last l)))
      rw [hl] at v1
      have rk := hr.2 (rc (r (Fin.last l)) (c (Fin.last l)))
      have wk : mag (s.ct.cval J.C (((s.tab .m).tab.mem a).e (rc (r (Fin.last l)) (c (Fin.last l)))).w) ≤ K l := by
        have h1 := (hr.1 (r (Fin.last l))).1
        have m0 := mag_nonneg (s.ct.cval J.C (((s.tab .m).tab.mem a).e (rc (r (Fin.last l)) 0)).w)
        have m1 := mag_nonneg (s.ct.cval J.C (((s.tab .m).tab.mem a).e (rc (r (Fin.last l)) 1)).w)
        rcases Fin.exists_fin_two.1 ⟨c (Fin.last l), rfl⟩ with h2 | h2 <;> rw [h2] <;> linarith
      have hexp : 2 * τ * (((l + 1 : Nat) : R) + 1) * (kappa K (l + 1) * rho τ ^ (l + 1)) * (W * A) =
          2 * τ * ((l : R) + 1) * (kappa K l * rho τ ^ l) * (K l * (rho τ * (W * A))) + 2 * τ * (W * A) * (kappa K (l + 1) * rho τ ^ (l + 1)) := by
        push_cast; rw [gs]; ring
      rw [hexp]
      refine (mag_tri _ _ _).trans (add_le_add ?_ e1)
      rw [readMF]
      dsimp only
      show mag (_ - s.ct.mulV J.fl (s.ct.cval J.C w) amp *
        (s.ct.cval J.C (((s.tab .m).tab.mem a).e (rc (r (Fin.last l)) (c (Fin.last l)))).w *
          s.nampM J l (((s.tab .m).tab.mem a).e (rc (r (Fin.last l)) (c (Fin.last l)))).p (fun i => rc (Fin.init r i) (Fin.init c i)))) ≤ _
      split_ifs with hz
      · have hz' := zeroV_mag ht0 hz
        rw [ht] at hz'
        rw [zero_sub, mag_neg]
        refine (mag_mono_mul ms.1 (edge_le hτ1 h hK v1 rk hz' (Fin.init r) (Fin.init c))).trans ?_
        have h0 : 0 ≤ 2 * τ * (kappa K l * rho τ ^ l) := mul_nonneg (by linarith) (by linarith [g1 l])
        have n0 : (0 : R) ≤ l := Nat.cast_nonneg l
        have c1 : rho τ * (W * A) * (2 * τ * kappa K l) ≤ 2 * τ * (kappa K l * rho τ ^ l) * (rho τ * (W * A)) := by
          have := mul_le_mul_of_nonneg_left (kg l) (by positivity : 0 ≤ 2 * τ)
          have := mul_le_mul_of_nonneg_right this (by linarith : 0 ≤ rho τ * (W * A))
          linarith
        have c2 : rho τ * (W * A) ≤ ((l : R) + 1) * (K l * (rho τ * (W * A))) := by
          have : rho τ * (W * A) ≤ K l * (rho τ * (W * A)) := le_mul_of_one_le_left (by linarith) (hK l)
          have : K l * (rho τ * (W * A)) ≤ ((l : R) + 1) * (K l * (rho τ * (W * A))) := le_mul_of_one_le_left (by linarith) (by linarith)
          linarith
        refine c1.trans ((mul_le_mul_of_nonneg_left c2 h0).trans (le_of_eq ?_))
        ring
      · have := ih (((s.tab .m).tab.mem a).e (rc (r (Fin.last l)) (c (Fin.last l)))) (s.ct.mulV J.fl (s.ct.cval J.C w) amp) (Fin.init r) (Fin.init c)
          (K l) (rho τ * (W * A)) v1 rk (hK l) hRWA wk ms.1
        rw [matJ_eq] at this
        exact this

/-! ## Traces -/

/-- The trace of the matrix of a node. -/
def JState.trN (J : JCfg R) (s : JState R) (l : Nat) (p : Option Nat) : Cx R := ∑ d : Fin l → Fin 2, s.nampM J l p (fun i => rc (d i) (d i))

theorem trN_le (hτ1 : τ < 1) (h : TInv J τ s) {K : Nat → R} (hK : ∀ j, 1 ≤ K j) {l : Nat} {p : Option Nat} (hp : s.NodeM l p)
    (h0 : p = none → l = 0) (hr : s.RowCol J K l p) : mag (s.trN J l p) ≤ 2 ^ l * kappa K l := by
  unfold JState.trN
  refine (mag_sum _ _).trans ?_
  refine (Finset.sum_le_sum fun d _ => nampM_le hτ1 h hK hp h0 hr d d).trans (le_of_eq ?_)
  rw [Finset.sum_const, Finset.card_univ, Fintype.card_fun, Fintype.card_fin, Fintype.card_fin, nsmul_eq_mul]
  push_cast
  rfl

/-- The trace of an edge. -/
theorem trE_le (hτ1 : τ < 1) (h : TInv J τ s) {K : Nat → R} (hK : ∀ j, 1 ≤ K j) {l : Nat} {e : PtrEdge} (he : s.KnM J τ l e)
    (hr : s.RowCol J K l e.p) {W : R} (hw : mag (s.ct.cval J.C e.w) ≤ W) :
    mag (s.ct.cval J.C e.w * s.trN J l e.p) ≤ W * (2 ^ l * kappa K l) := by
  have k1 := kappa_one hK l
  have w0 := (mag_nonneg _).trans hw
  by_cases h0 : e.p = none → l = 0
  · exact mag_mono_mul hw (trN_le hτ1 h hK he.node h0 hr)
  · push Not at h0
    rcases he.2.2 h0.1 hτ1 with h1 | h1
    · exact absurd h1 h0.2
    · rw [h1, cval_zero, zero_mul, mag_zero]
      have : 0 ≤ kappa K l := by linarith
      positivity

omit [HasSqrt R] [LawfulSqrt R] in
theorem trN_succ (s : JState R) (l a : Nat) : s.trN J (l + 1) (some a) =
    s.ct.cval J.C (((s.tab .m).tab.mem a).e (0 : Fin 4)).w * s.trN J l (((s.tab .m).tab.mem a).e (0 : Fin 4)).p +
    s.ct.cval J.C (((s.tab .m).tab.mem a).e (3 : Fin 4)).w * s.trN J l (((s.tab .m).tab.mem a).e (3 : Fin 4)).p := by
  unfold JState.trN
  rw [Finset.mul_sum, Finset.mul_sum]
  have e := sum_split (fun (k : Fin 2) (c : Fin l → Fin 2) => s.ct.cval J.C (((s.tab .m).tab.mem a).e (rc k k)).w *
    s.nampM J l (((s.tab .m).tab.mem a).e (rc k k)).p (fun i => rc (c i) (c i)))
  rw [Fin.sum_univ_two] at e
  exact e

theorem addT_acc {ε η : R} (hr : Rnd J.fl τ ε η) (ht : s.ct.tol = τ) (hτ : 0 ≤ τ) (x y : OW R) :
    mag (sval (s.addT J x y) - (s.oval J x + s.oval J y)) ≤ 3 / 2 * (ε * mag (s.oval J x + s.oval J y) + η) + 3 / 2 * τ := by
  have h0 := mag_nonneg (s.oval J x + s.oval J y)
  have p := hr.nn
  have q := hr.eta
  have nn : 0 ≤ 3 / 2 * (ε * mag (s.oval J x + s.oval J y) + η) := by positivity
  have zero : ∀ w : OW R, w.isZero = true → s.oval J w = 0 := by
    intro w hw
    cases w with
    | tab c =>
      have : c = CNum.zero := of_decide_eq_true hw
      rw [this]
      exact cval_zero s
    | slot z => cases hw
  unfold JState.addT
  dsimp only
  split_ifs with h1 h2 h2 h3
  · rw [zero x h1, zero y h2]
    simp only [sval, Option.getD_none, add_zero, sub_zero]
    rw [mag_zero, mul_zero, zero_add]
    positivity
  · rw [zero x h1]
    simp only [sval, Option.getD_some, zero_add, sub_self]
    rw [mag_zero]
    rw [zero x h1, zero_add] at nn
    linarith
  · rw [zero y h2]
    simp only [sval, Option.getD_some, add_zero, sub_self]
    rw [mag_zero]
    rw [zero y h2, add_zero] at nn
    linarith
  · have h4 := zeroV_mag' (by rw [ht]; exact hτ) h3
    rw [ht] at h4
    have h5 := mag_tri (0 : Cx R) (addC J.fl (s.oval J x) (s.oval J y)) (s.oval J x + s.oval J y)
    rw [zero_sub, mag_neg, zero_sub, mag_neg] at h5
    have := addC_err hr (s.oval J x) (s.oval J y)
    show mag (0 - (s.oval J x + s.oval J y)) ≤ _
    rw [zero_sub, mag_neg]
    linarith
  · have := addC_err hr (s.oval J x) (s.oval J y)
    show mag (addC J.fl (s.oval J x) (s.oval J y) - _) ≤ _
    linarith

/-- What `trace` yields. -/
structure TrRes (J : JCfg R) (τ : R) (s s' : JState R) (c : CNum Loc) (T : Cx R) (E : R) : Prop where
  inv : TInv J τ s'
  grow : Grow J s s'
  tab : s'.tab = s.tab
  live : s'.ct.LiveC J.C c
  err : mag (s'.ct.cval J.C c - T) ≤ E

theorem tr_num {W Q τ l ε η : R} {S X r z wa T : Cx R} (hτ : 0 ≤ τ) (hl : 0 ≤ l) (hsm : 1000 * (l + 1) * τ ≤ 1) (hQ : 2 ≤ Q) (hW : 1 ≤ W)
    (hε : 0 ≤ ε) (h1 : 1000 * ε ≤ τ) (h2 : η ≤ ε)
    (hX : mag X ≤ Q) (hS : mag (S - X) ≤ 4 * τ * (l + 1) * Q) (hr : mag (r - S) ≤ 3 / 2 * (ε * mag S + η) + 3 / 2 * τ)
    (hz : ∀ p, 1 ≤ p → mag r ≤ p → mag (z - r * wa) ≤ 3 / 2 * τ * (p * W)) (hw : mag wa ≤ W) (hT : mag (T - z) ≤ 3 / 2 * τ) :
    mag (T - wa * X) ≤ 4 * τ * (l + 1 + 1) * Q * W := by
  have lt := mul_nonneg hl hτ
  have t1 : τ ≤ 1 / 1000 := by linarith
  have q0 : 0 ≤ Q := by linarith
  have tQ : 0 ≤ τ * Q := mul_nonneg hτ q0
  have sQ : 4 * τ * (l + 1) * Q ≤ 4 / 1000 * Q := mul_le_mul_of_nonneg_right (by linarith) q0
  have mS : mag S ≤ 1004 / 1000 * Q := by
    have := mag_le_add S X
    linarith
  have rS : mag (r - S) ≤ 77 / 100 * (τ * Q) := by
    have a1 : ε * mag S ≤ ε * (1004 / 1000 * Q) := mul_le_mul_of_nonneg_left mS hε
    have a2 : ε * Q ≤ τ / 1000 * Q := mul_le_mul_of_nonneg_right (by linarith) q0
    have a3 : τ * 2 ≤ τ * Q := mul_le_mul_of_nonneg_left hQ hτ
    linarith
  have tq1 : τ * Q ≤ 1 / 1000 * Q := mul_le_mul_of_nonneg_right t1 q0
  have mr : mag r ≤ 101 / 100 * Q := by
    have := mag_le_add r S
    linarith
  have hz' := hz (101 / 100 * Q) (by linarith) mr
  have rX : mag (r - X) ≤ 4 * τ * (l + 1) * Q + 77 / 100 * (τ * Q) := by
    have := mag_tri r S X
    linarith
  have e1 : mag (r * wa - wa * X) ≤ (4 * τ * (l + 1) * Q + 77 / 100 * (τ * Q)) * W := by
    have : r * wa - wa * X = (r - X) * wa := by ring
    rw [this]
    exact mag_mono_mul rX hw
  have e2 := mag_tri T z (wa * X)
  have e3 := mag_tri z (r * wa) (wa * X)
  have a3 : τ * 2 ≤ τ * Q := mul_le_mul_of_nonneg_left hQ hτ
  have a4 : τ * Q ≤ τ * Q * W := le_mul_of_one_le_right tQ hW
  have hexp : 4 * τ * (l + 1 + 1) * Q * W = 4 * τ * (l + 1) * Q * W + 4 * (τ * Q * W) := by ring
  rw [hexp]
  linarith

theorem traceF_acc (hJ : J.Good) (hτ : 0 ≤ τ) {K : Nat → R} (hK : ∀ j, 1 ≤ K j) : ∀ (l : Nat) (s : JState R) (a : PtrEdge) (W : R),
    1000 * ((l : R) + 1) * τ ≤ 1 → TInv J τ s → s.KnM J τ l a → s.RowCol J K l a.p → 1 ≤ W → mag (s.ct.cval J.C a.w) ≤ W →
    TrRes J τ s (JState.traceF J l s a).1 (JState.traceF J l s a).2 (s.ct.cval J.C a.w * s.trN J l a.p) (4 * τ * ((l : R) + 1) * (2 ^ l * kappa K l) * W) := by
  intro l
  induction l with
  | zero =>
    intro s a W hsm h ha hr hW hw
    have hτ1 : τ < 1 := by push_cast at hsm; linarith
    have ht := h.tol hJ hτ
    have k0 := kappa_one hK 0
    have b0 : 0 ≤ 4 * τ * (((0 : Nat) : R) + 1) * (2 ^ 0 * kappa K 0) * W := by
      have : 0 ≤ kappa K 0 := by linarith
      have : 0 ≤ W := by linarith
      push_cast
      positivity
    have e0 : s.trN J 0 a.p = 1 := by
      unfold JState.trN
      rw [Fintype.sum_unique]
      rfl
    have term : mag (s.ct.cval J.C a.w - s.ct.cval J.C a.w * s.trN J 0 a.p) ≤ 4 * τ * (((0 : Nat) : R) + 1) * (2 ^ 0 * kappa K 0) * W := by
      rw [e0, mul_one, sub_self, mag_zero]
      exact b0
    have zcase : s.ct.zeroV (s.ct.cval J.C a.w) = true → mag (s.ct.cval J.C CNum.zero - s.ct.cval J.C a.w * s.trN J 0 a.p) ≤
        4 * τ * (((0 : Nat) : R) + 1) * (2 ^ 0 * kappa K 0) * W := by
      intro hz
      have hz' := zeroV_mag' (by rw [ht]; exact hτ) hz
      rw [ht] at hz'
      rw [cval_zero, zero_sub, mag_neg]
      refine (trE_le hτ1 h hK ha hr hz').trans ?_
      have k2 : (1 : R) ≤ 2 ^ 0 * kappa K 0 := by rw [pow_zero, one_mul]; exact k0
      generalize (2 ^ 0 * kappa K 0 : R) = P at *
      push_cast
      have a1 : 0 ≤ τ * P := mul_nonneg hτ (by linarith)
      have a2 : τ * P ≤ τ * P * W := le_mul_of_one_le_right a1 hW
      linarith
    unfold JState.traceF
    split_ifs with hz
    · exact ⟨h, .refl s, rfl, (knM_zero (J := J) (τ := τ) (s := s) 0).1, zcase hz⟩
    · cases a.p <;> exact ⟨h, .refl s, rfl, ha.1, term⟩
  | succ l ih =>
    intro s a W hsm h ha hr hW hw
    have n0 : (0 : R) ≤ l := Nat.cast_nonneg l
    have lt := mul_nonneg n0 hτ
    have hsm' : 1000 * (((l : R) + 1) * τ) + 1000 * τ ≤ 1 := by push_cast at hsm; linarith
    have hτ1 : τ < 1 := by linarith
    have ht := h.tol hJ hτ
    have k1 := kappa_one hK (l + 1)
    have p2 : (2 : R) ≤ 2 ^ (l + 1) := by
      rw [pow_succ]
      have : (1 : R) ≤ 2 ^ l := one_le_pow₀ (by norm_num)
      linarith
    have Q2 : (2 : R) ≤ 2 ^ (l + 1) * kappa K (l + 1) := by nlinarith
    unfold JState.traceF
    split_ifs with hz
    · refine ⟨h, .refl s, rfl, (knM_zero (J := J) (τ := τ) (s := s) 0).1, ?_⟩
      have hz' := zeroV_mag' (by rw [ht]; exact hτ) hz
      rw [ht] at hz'
      dsimp only
      rw [cval_zero, zero_sub, mag_neg]
      refine (trE_le hτ1 h hK ha hr hz').trans ?_
      generalize (2 ^ (l + 1) * kappa K (l + 1) : R) = P at *
      push_cast
      have a1 : 0 ≤ τ * P := mul_nonneg hτ (by linarith)
      have a2 : τ * P ≤ τ * P * W := le_mul_of_one_le_right a1 hW
      have a3 : 0 ≤ (l : R) * (τ * P * W) := mul_nonneg n0 (by linarith)
      linarith
    · obtain ⟨p, w⟩ := a
      cases p with
      | none =>
        exfalso
        rcases ha.2.2 rfl hτ1 with h0 | h0
        · omega
        · apply hz
          dsimp only at h0 ⊢
          rw [h0, cval_zero]
          exact zeroV_zero (by rw [ht]; exact hτ)
      | some b =>
        dsimp only at hw ha hr ⊢
        have hn := ha.node
        have hl : ((s.tab .m).tab.mem b).v = l := by have := hn.2; omega
        have kn : ∀ i : Fin 4, s.KnM J τ l (((s.tab .m).tab.mem b).e i) := fun i => by have := h.kidsM b hn.1 i; rwa [hl] at this
        have wk : ∀ k : Fin 2, mag (s.ct.cval J.C (((s.tab .m).tab.mem b).e (rc k k)).w) ≤ K l := by
          intro k
          have h1 := (hr.1 k).1
          have m0 := mag_nonneg (s.ct.cval J.C (((s.tab .m).tab.mem b).e (rc k 0)).w)
          have m1 := mag_nonneg (s.ct.cval J.C (((s.tab .m).tab.mem b).e (rc k 1)).w)
          rcases Fin.exists_fin_two.1 ⟨k, rfl⟩ with h2 | h2 <;> subst h2 <;> linarith
        have w0 : mag (s.ct.cval J.C (((s.tab .m).tab.mem b).e (0 : Fin 4)).w) ≤ K l := wk 0
        have w3 : mag (s.ct.cval J.C (((s.tab .m).tab.mem b).e (3 : Fin 4)).w) ≤ K l := wk 1
        have hr2 : ∀ i : Fin 4, s.RowCol J K l (((s.tab .m).tab.mem b).e i).p := hr.2
        have sm : 1000 * ((l : R) + 1) * τ ≤ 1 := by linarith
        have A := ih s _ (K l) sm h (kn 0) (hr2 0) (hK l) w0
        set t0 := JState.traceF J l s (((s.tab .m).tab.mem b).e (0 : Fin 4)) with ht0
        have c3 : t0.1.ct.cval J.C (((s.tab .m).tab.mem b).e (3 : Fin 4)).w = s.ct.cval J.C (((s.tab .m).tab.mem b).e (3 : Fin 4)).w :=
          A.grow.cval (kn 3).1
        have B := ih t0.1 _ (K l) sm A.inv (A.grow.knM (kn 3)) (A.grow.rowCol h A.inv (kn 3).node (hr2 3)) (hK l) (by rw [c3]; exact w3)
        set t1 := JState.traceF J l t0.1 (((s.tab .m).tab.mem b).e (3 : Fin 4)) with ht1
        have n3 : t0.1.trN J l (((s.tab .m).tab.mem b).e (3 : Fin 4)).p = s.trN J l (((s.tab .m).tab.mem b).e (3 : Fin 4)).p := by
          unfold JState.trN
          refine Finset.sum_congr rfl fun d _ => A.grow.nampM hJ hτ h l _ _ ?_
          intro b' hb'
          exact ((kn 3).2.1 b' hb').1
        have eB := B.err
        rw [c3, n3] at eB
        have eA := A.err
        have t0v : t1.1.ct.cval J.C t0.2 = t0.1.ct.cval J.C t0.2 := B.grow.cval A.live
        -- the first sum only copies
        have r1v : t1.1.oval J (ofS (t0.1.addT J (.tab CNum.zero) (.tab t0.2))) = t1.1.ct.cval J.C t0.2 := by
          unfold JState.addT
          rw [if_pos (by rfl)]
          split_ifs with hz0
          · have : t0.2 = CNum.zero := of_decide_eq_true hz0
            rw [this]
            rfl
          · exact t0v.symm
        obtain ⟨ε, η, q1, q2, q3, q4, q5, q6, q7⟩ := h.rnd
        have R2 := addT_acc (s := t1.1) ⟨q1, q2, q3, q4, q5, q6, q7⟩ (B.inv.tol hJ hτ) hτ
          (ofS (t0.1.addT J (.tab CNum.zero) (.tab t0.2))) (.tab t1.2)
        rw [r1v] at R2
        set r2 := sval (t1.1.addT J (ofS (t0.1.addT J (.tab CNum.zero) (.tab t0.2))) (.tab t1.2)) with hr2'
        have R2' : mag (r2 - (t1.1.ct.cval J.C t0.2 + t1.1.ct.cval J.C t1.2)) ≤
            3 / 2 * (ε * mag (t1.1.ct.cval J.C t0.2 + t1.1.ct.cval J.C t1.2) + η) + 3 / 2 * τ := R2
        have wa : t1.1.ct.cval J.C w = s.ct.cval J.C w := (A.grow.trans B.grow).cval ha.1
        obtain ⟨l1, l2, l3, l4⟩ := lookupC_grow hJ hτ B.inv (t1.1.ct.mulV J.fl r2 (t1.1.ct.cval J.C w))
        refine ⟨l1, (A.grow.trans B.grow).trans l2, (by
          show (lookupC J t1.1 _).1.tab = _
          exact (show (lookupC J t1.1 _).1.tab = t1.1.tab from rfl).trans (B.tab.trans A.tab)), l3, ?_⟩
        have ks : (2 ^ (l + 1) * kappa K (l + 1) : R) = 2 * K l * (2 ^ l * kappa K l) := by rw [kappa_succ, pow_succ]; ring
        have kl := kappa_one hK l
        have P0 : (0 : R) ≤ 2 ^ l * kappa K l := mul_nonneg (by positivity) (by linarith)
        rw [trN_succ]
        have X0 := trE_le hτ1 h hK (kn 0) (hr2 0) w0
        have X3 := trE_le hτ1 h hK (kn 3) (hr2 3) w3
        have fin := tr_num (W := W) (Q := 2 ^ (l + 1) * kappa K (l + 1)) (l := (l : R)) (ε := ε) (η := η)
          (S := t1.1.ct.cval J.C t0.2 + t1.1.ct.cval J.C t1.2) (r := r2) (wa := s.ct.cval J.C w)
          (X := s.ct.cval J.C (((s.tab .m).tab.mem b).e (0 : Fin 4)).w * s.trN J l (((s.tab .m).tab.mem b).e (0 : Fin 4)).p +
            s.ct.cval J.C (((s.tab .m).tab.mem b).e (3 : Fin 4)).w * s.trN J l (((s.tab .m).tab.mem b).e (3 : Fin 4)).p)
          (z := t1.1.ct.mulV J.fl r2 (t1.1.ct.cval J.C w)) hτ n0 sm Q2 hW q1 q2 q5
          (by rw [ks]; refine (mag_add _ _).trans ?_; linarith)
          (by
            rw [ks, t0v]
            have e1 : ∀ p q x y : Cx R, p + q - (x + y) = (p - x) + (q - y) := fun p q x y => by ring
            rw [e1]
            refine (mag_add _ _).trans ?_
            linarith)
          R2' (by
            intro p hp hrp
            have := (mulV_spec (t := t1.1.ct) (fl := J.fl) (B.inv.ok hJ hτ) hrp hw hp hW).2
            rw [B.inv.tol hJ hτ] at this
            rw [wa]
            exact this) hw l4
        push_cast
        exact fin

end DD
