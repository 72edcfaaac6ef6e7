import Verif.Proofs.ApproxGateDD

/-! # Accuracy of basis states -/

namespace DD

open Pkg UTable JState

variable {R : Type} [Field R] [LinearOrder R] [IsStrictOrderedRing R] [FloorRing R] {J : JCfg R} {τ : R}
variable {s s' s'' : JState R} [HasSqrt R] [LawfulSqrt R]

omit [FloorRing R] in
theorem sqrt12_num : (Pkg.sqrt12 : R) * Pkg.sqrt12 = 1 / 2 ∧ 7071 / 10000 ≤ (Pkg.sqrt12 : R) ∧ (Pkg.sqrt12 : R) ≤ 7072 / 10000 := by
  have h1 : (Pkg.sqrt12 : R) * Pkg.sqrt12 = 1 / 2 := LawfulSqrt.mul_self (1 / 2 : R) (by norm_num)
  have h0 : 0 ≤ (Pkg.sqrt12 : R) := LawfulSqrt.nonneg (1 / 2 : R)
  refine ⟨h1, ?_, ?_⟩
  · by_contra hn
    push Not at hn
    have := mul_self_le_mul_self h0 hn.le
    norm_num at this
    linarith
  · by_contra hn
    push Not at hn
    have := mul_self_le_mul_self (by norm_num) hn.le
    norm_num at this
    linarith

theorem lookupSq (hsq : SqOk J τ) (hτ1 : 1000 * τ ≤ 1) {t : CTab R} (ht : t.tol = τ) (hτ : 0 ≤ τ) {x : R} (hx : x = J.C.sq ∨ x = -J.C.sq ∨ x = 0)
    (val : Loc → R) (hv : val .sqrt2_2 = J.C.sq) (hv0 : val .zero = 0) : (t.lookupSigned J.C x).2.val val = x := by
  obtain ⟨q1, q2, q3⟩ := sqrt12_num (R := R)
  have hsq : |J.C.sq - Pkg.sqrt12| ≤ τ := hsq
  have hq := abs_le.1 hsq
  have hpos : 0 < J.C.sq := by linarith [hq.1]
  have look : ∀ t : CTab R, t.tol = τ → (t.lookup J.C J.C.sq).2 = .sqrt2_2 := by
    intro t ht
    unfold CTab.lookup
    dsimp only
    rw [if_neg, if_neg, if_pos]
    · exact (CTab.approxEq_iff (t := { t with lookups := t.lookups + 1 }) (by show 0 ≤ t.tol; rw [ht]; exact hτ)).2
        (by rw [sub_self, abs_zero]; show 0 ≤ t.tol; rw [ht]; exact hτ)
    · unfold CTab.approxOne
      rw [CTab.approxEq_iff (t := { t with lookups := t.lookups + 1 }) (by show 0 ≤ t.tol; rw [ht]; exact hτ)]
      intro h1
      have h1 : |J.C.sq - 1| ≤ t.tol := h1
      rw [ht, abs_le] at h1
      linarith [hq.2, h1.1]
    · unfold CTab.approxZero
      simp only [decide_eq_true_eq]
      intro h1
      have h1 : |J.C.sq| ≤ t.tol := h1
      rw [ht, abs_of_pos hpos] at h1
      linarith [hq.1]
  rcases hx with rfl | rfl | rfl
  · unfold CTab.lookupSigned
    rw [if_neg (not_lt.2 hpos.le)]
    dsimp only
    rw [look t ht]
    simp [TPtr.val, hv]
  · unfold CTab.lookupSigned
    rw [if_pos (by linarith), if_neg (by rw [abs_neg, abs_of_pos hpos, ht, not_lt]; linarith [hq.1])]
    dsimp only
    rw [abs_neg, abs_of_pos hpos, look t ht]
    simp [TPtr.val, hv]
  · unfold CTab.lookupSigned
    rw [if_neg (lt_irrefl _)]
    dsimp only
    have : (t.lookup J.C 0).2 = .zero := by
      unfold CTab.lookup
      dsimp only
      rw [if_pos (by unfold CTab.approxZero; simp only [abs_zero, decide_eq_true_eq]; show 0 ≤ t.tol; rw [ht]; exact hτ)]
    rw [this]
    simp [TPtr.val, hv0]

set_option maxHeartbeats 2000000 in
/-- A node with two weights of the same size. -/
theorem makeU_pair (hJ : J.Good) (hτ : 0 ≤ τ) (hτ1 : 1000 * τ ≤ 1) (hsq : SqOk J τ) (h : TInv J τ s) {l : Nat} (hl : l < (s.tab .v).tab.nvars)
    {p : Option Nat} (hp : s.NodeOk l p) (hp0 : p = none → l = 0) {a b : CNum Loc} {z : Cx R} (ha : s.ct.cval J.C a = ⟨J.C.sq, 0⟩)
    (hb : s.ct.cval J.C b = z) (hz : mag z = J.C.sq) (hm : mag2F J.fl z = mag2F J.fl ⟨J.C.sq, 0⟩) :
    TInv J τ (s.makeU J l ![⟨p, a⟩, ⟨p, b⟩]).1 ∧ Grow J s (s.makeU J l ![⟨p, a⟩, ⟨p, b⟩]).1 ∧
    ∃ (q : Nat) (r : CNum Loc), (s.makeU J l ![⟨p, a⟩, ⟨p, b⟩]).2 = ⟨some q, r⟩ ∧
      (s.makeU J l ![⟨p, a⟩, ⟨p, b⟩]).1.ct.LiveC J.C r ∧ (s.makeU J l ![⟨p, a⟩, ⟨p, b⟩]).1.NodeOk (l + 1) (some q) ∧
      mag ((s.makeU J l ![⟨p, a⟩, ⟨p, b⟩]).1.ct.cval J.C r - 1) ≤ 31 / 10 * τ ∧
      ∀ i : Fin 2, ((((s.makeU J l ![⟨p, a⟩, ⟨p, b⟩]).1.tab .v).tab.mem q).e i).p = p ∧
        mag ((s.makeU J l ![⟨p, a⟩, ⟨p, b⟩]).1.ct.cval J.C r * (s.makeU J l ![⟨p, a⟩, ⟨p, b⟩]).1.ct.cval J.C
          ((((s.makeU J l ![⟨p, a⟩, ⟨p, b⟩]).1.tab .v).tab.mem q).e i).w - ![⟨J.C.sq, 0⟩, z] i) ≤ 63 / 10 * τ := by
  obtain ⟨q1, q2, q3⟩ := sqrt12_num (R := R)
  have hsq : |J.C.sq - Pkg.sqrt12| ≤ τ := hsq
  have hq := abs_le.1 hsq
  set x := (Pkg.sqrt12 : R) with hxd
  set w := J.C.sq with hwd
  have wlo : 7 / 10 ≤ w := by linarith [hq.1]
  have whi : w ≤ 71 / 100 := by linarith [hq.2]
  have htol := h.tol hJ hτ
  have ht0 : 0 ≤ s.ct.tol := by rw [htol]; exact hτ
  have mw : mag (⟨w, 0⟩ : Cx R) = w := by
    have h1 := mag_sq (⟨w, 0⟩ : Cx R)
    have h0 : (⟨w, 0⟩ : Cx R).mag2 = w * w := by simp [Cx.mag2]
    rw [h0] at h1
    rcases mul_self_eq_mul_self_iff.1 h1 with h3 | h3
    · exact h3
    · have := mag_nonneg (⟨w, 0⟩ : Cx R); linarith
  have nzw : ∀ y : Cx R, mag y = w → ¬ s.ct.zeroV y = true := by
    intro y hy hn
    have := zeroV_mag' ht0 hn
    rw [htol, hy] at this
    linarith
  obtain ⟨ε, η, hR⟩ := h.rnd.ok
  have ε0 := hR.nn
  have ε1 := hR.one
  have ετ := hR.tol
  have η0 := hR.eta
  have η1 := hR.eta1
  have e0 : (![⟨p, a⟩, ⟨p, b⟩] : Fin 2 → PtrEdge) 0 = ⟨p, a⟩ := rfl
  have e1 : (![⟨p, a⟩, ⟨p, b⟩] : Fin 2 → PtrEdge) 1 = ⟨p, b⟩ := rfl
  unfold JState.makeU
  dsimp only
  rw [e0, e1]
  dsimp only
  rw [ha, hb, if_neg (nzw _ mw), if_neg (nzw _ hz), hm]
  have tw : τ ≤ mag (⟨w, 0⟩ : Cx R) := by rw [mw]; linarith
  have m2 : (⟨w, 0⟩ : Cx R).mag2 = w * w := by simp [Cx.mag2]
  have ww : 49 / 100 ≤ w * w := by
    have := mul_self_le_mul_self (by norm_num) wlo
    norm_num at this
    exact this
  have ww' : w * w ≤ 51 / 100 := by
    have := mul_self_le_mul_self (by linarith) whi
    norm_num at this
    linarith
  have hm0 := hR.mag2 tw
  rw [m2] at hm0
  have hm0' := abs_le.1 hm0
  have εw := mul_le_mul_of_nonneg_left ww' ε0
  have hfirst : decide (J.fl (mag2F J.fl ⟨w, 0⟩ + s.ct.tol) ≥ mag2F J.fl ⟨w, 0⟩) = true := by
    rw [decide_eq_true_eq, htol]
    have := (abs_le.1 (hR.err (mag2F J.fl ⟨w, 0⟩ + τ))).1
    have hb' : |mag2F J.fl ⟨w, 0⟩ + τ| ≤ 1 := by
      rw [abs_le]
      constructor
      · linarith [hm0'.1]
      · linarith [hm0'.2]
    have := mul_le_mul_of_nonneg_left hb' ε0
    linarith
  simp only [hfirst, if_true]
  set N := 2 * x * w with hNd
  have NN : N * N = w * w + w * w := by
    rw [hNd]
    calc 2 * x * w * (2 * x * w) = 4 * (x * x) * (w * w) := by ring
      _ = w * w + w * w := by rw [q1]; ring
  have xw1 : |N - 1| ≤ 142 / 100 * τ := by
    have e : N - 1 = 2 * x * (w - x) := by rw [hNd]; linear_combination (2 : R) * q1
    rw [e, abs_mul, abs_of_nonneg (by linarith)]
    have := mul_le_mul_of_nonneg_left hsq (by linarith : 0 ≤ 2 * x)
    have h2 := mul_le_mul_of_nonneg_right q3 hτ
    linarith
  have xw2 := abs_le.1 xw1
  have Npos : 0 < N := by linarith [xw2.1]
  have hn2 : |J.fl (mag2F J.fl ⟨w, 0⟩ + mag2F J.fl ⟨w, 0⟩) - N * N| ≤ 89 / 10 * ε * (N * N) := by
    have a4 := hR.err (mag2F J.fl ⟨w, 0⟩ + mag2F J.fl ⟨w, 0⟩)
    have hb' : |mag2F J.fl ⟨w, 0⟩ + mag2F J.fl ⟨w, 0⟩| ≤ (w * w + w * w) + 12 * ε * (w * w) := by
      rw [abs_le]
      constructor
      · linarith [hm0'.1, mul_nonneg ε0 (mul_self_nonneg w)]
      · linarith [hm0'.2]
    have a5 := mul_le_mul_of_nonneg_left hb' ε0
    have a7 := mul_le_mul_of_nonneg_left ww ε0
    have a6 : ε * (ε * (w * w)) ≤ 1 / 1000 * (ε * (w * w)) := mul_le_mul_of_nonneg_right (by linarith) (by positivity)
    have a8 : η ≤ ε * τ := hR.eta3
    have a9 : ε * τ ≤ ε * (1 / 1000) := mul_le_mul_of_nonneg_left (by linarith) ε0
    rw [NN]
    have := abs_add_le (J.fl (mag2F J.fl ⟨w, 0⟩ + mag2F J.fl ⟨w, 0⟩) - (mag2F J.fl ⟨w, 0⟩ + mag2F J.fl ⟨w, 0⟩))
      (mag2F J.fl ⟨w, 0⟩ + mag2F J.fl ⟨w, 0⟩ - (w * w + w * w))
    rw [sub_add_sub_cancel] at this
    have h2 : |mag2F J.fl ⟨w, 0⟩ + mag2F J.fl ⟨w, 0⟩ - (w * w + w * w)| ≤ 12 * ε * (w * w) := by
      rw [abs_le]; constructor <;> linarith [hm0'.1, hm0'.2]
    linarith
  have wN : mag (⟨w, 0⟩ : Cx R) ≤ N := by rw [mw]; linarith [xw2.1]
  obtain ⟨v1, v2, v3, v4⟩ := hR.vec tw (by rw [mw]; linarith) wN hn2 rfl rfl rfl rfl rfl
  set top : Cx R := ⟨J.fl (w * J.fl (J.fl (HasSqrt.sqrt (J.fl (mag2F J.fl ⟨w, 0⟩ + mag2F J.fl ⟨w, 0⟩))) / J.fl (HasSqrt.sqrt (mag2F J.fl ⟨w, 0⟩)))),
    J.fl (0 * J.fl (J.fl (HasSqrt.sqrt (J.fl (mag2F J.fl ⟨w, 0⟩ + mag2F J.fl ⟨w, 0⟩))) / J.fl (HasSqrt.sqrt (mag2F J.fl ⟨w, 0⟩))))⟩ with htop
  set α := J.fl (J.fl (HasSqrt.sqrt (mag2F J.fl ⟨w, 0⟩)) / J.fl (HasSqrt.sqrt (J.fl (mag2F J.fl ⟨w, 0⟩ + mag2F J.fl ⟨w, 0⟩)))) with hα
  clear_value top α
  have mof : ∀ y : R, mag (⟨y, 0⟩ : Cx R) = |y| := by
    intro y
    have h1 := mag_sq (⟨y, 0⟩ : Cx R)
    have h0 : (⟨y, 0⟩ : Cx R).mag2 = y * y := by simp [Cx.mag2]
    rw [h0, ← abs_mul_abs_self y] at h1
    have h2 := mag_nonneg (⟨y, 0⟩ : Cx R)
    rcases mul_self_eq_mul_self_iff.1 h1 with h3 | h3
    · exact h3
    · have := abs_nonneg y; linarith
  have wdN : mag (⟨w, 0⟩ : Cx R) / N = x := by
    rw [mw, div_eq_iff Npos.ne', hNd]
    linear_combination (-2 * w) * q1
  rw [wdN] at v3
  have εN := mul_le_mul_of_nonneg_left (by linarith [xw2.2] : N ≤ 101 / 100) ε0
  have mtop : mag top ≤ 105 / 100 := by linarith [xw2.2]
  have dx : mag ((⟨α, 0⟩ : Cx R) - ⟨x, 0⟩) ≤ 27 * ε := by
    have : (⟨α, 0⟩ : Cx R) - ⟨x, 0⟩ = ⟨α - x, 0⟩ := by ext <;> simp
    rw [this, mof]; exact v3
  have dtop : mag (top - ⟨N, 0⟩) ≤ 13 / 100 * τ := by
    have e : top - ⟨N, 0⟩ = ((top * ⟨α, 0⟩ - ⟨w, 0⟩) - top * (⟨α, 0⟩ - ⟨x, 0⟩)) * ⟨2 * x, 0⟩ := by
      have e2 : ((top * ⟨α, 0⟩ - ⟨w, 0⟩) - top * (⟨α, 0⟩ - ⟨x, 0⟩)) * ⟨2 * x, 0⟩ = top * (⟨x, 0⟩ * ⟨2 * x, 0⟩) - ⟨w, 0⟩ * ⟨2 * x, 0⟩ := by ring
      rw [e2]
      have e3 : (⟨x, 0⟩ : Cx R) * ⟨2 * x, 0⟩ = 1 := by
        ext
        · simp; linear_combination 2 * q1
        · simp
      rw [e3, mul_one]
      congr 1
      ext
      · simp [hNd]; ring
      · simp
    rw [e, mag_mul, mof, abs_of_nonneg (by linarith)]
    have a1 := mag_mono_mul mtop dx
    have a2 := mag_sub_le (top * ⟨α, 0⟩ - ⟨w, 0⟩) (top * ((⟨α, 0⟩ : Cx R) - ⟨x, 0⟩))
    have a3 : mag ((top * ⟨α, 0⟩ - ⟨w, 0⟩) - top * ((⟨α, 0⟩ : Cx R) - ⟨x, 0⟩)) ≤ 89 * ε := by linarith
    have a4 := mul_le_mul_of_nonneg_right a3 (by linarith : 0 ≤ 2 * x)
    have a5 := mul_le_mul_of_nonneg_left q3 ε0
    linarith
  have dtop1 : mag (top - 1) ≤ 31 / 20 * τ := by
    have e : top - 1 = (top - ⟨N, 0⟩) + ⟨N - 1, 0⟩ := by ext <;> simp
    rw [e]
    have := mag_add (top - ⟨N, 0⟩) ⟨N - 1, 0⟩
    rw [mof] at this
    linarith
  obtain ⟨r1, r2, r3, r4⟩ := lookupC_grow hJ hτ h top
  set r := s.lookupC J top with hr
  clear_value r
  have dr1 : mag (r.1.ct.cval J.C r.2 - 1) ≤ 61 / 20 * τ := by
    have := mag_tri (r.1.ct.cval J.C r.2) top 1
    linarith
  have mr : mag (r.1.ct.cval J.C r.2) ≤ 1 + 61 / 20 * τ := by
    have := mag_le_add (r.1.ct.cval J.C r.2) 1
    rw [mag_one] at this
    linarith
  have mr' : 1 - 61 / 20 * τ ≤ mag (r.1.ct.cval J.C r.2) := by
    have := mag_le_add 1 (r.1.ct.cval J.C r.2)
    rw [mag_one, mag_sub_comm] at this
    linarith
  have rt := r1.tol hJ hτ
  rw [if_neg (by
    intro hn
    have := zeroV_mag' (by rw [rt]; exact hτ) hn
    rw [rt] at this
    linarith)]
  obtain ⟨a1, a2, a3, a4⟩ := lookupC_grow hJ hτ r1 (⟨α, 0⟩ : Cx R)
  set A := r.1.lookupC J ⟨α, 0⟩ with hA
  clear_value A
  have er : A.1.ct.cval J.C r.2 = r.1.ct.cval J.C r.2 := a2.cval r3
  set ρ := r.1.ct.cval J.C r.2 with hρ
  rw [er]
  have hat : A.1.ct.tol = τ := a1.tol hJ hτ
  obtain ⟨d1, d2, d3⟩ := divV_spec (t := A.1.ct) (fl := J.fl) (a := z) (b := ρ) (a1.ok hJ hτ) (by rw [hat, hz]; linarith)
    (by rw [hat]; linarith) (by linarith) (by
      rw [hat, hz]
      have := mul_le_mul_of_nonneg_right (rho_one hτ) (mag_nonneg ρ)
      linarith)
  rw [hat] at d1 d2 d3
  obtain ⟨b1, b2, b3, b4⟩ := lookupC_grow hJ hτ a1 (A.1.ct.divV J.fl z ρ)
  set u := A.1.ct.divV J.fl z ρ with hu
  set B := A.1.lookupC J u with hB
  clear_value B u
  have eA : B.1.ct.cval J.C A.2 = A.1.ct.cval J.C A.2 := b2.cval a3
  have mA1 : mag (B.1.ct.cval J.C A.2 - ⟨x, 0⟩) ≤ 153 / 100 * τ := by
    rw [eA]
    have := mag_tri (A.1.ct.cval J.C A.2) ⟨α, 0⟩ ⟨x, 0⟩
    linarith
  have mx : mag (⟨x, 0⟩ : Cx R) = x := by rw [mof, abs_of_nonneg (by linarith)]
  have mA : mag (B.1.ct.cval J.C A.2) ≤ x + 153 / 100 * τ := by
    have := mag_le_add (B.1.ct.cval J.C A.2) ⟨x, 0⟩
    linarith
  have mA' : x - 153 / 100 * τ ≤ mag (B.1.ct.cval J.C A.2) := by
    have := mag_le_add ⟨x, 0⟩ (B.1.ct.cval J.C A.2)
    rw [mag_sub_comm] at this
    linarith
  have mB : mag (B.1.ct.cval J.C B.2) ≤ 1 + 31 / 10 * τ := by
    have := mag_le_add (B.1.ct.cval J.C B.2) u
    linarith
  have mu' : x - 24 / 5 * τ ≤ mag u := by
    rw [hz] at d3
    have h1 : (mag u + 8 / 5 * τ) * mag ρ ≤ (mag u + 8 / 5 * τ) * (1 + 61 / 20 * τ) :=
      mul_le_mul_of_nonneg_left mr (by have := mag_nonneg u; linarith)
    by_contra hn
    push Not at hn
    have h2 : (mag u + 8 / 5 * τ) * (1 + 61 / 20 * τ) < (x - 16 / 5 * τ) * (1 + 61 / 20 * τ) :=
      mul_lt_mul_of_pos_right (by linarith) (by linarith)
    have h3 := mul_nonneg hτ hτ
    have h4 := mul_le_mul_of_nonneg_right q3 hτ
    linarith [hq.1]
  have mB' : x - 63 / 10 * τ ≤ mag (B.1.ct.cval J.C B.2) := by
    have := mag_le_add u (B.1.ct.cval J.C B.2)
    rw [mag_sub_comm] at this
    linarith
  have kw : kidW τ = 1 + 16 / 5 * τ := rfl
  have kA : kidOf p A.2 = ⟨p, A.2⟩ := by
    unfold kidOf
    rw [if_neg]
    intro hn
    rw [hn, cval_zero, mag_zero] at mA'
    linarith
  have kB : kidOf p B.2 = ⟨p, B.2⟩ := by
    unfold kidOf
    rw [if_neg]
    intro hn
    rw [hn, cval_zero, mag_zero] at mB'
    linarith
  rw [kA, kB]
  have gB := r2.trans (a2.trans b2)
  obtain ⟨n1, n2, n3, n4⟩ := nodeV_grow hJ hτ b1 (l := l) (by rw [gB.nvars .v]; exact hl) (es := ![⟨p, A.2⟩, ⟨p, B.2⟩]) (by
      rw [Fin.forall_fin_two]
      exact ⟨.intro (b2.liveC a3) (gB.nodeOk hp) (fun h0 => Or.inl (hp0 h0)), .intro b3 (gB.nodeOk hp) (fun h0 => Or.inl (hp0 h0))⟩) (by
      rw [Fin.forall_fin_two]
      constructor
      · show mag (B.1.ct.cval J.C A.2) ≤ _
        rw [kw]; linarith
      · show mag (B.1.ct.cval J.C B.2) ≤ _
        rw [kw]; linarith) (by
      show 1 ≤ HasSqrt.sqrt ((B.1.ct.cval J.C A.2).mag2 + (B.1.ct.cval J.C B.2).mag2) + 6 * τ
      have g0 := LawfulSqrt.nonneg ((B.1.ct.cval J.C A.2).mag2 + (B.1.ct.cval J.C B.2).mag2)
      have g1 := LawfulSqrt.mul_self ((B.1.ct.cval J.C A.2).mag2 + (B.1.ct.cval J.C B.2).mag2)
        (add_nonneg (Cx.mag2_nonneg _) (Cx.mag2_nonneg _))
      set m := HasSqrt.sqrt ((B.1.ct.cval J.C A.2).mag2 + (B.1.ct.cval J.C B.2).mag2)
      rw [← mag_sq, ← mag_sq] at g1
      set P := mag (B.1.ct.cval J.C A.2)
      set Q := mag (B.1.ct.cval J.C B.2)
      have g2 : x * (P + Q) ≤ m := by
        refine le_of_sq g0 ?_
        rw [g1]
        have : x * (P + Q) * (x * (P + Q)) = 1 / 2 * ((P + Q) * (P + Q)) := by rw [← q1]; ring
        rw [this]
        have := mul_self_nonneg (P - Q)
        have e : (P - Q) * (P - Q) = 2 * (P * P + Q * Q) - (P + Q) * (P + Q) := by ring
        linarith only [this, e]
      have g3 : x * (2 * x - 783 / 100 * τ) ≤ x * (P + Q) := mul_le_mul_of_nonneg_left (by linarith) (by linarith)
      have g4 := mul_le_mul_of_nonneg_right q3 hτ
      have g5 : x * (2 * x - 783 / 100 * τ) = 1 - 783 / 100 * (x * τ) := by linear_combination (2 : R) * q1
      linarith)
  set n := B.1.nodeV J l ![⟨p, A.2⟩, ⟨p, B.2⟩] with hn
  clear_value n
  have gn := a2.trans (b2.trans n2)
  have ern : n.1.ct.cval J.C r.2 = ρ := gn.cval r3
  refine ⟨n1, r2.trans gn, n.2, r.2, rfl, gn.liveC r3, n3, ?_, ?_⟩
  · show mag (n.1.ct.cval J.C r.2 - 1) ≤ _
    rw [ern]; linarith
  · have main : ∀ {w' v y : Cx R} {e : R}, mag (w' - v) ≤ 3 / 2 * τ → mag (ρ * v - y) ≤ e → mag (ρ * w' - y) ≤ 151 / 100 * τ + e := by
      intro w' v y e hw hv
      have e1 : ρ * w' - y = ρ * (w' - v) + (ρ * v - y) := by ring
      rw [e1]
      refine (mag_add _ _).trans (add_le_add ?_ hv)
      refine (mag_mono_mul mr hw).trans ?_
      have := mul_nonneg hτ hτ
      have : τ * τ ≤ τ * (1 / 1000) := mul_le_mul_of_nonneg_left (by linarith) hτ
      linarith
    rw [Fin.forall_fin_two]
    obtain ⟨k1, k2⟩ := n4 (0 : Fin 2)
    obtain ⟨k3, k4⟩ := n4 (1 : Fin 2)
    refine ⟨⟨k1, ?_⟩, ⟨k3, ?_⟩⟩
    · show mag (n.1.ct.cval J.C r.2 * _ - ⟨w, 0⟩) ≤ _
      rw [ern]
      have step : mag (ρ * ⟨x, 0⟩ - ⟨w, 0⟩) ≤ 32 / 10 * τ := by
        have e : ρ * ⟨x, 0⟩ - ⟨w, 0⟩ = (ρ - 1) * ⟨x, 0⟩ + ⟨x - w, 0⟩ := by
          ext
          · simp; ring
          · simp
        rw [e]
        refine (mag_add _ _).trans ?_
        rw [mag_mul, mx, mof, abs_sub_comm]
        have := mul_le_mul dr1 q3 (by linarith) (by linarith)
        have h2 : |w - x| ≤ τ := hsq
        linarith
      have step2 : mag (ρ * B.1.ct.cval J.C A.2 - ⟨w, 0⟩) ≤ 475 / 100 * τ := by
        have e : ρ * B.1.ct.cval J.C A.2 - ⟨w, 0⟩ = ρ * (B.1.ct.cval J.C A.2 - ⟨x, 0⟩) + (ρ * ⟨x, 0⟩ - ⟨w, 0⟩) := by ring
        rw [e]
        refine (mag_add _ _).trans ?_
        have h2 := mag_mono_mul mr mA1
        have : τ * τ ≤ τ * (1 / 1000) := mul_le_mul_of_nonneg_left (by linarith) hτ
        linarith
      exact (main k2 step2).trans (by linarith)
    · show mag (n.1.ct.cval J.C r.2 * _ - z) ≤ _
      rw [ern]
      have : mag (ρ * B.1.ct.cval J.C B.2 - z) ≤ 151 / 100 * τ + 321 / 100 * τ := by
        refine main b4 (d2.trans ?_)
        have : τ * τ ≤ τ * (1 / 1000) := mul_le_mul_of_nonneg_left (by linarith) hτ
        have h2 := mul_le_mul_of_nonneg_left mr (by linarith : 0 ≤ 8 / 5 * τ)
        linarith
      exact (main k4 this).trans (by linarith)

end DD
