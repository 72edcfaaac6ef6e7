import Verif.Proofs.ApproxNorm
import Verif.Proofs.State

/-! # Accuracy of making nodes, of building states, of adding and of reading -/

namespace DD

open Pkg UTable JState

variable {R : Type} [Field R] [LinearOrder R] [IsStrictOrderedRing R] [FloorRing R] {J : JCfg R} {τ : R}
variable {s s' s'' : JState R} [HasSqrt R]

/-- An intermediate result that is a diagram over `l` qubits. -/
def JState.SOk (s : JState R) (l : Nat) (e : SEdge R) : Prop := s.NodeOk l e.p ∧ (e.p = none → l = 0 ∨ e.w = none)

theorem Grow.sOk (g : Grow J s s') {l : Nat} {e : SEdge R} (h : s.SOk l e) : s'.SOk l e := ⟨g.nodeOk h.1, h.2⟩

variable [LawfulSqrt R]

theorem kid_err {t w' c u z n n' : Cx R} {τ B : R} (hτ : 0 ≤ τ) (h1 : mag (w' - c) ≤ 3 / 2 * τ) (h2 : mag (c - u) ≤ 3 / 2 * τ)
    (h3 : mag (t * u - z) ≤ 8 / 5 * τ * (1 + mag t)) (hn : mag n ≤ B) (hn' : mag n' ≤ B) (h : n' = n ∨ c = 0) :
    mag (t * (w' * n') - z * n) ≤ 8 / 5 * τ * (1 + 3 * mag t) * B := by
  have ht := mag_nonneg t
  have hB : 0 ≤ B := (mag_nonneg n).trans hn
  have tt := mul_nonneg hτ ht
  rcases h with rfl | rfl
  · have e : t * (w' * n') - z * n' = (t * (w' - c) + t * (c - u) + (t * u - z)) * n' := by ring
    rw [e]
    refine mag_mono_mul ?_ hn
    refine (mag_add _ _).trans ?_
    have a1 := mag_add (t * (w' - c)) (t * (c - u))
    have a2 := mag_mono_mul (le_refl (mag t)) h1
    have a3 := mag_mono_mul (le_refl (mag t)) h2
    linarith
  · rw [sub_zero] at h1
    have e : t * (w' * n') - z * n = t * w' * n' + (-(t * u) + (t * u - z)) * n := by ring
    rw [e]
    refine (mag_add _ _).trans ?_
    have a1 := mag_mono_mul (mag_mono_mul (le_refl (mag t)) h1) hn'
    rw [zero_sub, mag_neg] at h2
    have a2 : mag (-(t * u) + (t * u - z)) ≤ mag t * (3 / 2 * τ) + 8 / 5 * τ * (1 + mag t) := by
      refine (mag_add _ _).trans ?_
      rw [mag_neg]
      exact add_le_add (mag_mono_mul (le_refl _) h2) h3
    have a3 := mag_mono_mul a2 hn
    have tb := mul_nonneg tt hB
    linarith

/-- What making a node guarantees. -/
structure MakeOk (J : JCfg R) (τ : R) (s : JState R) (l : Nat) (es : Fin 2 → SEdge R) (r : JState R × SEdge R) : Prop where
  inv : TInv J τ r.1
  grow : Grow J s r.1
  ok : r.1.SOk (l + 1) r.2
  norm : ∀ N, 0 ≤ N → (sval (es 0).w).mag2 + (sval (es 1).w).mag2 ≤ N * N → mag (sval r.2.w) ≤ rho τ * N
  acc : ∀ d : Fin (l + 1) → Fin 2, mag (sval r.2.w * r.1.namp J (l + 1) r.2.p d -
    sval (es (d (Fin.last l))).w * s.namp J l (es (d (Fin.last l))).p (Fin.init d)) ≤
    8 / 5 * τ * (1 + 3 * mag (sval r.2.w)) * kidW τ ^ l

/-- The end of `makeV`. -/
theorem node_acc (hJ : J.Good) (hτ : 0 ≤ τ) (h0 : TInv J τ s) (h : TInv J τ s') (g : Grow J s s') {l : Nat}
    (hl : l < (s.tab .v).tab.nvars) {es : Fin 2 → SEdge R} (hes : ∀ i, s.SOk l (es i)) {ks : Fin 2 → PtrEdge} {t : Cx R}
    (hv : ∀ i, s'.ValidV J l (ks i)) (hw : ∀ i, mag (s'.ct.cval J.C (ks i).w) ≤ kidW τ)
    (hlow : 1 ≤ HasSqrt.sqrt ((s'.ct.cval J.C (ks 0).w).mag2 + (s'.ct.cval J.C (ks 1).w).mag2) + 6 * τ)
    (hk : ∀ i, ∃ u, mag (s'.ct.cval J.C (ks i).w - u) ≤ 3 / 2 * τ ∧ mag (t * u - sval (es i).w) ≤ 8 / 5 * τ * (1 + mag t) ∧
      ((ks i).p = (es i).p ∨ s'.ct.cval J.C (ks i).w = 0))
    (ht : ∀ N, 0 ≤ N → (sval (es 0).w).mag2 + (sval (es 1).w).mag2 ≤ N * N → mag t ≤ rho τ * N) :
    MakeOk J τ s l es ((s'.nodeV J l ks).1, ⟨some (s'.nodeV J l ks).2, some t⟩) := by
  obtain ⟨n1, n2, n3, n4⟩ := nodeV_grow hJ hτ h (by rw [g.nvars .v]; exact hl) hv hw hlow
  have gt := g.trans n2
  refine ⟨n1, gt, ⟨n3, fun hh => by simp at hh⟩, ht, fun d => ?_⟩
  obtain ⟨u, u1, u2, u3⟩ := hk (d (Fin.last l))
  obtain ⟨p1, p2⟩ := n4 (d (Fin.last l))
  have okk : (s'.nodeV J l ks).1.NodeOk l (ks (d (Fin.last l))).p := n2.nodeOk (hv _).node
  have b1 := namp_bound' hτ n1 l _ (Fin.init d) okk
  have b2 := namp_bound' hτ h0 l _ (Fin.init d) (hes (d (Fin.last l))).1
  show mag (t * (_ * (s'.nodeV J l ks).1.namp J l _ _) - _) ≤ _
  rw [p1]
  refine kid_err hτ p2 u1 u2 b2 b1 ?_
  rcases u3 with u3 | u3
  · left
    rw [u3]
    exact gt.namp h0 n1 _ (hes _).1
  · exact Or.inr u3

omit [HasSqrt R] [LawfulSqrt R] in
theorem cval_zero (s : JState R) : s.ct.cval J.C CNum.zero = 0 := rfl

omit [HasSqrt R] [LawfulSqrt R] in
theorem cval_one (s : JState R) : s.ct.cval J.C CNum.one = 1 := rfl

omit [HasSqrt R] [LawfulSqrt R] in
theorem validV_zeroKid {l : Nat} {e : SEdge R} (h : s.SOk l e) : s.ValidV J l (zeroKid e) := by
  unfold zeroKid
  split_ifs
  · exact .intro ⟨trivial, trivial⟩ h.1 (fun _ => Or.inr rfl)
  · exact .intro ⟨trivial, trivial⟩ trivial (fun _ => Or.inr rfl)

omit [HasSqrt R] [LawfulSqrt R] in
theorem zeroKid_w (e : SEdge R) : (zeroKid e).w = CNum.zero := by unfold zeroKid; split_ifs <;> rfl

omit [HasSqrt R] [LawfulSqrt R] in
theorem validV_kidOf {l : Nat} {e : SEdge R} {c : CNum Loc} (h : s.SOk l e) (hw : e.w ≠ none) (hc : s.ct.LiveC J.C c) :
    s.ValidV J l (kidOf e.p c) := by
  unfold kidOf
  split_ifs
  · exact .intro ⟨trivial, trivial⟩ trivial (fun _ => Or.inr rfl)
  · exact .intro hc h.1 (fun hp => (h.2 hp).imp id (fun e => absurd e hw))

omit [HasSqrt R] [LawfulSqrt R] in
theorem kidOf_w (p : Option Nat) (c : CNum Loc) : (kidOf p c).w = c := by
  unfold kidOf
  split_ifs with h
  · exact h.symm
  · rfl

theorem sval_ne {w : Option (Cx R)} {t : CTab R} (hτ : 0 ≤ t.tol) (h : ¬ t.zeroV (sval w) = true) : w ≠ none := by
  rintro rfl
  exact h (zeroV_zero hτ)

/-- A pair of weights close to a pair of norm one. -/
theorem pair_low {a b : Cx R} {α β : R} (hτ : 0 ≤ τ) (hα : 0 ≤ α) (hβ : 0 ≤ β) (h : 1 ≤ α * α + β * β)
    (ha : α ≤ mag a + 2 * τ) (hb : β ≤ mag b + 4 * τ) : 1 ≤ HasSqrt.sqrt (a.mag2 + b.mag2) + 6 * τ := by
  have h0 : 0 ≤ HasSqrt.sqrt (a.mag2 + b.mag2) := LawfulSqrt.nonneg _
  have h1 := LawfulSqrt.mul_self (a.mag2 + b.mag2) (add_nonneg (Cx.mag2_nonneg _) (Cx.mag2_nonneg _))
  set m := HasSqrt.sqrt (a.mag2 + b.mag2)
  have ma := mag_nonneg a
  have mb := mag_nonneg b
  rw [← mag_sq, ← mag_sq] at h1
  have am : mag a ≤ m := le_of_sq h0 (by nlinarith [mul_self_nonneg (mag b)])
  have bm : mag b ≤ m := le_of_sq h0 (by nlinarith [mul_self_nonneg (mag a)])
  refine le_of_sq (by linarith) ?_
  have h2 : α * α ≤ (mag a + 2 * τ) * (mag a + 2 * τ) := mul_le_mul ha ha hα (by linarith)
  have h3 : β * β ≤ (mag b + 4 * τ) * (mag b + 4 * τ) := mul_le_mul hb hb hβ (by linarith)
  have h4 := mul_le_mul_of_nonneg_left am hτ
  have h5 := mul_le_mul_of_nonneg_left bm hτ
  nlinarith [mul_self_nonneg τ]

set_option maxHeartbeats 800000 in
theorem makeV_spec (hJ : J.Good) (hτ : 0 ≤ τ) (h : TInv J τ s) {l : Nat} (hl : l < (s.tab .v).tab.nvars)
    {es : Fin 2 → SEdge R} (hes : ∀ i, s.SOk l (es i)) : MakeOk J τ s l es (s.makeV J l es) := by
  have htol := h.tol hJ hτ
  have ht0 : 0 ≤ s.ct.tol := by rw [htol]; exact hτ
  have g1 := kidW_one hτ
  have gt : kidW τ = 1 + 16 / 5 * τ := rfl
  unfold JState.makeV
  dsimp only
  set z0 := sval (es 0).w with hz0
  set z1 := sval (es 1).w with hz1
  have oneOk : ∀ i, ¬ s.ct.zeroV (sval (es i).w) = true → s.ValidV J l ⟨(es i).p, CNum.one⟩ := by
    intro i hi
    refine .intro ⟨trivial, trivial⟩ (hes i).1 (fun hp => ((hes i).2 hp).imp id (fun e => absurd e (sval_ne ht0 hi)))
  have mzero : mag (s.ct.cval J.C CNum.zero) ≤ kidW τ := by rw [cval_zero, mag_zero]; linarith
  have mone : mag (s.ct.cval J.C CNum.one) ≤ kidW τ := by rw [cval_one, mag_one]; exact g1
  have kz : ∀ (i : Fin 2) (t : Cx R), s.ct.zeroV (sval (es i).w) = true →
      ∃ u, mag (s.ct.cval J.C (zeroKid (es i)).w - u) ≤ 3 / 2 * τ ∧ mag (t * u - sval (es i).w) ≤ 8 / 5 * τ * (1 + mag t) ∧
      ((zeroKid (es i)).p = (es i).p ∨ s.ct.cval J.C (zeroKid (es i)).w = 0) := by
    intro i t hi
    have hm := zeroV_mag' ht0 hi
    rw [htol] at hm
    rw [zeroKid_w, cval_zero]
    refine ⟨0, by rw [sub_zero, mag_zero]; linarith, ?_, Or.inr rfl⟩
    rw [mul_zero, zero_sub, mag_neg]
    have := mul_nonneg hτ (mag_nonneg t)
    linarith
  have ko : ∀ (i : Fin 2), ∃ u, mag (s.ct.cval J.C (⟨(es i).p, CNum.one⟩ : PtrEdge).w - u) ≤ 3 / 2 * τ ∧
      mag (sval (es i).w * u - sval (es i).w) ≤ 8 / 5 * τ * (1 + mag (sval (es i).w)) ∧
      ((⟨(es i).p, CNum.one⟩ : PtrEdge).p = (es i).p ∨ s.ct.cval J.C (⟨(es i).p, CNum.one⟩ : PtrEdge).w = 0) := by
    intro i
    refine ⟨1, ?_, ?_, Or.inl rfl⟩
    · show mag (s.ct.cval J.C CNum.one - 1) ≤ _
      rw [cval_one, sub_self, mag_zero]; linarith
    · rw [mul_one, sub_self, mag_zero]
      exact mul_nonneg (by linarith) (by have := mag_nonneg (sval (es i).w); linarith)
  have oneLow : ∀ w : Cx R, 1 ≤ HasSqrt.sqrt ((s.ct.cval J.C CNum.one).mag2 + w.mag2) + 6 * τ := by
    intro w
    refine pair_low (α := 1) (β := 0) hτ (by norm_num) (le_refl _) (by norm_num) ?_ (by have := mag_nonneg w; linarith)
    rw [cval_one, mag_one]; linarith
  have r1 := rho_one hτ
  have up : ∀ (z : Cx R) (N : R), 0 ≤ N → z.mag2 ≤ N * N → mag z ≤ rho τ * N := by
    intro z N hN hz
    refine (mag_le hN hz).trans ?_
    exact le_mul_of_one_le_left hN r1
  by_cases c0 : s.ct.zeroV z0 = true
  · rw [if_pos c0]
    by_cases c1 : s.ct.zeroV z1 = true
    · rw [if_pos c1]
      obtain ⟨a1, a2⟩ := takeV_grow hJ hτ h
      refine ⟨a1, a2, ⟨trivial, fun _ => Or.inr rfl⟩, ?_, fun d => ?_⟩
      · intro N hN _
        show mag (0 : Cx R) ≤ _
        rw [mag_zero]
        exact mul_nonneg (by linarith) hN
      · show mag ((0 : Cx R) * _ - _) ≤ 8 / 5 * τ * (1 + 3 * mag (0 : Cx R)) * _
        rw [zero_mul, zero_sub, mag_neg, mag_zero, mul_zero, add_zero, mul_one]
        refine mag_mono_mul ?_ (namp_bound' hτ h l _ _ (hes _).1)
        have : ∀ i, mag (sval (es i).w) ≤ 8 / 5 * τ := by
          intro i
          suffices hh : mag (sval (es i).w) ≤ 3 / 2 * τ by linarith
          rw [← htol]
          rcases i with ⟨_ | _ | i, hi⟩
          · exact zeroV_mag' ht0 c0
          · exact zeroV_mag' ht0 c1
          · omega
        exact this _
    · rw [if_neg c1]
      refine node_acc hJ hτ h h (.refl s) hl hes ?_ ?_ ?_ ?_ ?_
      rotate_left 2
      · have := oneLow (s.ct.cval J.C (zeroKid (es 0)).w)
        rw [add_comm (Cx.mag2 _)] at this
        exact this
      rotate_left 2
      · rw [Fin.forall_fin_two]
        exact ⟨validV_zeroKid (hes 0), oneOk 1 c1⟩
      · rw [Fin.forall_fin_two]
        refine ⟨?_, mone⟩
        show mag (s.ct.cval J.C (zeroKid (es 0)).w) ≤ _
        rw [zeroKid_w]; exact mzero
      · rw [Fin.forall_fin_two]
        exact ⟨kz 0 z1 c0, ko 1⟩
      · intro N hN hs
        exact up z1 N hN (by have := Cx.mag2_nonneg z0; linarith)
  · rw [if_neg c0]
    by_cases c1 : s.ct.zeroV z1 = true
    · rw [if_pos c1]
      refine node_acc hJ hτ h h (.refl s) hl hes ?_ ?_ ?_ ?_ ?_
      rotate_left 2
      · exact oneLow (s.ct.cval J.C (zeroKid (es 1)).w)
      rotate_left 2
      · rw [Fin.forall_fin_two]
        exact ⟨oneOk 0 c0, validV_zeroKid (hes 1)⟩
      · rw [Fin.forall_fin_two]
        refine ⟨mone, ?_⟩
        show mag (s.ct.cval J.C (zeroKid (es 1)).w) ≤ _
        rw [zeroKid_w]; exact mzero
      · rw [Fin.forall_fin_two]
        exact ⟨ko 0, kz 1 z0 c1⟩
      · intro N hN hs
        exact up z0 N hN (by have := Cx.mag2_nonneg z1; linarith)
    · rw [if_neg c1]
      have nz : ∀ z : Cx R, ¬ s.ct.zeroV z = true → 0 < mag z := by
        intro z hz
        rcases (mag_nonneg z).lt_or_eq with h1 | h1
        · exact h1
        · have := mag_eq_zero h1.symm
          subst this
          exact absurd (zeroV_zero ht0) hz
      have m0 := nz z0 c0
      have m1 := nz z1 c1
      have q0 := mag_sq z0
      have q1 := mag_sq z1
      have tm0 : τ ≤ mag z0 := by have := nzV_mag c0; rwa [htol] at this
      have tm1 : τ ≤ mag z1 := by have := nzV_mag c1; rwa [htol] at this
      obtain ⟨ε, η, hR⟩ := h.rnd.ok
      have ε0 := hR.nn
      have ε1 := hR.one
      have ετ := hR.tol
      set N := HasSqrt.sqrt (z0.mag2 + z1.mag2) with hN
      have n2 : N * N = z0.mag2 + z1.mag2 :=
        LawfulSqrt.mul_self _ (add_nonneg (Cx.mag2_nonneg _) (Cx.mag2_nonneg _))
      have Npos : 0 < N := by
        apply sqrt_pos
        rw [← q0, ← q1]
        have := mul_pos m0 m0
        have := mul_pos m1 m1
        linarith
      have smax : ∀ b : Bool, HasSqrt.sqrt (if b = true then mag2F J.fl z0 else mag2F J.fl z1) =
          HasSqrt.sqrt (mag2F J.fl (if b = true then z0 else z1)) := by
        intro b; cases b <;> rfl
      rw [smax]
      have tN : τ * τ ≤ N * N := by
        rw [n2, ← q0, ← q1]
        have := mul_le_mul tm0 tm0 hτ m0.le
        have := mul_self_nonneg (mag z1)
        linarith
      have hn2 : |J.fl (mag2F J.fl z0 + mag2F J.fl z1) - N * N| ≤ 89 / 10 * ε * (N * N) := by
        have a0 := hR.mag2 tm0
        have a1 := hR.mag2 tm1
        have a2 : |mag2F J.fl z0 + mag2F J.fl z1 - N * N| ≤ 6 * ε * (N * N) := by
          rw [n2]
          have e : mag2F J.fl z0 + mag2F J.fl z1 - (z0.mag2 + z1.mag2) = (mag2F J.fl z0 - z0.mag2) + (mag2F J.fl z1 - z1.mag2) := by ring
          rw [e]
          exact (abs_add_le _ _).trans (by linarith)
        have NN : 0 ≤ ε * (N * N) := mul_nonneg ε0 (mul_self_nonneg N)
        have a3 : |mag2F J.fl z0 + mag2F J.fl z1| ≤ N * N + 6 * ε * (N * N) := by
          have := abs_add_le (N * N) (mag2F J.fl z0 + mag2F J.fl z1 - N * N)
          rw [add_sub_cancel, abs_of_nonneg (mul_self_nonneg N)] at this
          linarith
        have a4 := hR.err (mag2F J.fl z0 + mag2F J.fl z1)
        have a5 := mul_le_mul_of_nonneg_left a3 ε0
        have a6 : ε * (ε * (N * N)) ≤ 1 / 1000 * (ε * (N * N)) := mul_le_mul_of_nonneg_right (by linarith) NN
        have a7 := mul_le_mul_of_nonneg_left tN ε0
        have a8 := hR.eta2
        rw [sq] at a8
        have a9 := abs_add_le (J.fl (mag2F J.fl z0 + mag2F J.fl z1) - (mag2F J.fl z0 + mag2F J.fl z1))
          (mag2F J.fl z0 + mag2F J.fl z1 - N * N)
        rw [sub_add_sub_cancel] at a9
        linarith
      set b := decide (J.fl (mag2F J.fl z0 + s.ct.tol) ≥ mag2F J.fl z1) with hb
      clear_value b
      set mx := if b = true then z0 else z1 with hmx
      set mn := if b = true then z1 else z0 with hmn
      have mxpos : 0 < mag mx := by rw [hmx]; split_ifs <;> assumption
      have tmx : τ ≤ mag mx := by rw [hmx]; split_ifs <;> assumption
      have tmn : τ ≤ mag mn := by rw [hmn]; split_ifs <;> assumption
      have sumsq : mag mx * mag mx + mag mn * mag mn = N * N := by
        rw [n2, ← q0, ← q1, hmx, hmn]; split_ifs
        · rfl
        · rw [add_comm]
      have mxN : mag mx ≤ N := by
        by_contra hn
        push Not at hn
        nlinarith [mul_self_nonneg (mag mn)]
      have mnN : mag mn ≤ N := by
        by_contra hn
        push Not at hn
        nlinarith [mul_self_nonneg (mag mx)]
      have tN' : 11 / 10 * τ ≤ N := by
        refine le_of_sq Npos.le ?_
        have := mul_le_mul tmx tmx hτ mxpos.le
        have := mul_le_mul tmn tmn hτ (mag_nonneg mn)
        have := mul_nonneg hτ hτ
        linarith
      obtain ⟨v1, v2, v3, v4⟩ := hR.vec tmx mxpos mxN hn2 rfl rfl rfl rfl rfl
      set top : Cx R := ⟨J.fl (mx.re * J.fl (J.fl (HasSqrt.sqrt (J.fl (mag2F J.fl z0 + mag2F J.fl z1))) / J.fl (HasSqrt.sqrt (mag2F J.fl mx)))),
        J.fl (mx.im * J.fl (J.fl (HasSqrt.sqrt (J.fl (mag2F J.fl z0 + mag2F J.fl z1))) / J.fl (HasSqrt.sqrt (mag2F J.fl mx))))⟩ with htop
      set α := J.fl (J.fl (HasSqrt.sqrt (mag2F J.fl mx)) / J.fl (HasSqrt.sqrt (J.fl (mag2F J.fl z0 + mag2F J.fl z1)))) with hα
      clear_value top α
      have εN : 0 ≤ ε * N := mul_nonneg ε0 Npos.le
      have τN : 1000 * (ε * N) ≤ τ * N := by have := mul_le_mul_of_nonneg_right ετ Npos.le; linarith
      have εN1 : 1000 * (ε * N) ≤ N := by have := mul_le_mul_of_nonneg_right ε1 Npos.le; linarith
      have topτ : τ ≤ mag top := by linarith
      have toppos : 0 < mag top := by linarith
      have rr := hR.rho
      have mnTop : mag mn ≤ rho τ * mag top := by
        have a1 : (1 + 40 * ε) * mag top ≤ rho τ * mag top := mul_le_mul_of_nonneg_right rr toppos.le
        have a2 : ε * (N - 31 * ε * N) ≤ ε * mag top := mul_le_mul_of_nonneg_left (by linarith) ε0
        have a3 : ε * (ε * N) ≤ 1 / 1000 * (ε * N) := mul_le_mul_of_nonneg_right (by linarith) εN
        linarith
      obtain ⟨a1, a2, a3, a4⟩ := lookupC_grow hJ hτ h (⟨α, 0⟩ : Cx R)
      set A := s.lookupC J ⟨α, 0⟩ with hA
      have hat : A.1.ct.tol = τ := a1.tol hJ hτ
      have dv := divV_spec (t := A.1.ct) (fl := J.fl) (a := mn) (b := top) (a1.ok hJ hτ) (by rw [hat]; exact tmn) (by rw [hat]; exact topτ)
        toppos (by rw [hat]; exact mnTop)
      rw [hat] at dv
      obtain ⟨d1, d2, d3⟩ := dv
      obtain ⟨b1, b2, b3, b4⟩ := lookupC_grow hJ hτ a1 (A.1.ct.divV J.fl mn top)
      set B := A.1.lookupC J (A.1.ct.divV J.fl mn top) with hB
      have gB := a2.trans b2
      have mof : ∀ x : R, mag (⟨x, 0⟩ : Cx R) = |x| := by
        intro x
        have h1 := mag_sq (⟨x, 0⟩ : Cx R)
        have h0 : (⟨x, 0⟩ : Cx R).mag2 = x * x := by simp [Cx.mag2]
        rw [h0, ← abs_mul_abs_self x] at h1
        have h2 := mag_nonneg (⟨x, 0⟩ : Cx R)
        rcases mul_self_eq_mul_self_iff.1 h1 with h3 | h3
        · exact h3
        · have := abs_nonneg x; linarith
      have r0 : 0 ≤ mag mx / N := div_nonneg mxpos.le Npos.le
      have r1' : mag mx / N ≤ 1 := by rw [div_le_one Npos]; exact mxN
      have mα : |α| ≤ 1 + 27 * ε := by
        have := abs_add_le (mag mx / N) (α - mag mx / N)
        rw [add_sub_cancel, abs_of_nonneg r0] at this
        linarith
      have mA : mag (A.1.ct.cval J.C A.2) ≤ kidW τ := by
        have := mag_le_add (A.1.ct.cval J.C A.2) ⟨α, 0⟩
        rw [mof] at this
        rw [gt]; linarith
      have mB : mag (B.1.ct.cval J.C B.2) ≤ kidW τ := by
        have := mag_le_add (B.1.ct.cval J.C B.2) (A.1.ct.divV J.fl mn top)
        rw [gt]; linarith
      have eA : B.1.ct.cval J.C A.2 = A.1.ct.cval J.C A.2 := b2.cval a3
      have kmax : ∀ i : Fin 2, sval (es i).w = mx → ∃ u, mag (B.1.ct.cval J.C (kidOf (es i).p A.2).w - u) ≤ 3 / 2 * τ ∧
          mag (top * u - sval (es i).w) ≤ 8 / 5 * τ * (1 + mag top) ∧
          ((kidOf (es i).p A.2).p = (es i).p ∨ B.1.ct.cval J.C (kidOf (es i).p A.2).w = 0) := by
        intro i hi
        rw [kidOf_w]
        refine ⟨⟨α, 0⟩, by rw [eA]; exact a4, ?_, ?_⟩
        · rw [hi]
          refine v4.trans ?_
          have := mul_le_mul_of_nonneg_left (by linarith : N ≤ mag top + 31 / 1000 * N) hτ
          linarith
        · unfold kidOf
          split_ifs with hc
          · right; rw [hc]; rfl
          · exact Or.inl rfl
      have kmin : ∀ i : Fin 2, sval (es i).w = mn → ∃ u, mag (B.1.ct.cval J.C (kidOf (es i).p B.2).w - u) ≤ 3 / 2 * τ ∧
          mag (top * u - sval (es i).w) ≤ 8 / 5 * τ * (1 + mag top) ∧
          ((kidOf (es i).p B.2).p = (es i).p ∨ B.1.ct.cval J.C (kidOf (es i).p B.2).w = 0) := by
        intro i hi
        rw [kidOf_w]
        refine ⟨A.1.ct.divV J.fl mn top, b4, by rw [hi]; exact d2, ?_⟩
        unfold kidOf
        split_ifs with hc
        · right; rw [hc]; rfl
        · exact Or.inl rfl
      have ne : ∀ i, (es i).w ≠ none := by
        rw [Fin.forall_fin_two]
        exact ⟨sval_ne ht0 c0, sval_ne ht0 c1⟩
      have okB : ∀ i, B.1.SOk l (es i) := fun i => gB.sOk (hes i)
      have mtop2 : ∀ M, 0 ≤ M → z0.mag2 + z1.mag2 ≤ M * M → mag top ≤ rho τ * M := by
        intro M hM hs
        have a1 : N ≤ M := le_of_sq hM (by rw [n2]; exact hs)
        have a2 : (1 + 40 * ε) * N ≤ rho τ * N := mul_le_mul_of_nonneg_right rr Npos.le
        have a3 : rho τ * N ≤ rho τ * M := mul_le_mul_of_nonneg_left a1 (by linarith)
        linarith
      have mA' : ∀ p, mag (B.1.ct.cval J.C (kidOf p A.2).w) ≤ kidW τ := by
        intro p; rw [kidOf_w, eA]; exact mA
      have mB' : ∀ p, mag (B.1.ct.cval J.C (kidOf p B.2).w) ≤ kidW τ := by
        intro p; rw [kidOf_w]; exact mB
      have low : 1 ≤ HasSqrt.sqrt ((B.1.ct.cval J.C A.2).mag2 + (B.1.ct.cval J.C B.2).mag2) + 6 * τ := by
        refine pair_low (α := mag mx / N) (β := mag mn / N) hτ r0 (div_nonneg (mag_nonneg _) Npos.le) ?_ ?_ ?_
        · rw [div_mul_div_comm, div_mul_div_comm, ← add_div, sumsq, div_self (mul_pos Npos Npos).ne']
        · have := mag_le_add (⟨α, 0⟩ : Cx R) (A.1.ct.cval J.C A.2)
          rw [mof, mag_sub_comm] at this
          rw [eA]
          have h3 := abs_add_le α (mag mx / N - α)
          rw [add_sub_cancel, abs_of_nonneg r0, abs_sub_comm] at h3
          linarith
        · have h1 := mag_le_add (A.1.ct.divV J.fl mn top) (B.1.ct.cval J.C B.2)
          rw [mag_sub_comm] at h1
          generalize mag (A.1.ct.divV J.fl mn top) = q at *
          have q0 : 0 ≤ q + 8 / 5 * τ := by
            by_contra hq
            push Not at hq
            have := mul_neg_of_neg_of_pos hq toppos
            linarith [mag_nonneg mn]
          have h2 : mag mn ≤ (q + 8 / 5 * τ) * (N + 31 * ε * N) := d3.trans (mul_le_mul_of_nonneg_left v1 q0)
          have h3 : mag mn / N ≤ (q + 8 / 5 * τ) * (1 + 31 * ε) := by rw [div_le_iff₀ Npos]; linarith
          have h4 : ε * q ≤ ε * (1 + 8 / 5 * τ) := mul_le_mul_of_nonneg_left d1 ε0
          have h5 : ε * τ ≤ 1 / 1000 * τ := mul_le_mul_of_nonneg_right (by linarith) hτ
          linarith
      refine node_acc hJ hτ h b1 gB hl hes ?_ ?_ ?_ ?_ mtop2
      rotate_left 2
      · cases b
        · show 1 ≤ HasSqrt.sqrt ((B.1.ct.cval J.C (kidOf (es 0).p B.2).w).mag2 + (B.1.ct.cval J.C (kidOf (es 1).p A.2).w).mag2) + 6 * τ
          rw [kidOf_w, kidOf_w, add_comm (Cx.mag2 _)]
          exact low
        · show 1 ≤ HasSqrt.sqrt ((B.1.ct.cval J.C (kidOf (es 0).p A.2).w).mag2 + (B.1.ct.cval J.C (kidOf (es 1).p B.2).w).mag2) + 6 * τ
          rw [kidOf_w, kidOf_w]
          exact low
      rotate_left 1
      · rw [Fin.forall_fin_two]
        cases b
        · exact ⟨validV_kidOf (okB 0) (ne 0) b3, validV_kidOf (okB 1) (ne 1) (b2.liveC a3)⟩
        · exact ⟨validV_kidOf (okB 0) (ne 0) (b2.liveC a3), validV_kidOf (okB 1) (ne 1) b3⟩
      · rw [Fin.forall_fin_two]
        cases b
        · exact ⟨mB' _, mA' _⟩
        · exact ⟨mA' _, mB' _⟩
      · rw [Fin.forall_fin_two]
        cases b
        · exact ⟨kmin 0 rfl, kmax 1 rfl⟩
        · exact ⟨kmax 0 rfl, kmin 1 rfl⟩


theorem MakeOk.norm2 {l : Nat} {es : Fin 2 → SEdge R} {r : JState R × SEdge R} (mk : MakeOk J τ s l es r) :
    mag (sval r.2.w) * mag (sval r.2.w) ≤ rho τ * rho τ * ((sval (es 0).w).mag2 + (sval (es 1).w).mag2) := by
  have h0 := LawfulSqrt.nonneg ((sval (es 0).w).mag2 + (sval (es 1).w).mag2)
  have h1 := LawfulSqrt.mul_self ((sval (es 0).w).mag2 + (sval (es 1).w).mag2) (add_nonneg (Cx.mag2_nonneg _) (Cx.mag2_nonneg _))
  have h2 := mk.norm _ h0 h1.ge
  have h3 := mul_le_mul h2 h2 (mag_nonneg _) ((mag_nonneg _).trans h2)
  calc _ ≤ _ := h3
    _ = rho τ * rho τ * (HasSqrt.sqrt ((sval (es 0).w).mag2 + (sval (es 1).w).mag2) *
          HasSqrt.sqrt ((sval (es 0).w).mag2 + (sval (es 1).w).mag2)) := by ring
    _ = _ := by rw [h1]

/-- Making a node for a vector whose two halves are known up to an error. -/
theorem make_near (hτ : 0 ≤ τ) {l : Nat} (hsm : Small τ l) {es : Fin 2 → SEdge R} (h : TInv J τ s) (hes : ∀ i, s.SOk l (es i))
    {r : JState R × SEdge R} (mk : MakeOk J τ s l es r) {F : Fin 2 → (Fin l → Fin 2) → Cx R} {e : R} (he : 0 ≤ e)
    (hF : ∀ i d, mag (sval (es i).w * s.namp J l (es i).p d - F i d) ≤ e) :
    mag (sval r.2.w) ≤ 51 / 50 * (vnorm (fun d : Fin (l + 1) → Fin 2 => F (d (Fin.last l)) (Fin.init d)) + 3 / 2 * ((3 / 2) ^ l * e)) ∧
    ∀ d : Fin (l + 1) → Fin 2, mag (sval r.2.w * r.1.namp J (l + 1) r.2.p d - F (d (Fin.last l)) (Fin.init d)) ≤
      e + 41 / 25 * τ * (1 + 3 * mag (sval r.2.w)) := by
  obtain ⟨_, s2, _⟩ := hsm.le hτ
  have W : ∀ i, mag (sval (es i).w) ≤ 507 / 500 * (vnorm (F i) + (3 / 2) ^ l * e) := by
    intro i
    have := weight_le hτ (by linarith) h (e := ⟨(es i).p, sval (es i).w⟩) (hes i).1 he (hF i)
    refine this.trans (mul_le_mul_of_nonneg_right (hsm.g' (m := l) hτ (by omega)) ?_)
    have := vnorm_nonneg (F i)
    positivity
  constructor
  · have sp := vnorm_split F
    have nn := vnorm_nonneg (fun d : Fin (l + 1) → Fin 2 => F (d (Fin.last l)) (Fin.init d))
    have hz := mk.norm (507 / 500 * vnorm (fun d : Fin (l + 1) → Fin 2 => F (d (Fin.last l)) (Fin.init d)) +
      3 / 2 * (507 / 500 * ((3 / 2) ^ l * e))) (by positivity) ?_
    · refine hz.trans ?_
      have r1 : rho τ ≤ 1 + 1 / 25000 := (rho_le τ).trans (by linarith)
      have p0 : 0 ≤ (3 / 2 : R) ^ l * e := by positivity
      refine (mul_le_mul_of_nonneg_right r1 (by linarith)).trans ?_
      linarith
    · rw [← mag_sq, ← mag_sq]
      have h0 := LawfulSqrt.nonneg (mag (sval (es 0).w) * mag (sval (es 0).w) + mag (sval (es 1).w) * mag (sval (es 1).w))
      have h1 := LawfulSqrt.mul_self (mag (sval (es 0).w) * mag (sval (es 0).w) + mag (sval (es 1).w) * mag (sval (es 1).w))
        (add_nonneg (mul_self_nonneg _) (mul_self_nonneg _))
      have := two_norm (a0 := 507 / 500 * vnorm (F 0)) (a1 := 507 / 500 * vnorm (F 1))
        (A := 507 / 500 * vnorm (fun d : Fin (l + 1) → Fin 2 => F (d (Fin.last l)) (Fin.init d))) (c := 507 / 500 * ((3 / 2) ^ l * e))
        (by have := vnorm_nonneg (F 0); linarith) (by have := vnorm_nonneg (F 1); linarith) (by linarith) (by positivity)
        (mag_nonneg _) (mag_nonneg _) (by linear_combination (507 / 500) ^ 2 * (-sp)) (by linarith [W 0]) (by linarith [W 1]) h1.le
      rw [← h1]
      exact mul_le_mul this this h0 (h0.trans this)
  · intro d
    have h1 := mk.acc d
    have h2 := hF (d (Fin.last l)) (Fin.init d)
    have h3 := mag_tri (sval r.2.w * r.1.namp J (l + 1) r.2.p d) _ (F (d (Fin.last l)) (Fin.init d)) |>.trans (add_le_add h1 h2)
    have h5 := mag_nonneg (sval r.2.w)
    have h4 : 8 / 5 * τ * (1 + 3 * mag (sval r.2.w)) * kidW τ ^ l ≤ 8 / 5 * τ * (1 + 3 * mag (sval r.2.w)) * (507 / 500) := by
      apply mul_le_mul_of_nonneg_left (hsm.kidW hτ (by omega))
      positivity
    have h6 := mul_nonneg hτ h5
    linarith

/-! ## Building states -/

theorem stateF_acc (hJ : J.Good) (hτ : 0 ≤ τ) : ∀ (l : Nat) (s : JState R) (xs : List (Cx R)), TInv J τ s →
    xs.length = 2 ^ (l + 1) → l < (s.tab .v).tab.nvars →
    TInv J τ (JState.stateF J l s xs).1 ∧ Grow J s (JState.stateF J l s xs).1 ∧
    (JState.stateF J l s xs).1.SOk (l + 1) (JState.stateF J l s xs).2 ∧
    mag (sval (JState.stateF J l s xs).2.w) * mag (sval (JState.stateF J l s xs).2.w) ≤
      rho τ ^ (l + 1) * rho τ ^ (l + 1) * (xs.map Cx.mag2).sum ∧
    ∀ N, 0 ≤ N → (xs.map Cx.mag2).sum ≤ N * N → ∀ d : Fin (l + 1) → Fin 2,
      mag (sval (JState.stateF J l s xs).2.w * (JState.stateF J l s xs).1.namp J (l + 1) (JState.stateF J l s xs).2.p d -
        xs.getD (bitIdx d) 0) ≤ ((l : R) + 1) * (8 / 5 * τ * (1 + 3 * (rho τ ^ (l + 1) * N))) * kidW τ ^ l := by
  have r1' := rho_one hτ
  intro l
  induction l with
  | zero =>
    intro s xs h hl hn
    obtain ⟨x0, x1, rfl⟩ : ∃ x0 x1, xs = [x0, x1] := by
      match xs, hl with
      | [x0, x1], _ => exact ⟨x0, x1, rfl⟩
    have mk := makeV_spec hJ hτ h (l := 0) hn
      (es := ![⟨none, some x0⟩, ⟨none, some x1⟩]) (by
        rw [Fin.forall_fin_two]; exact ⟨⟨trivial, fun _ => Or.inl rfl⟩, ⟨trivial, fun _ => Or.inl rfl⟩⟩)
    have e : JState.stateF J 0 s [x0, x1] = s.makeV J 0 ![⟨none, some x0⟩, ⟨none, some x1⟩] := rfl
    rw [e]
    refine ⟨mk.inv, mk.grow, mk.ok, ?_, fun N hN hs d => ?_⟩
    · have := mk.norm2
      rw [zero_add, pow_one]
      simpa [sval] using this
    · have acc := mk.acc d
      have hm : mag (sval (s.makeV J 0 ![⟨none, some x0⟩, ⟨none, some x1⟩]).2.w) ≤ rho τ * N := by
        refine mk.norm N hN (le_trans ?_ hs)
        simp [sval]
      have e2 : [x0, x1].getD (bitIdx d) 0 = sval ((![⟨none, some x0⟩, ⟨none, some x1⟩] : Fin 2 → SEdge R) (d (Fin.last 0))).w *
          s.namp J 0 ((![⟨none, some x0⟩, ⟨none, some x1⟩] : Fin 2 → SEdge R) (d (Fin.last 0))).p (Fin.init d) := by
        show _ = _ * (1 : Cx R)
        rw [mul_one, bitIdx_snoc]
        have : bitIdx (Fin.init d : Fin 0 → Fin 2) = 0 := by simp [bitIdx]
        rw [this, pow_zero, mul_one, zero_add]
        generalize d (Fin.last 0) = i
        rcases i with ⟨_ | _ | i, hi⟩
        · rfl
        · rfl
        · omega
      rw [e2]
      refine acc.trans ?_
      have : (0 : R) ≤ 8 / 5 * τ := by linarith
      simp only [pow_zero, mul_one, Nat.cast_zero, zero_add, one_mul, pow_one]
      exact mul_le_mul_of_nonneg_left (by linarith) this
  | succ l ih =>
    intro s xs h hl hn
    have hhalf : xs.length / 2 = 2 ^ (l + 1) := by rw [hl, pow_succ]; simp
    have e : JState.stateF J (l + 1) s xs = (JState.stateF J l (JState.stateF J l s (xs.take (2 ^ (l + 1)))).1 (xs.drop (2 ^ (l + 1)))).1.makeV J (l + 1)
        ![(JState.stateF J l s (xs.take (2 ^ (l + 1)))).2, (JState.stateF J l (JState.stateF J l s (xs.take (2 ^ (l + 1)))).1 (xs.drop (2 ^ (l + 1)))).2] := by
      rw [← hhalf]; rfl
    rw [e]
    obtain ⟨i1, i2, i3, i4, i5⟩ := ih s (xs.take (2 ^ (l + 1))) h (by rw [List.length_take, hl, pow_succ 2 (l + 1)]; omega) (by omega)
    generalize JState.stateF J l s (xs.take (2 ^ (l + 1))) = r0 at *
    obtain ⟨j1, j2, j3, j4, j5⟩ := ih r0.1 (xs.drop (2 ^ (l + 1))) i1 (by rw [List.length_drop, hl, pow_succ 2 (l + 1)]; omega)
      (by rw [i2.nvars .v]; omega)
    generalize JState.stateF J l r0.1 (xs.drop (2 ^ (l + 1))) = r1 at *
    have mk := makeV_spec hJ hτ j1 (l := l + 1) (by rw [j2.nvars .v, i2.nvars .v]; exact hn) (es := ![r0.2, r1.2]) (by
      rw [Fin.forall_fin_two]; exact ⟨j2.sOk i3, j3⟩)
    have hsum : ((xs.take (2 ^ (l + 1))).map Cx.mag2).sum + ((xs.drop (2 ^ (l + 1))).map Cx.mag2).sum = (xs.map Cx.mag2).sum := by
      rw [← List.sum_append, ← List.map_append, List.take_append_drop]
    have nn : ∀ ys : List (Cx R), 0 ≤ (ys.map Cx.mag2).sum := by
      intro ys
      apply List.sum_nonneg
      intro y hy
      obtain ⟨z, _, rfl⟩ := List.mem_map.1 hy
      exact Cx.mag2_nonneg z
    have hnorm := mk.norm2
    simp only [Matrix.cons_val_zero, Matrix.cons_val_one] at hnorm
    rw [← mag_sq, ← mag_sq] at hnorm
    have rl := one_le_pow₀ (n := l + 1) r1'
    have hnorm' : mag (sval (r1.1.makeV J (l + 1) ![r0.2, r1.2]).2.w) * mag (sval (r1.1.makeV J (l + 1) ![r0.2, r1.2]).2.w) ≤
        rho τ ^ (l + 1 + 1) * rho τ ^ (l + 1 + 1) * (xs.map Cx.mag2).sum := by
      refine hnorm.trans ?_
      rw [← hsum]
      calc _ ≤ rho τ * rho τ * (rho τ ^ (l + 1) * rho τ ^ (l + 1) * ((xs.take (2 ^ (l + 1))).map Cx.mag2).sum +
            rho τ ^ (l + 1) * rho τ ^ (l + 1) * ((xs.drop (2 ^ (l + 1))).map Cx.mag2).sum) :=
          mul_le_mul_of_nonneg_left (add_le_add i4 j4) (mul_self_nonneg _)
        _ = _ := by rw [pow_succ (rho τ) (l + 1)]; ring
    refine ⟨mk.inv, i2.trans (j2.trans mk.grow), mk.ok, hnorm', fun N hN hs d => ?_⟩
    have hm : mag (sval (r1.1.makeV J (l + 1) ![r0.2, r1.2]).2.w) ≤ rho τ ^ (l + 1 + 1) * N := by
      refine le_of_sq (mul_nonneg (by linarith [one_le_pow₀ (n := l + 1 + 1) r1']) hN) (hnorm'.trans ?_)
      calc _ ≤ rho τ ^ (l + 1 + 1) * rho τ ^ (l + 1 + 1) * (N * N) := mul_le_mul_of_nonneg_left hs (mul_self_nonneg _)
        _ = _ := by ring
    have k0 := i5 N hN (by linarith [nn (xs.drop (2 ^ (l + 1)))]) (Fin.init d)
    have k1 := j5 N hN (by linarith [nn (xs.take (2 ^ (l + 1)))]) (Fin.init d)
    have sub : mag (sval ((![r0.2, r1.2] : Fin 2 → SEdge R) (d (Fin.last (l + 1)))).w *
        r1.1.namp J (l + 1) ((![r0.2, r1.2] : Fin 2 → SEdge R) (d (Fin.last (l + 1)))).p (Fin.init d) - xs.getD (bitIdx d) 0) ≤
        ((l : R) + 1) * (8 / 5 * τ * (1 + 3 * (rho τ ^ (l + 1) * N))) * kidW τ ^ l := by
      rw [bitIdx_snoc]
      generalize d (Fin.last (l + 1)) = i
      have hlt := bitIdx_lt (Fin.init d)
      rcases i with ⟨_ | _ | i, hi⟩
      · show mag (sval r0.2.w * r1.1.namp J (l + 1) r0.2.p (Fin.init d) - xs.getD (bitIdx (Fin.init d) + 0 * 2 ^ (l + 1)) 0) ≤ _
        rw [j2.namp i1 j1 _ i3.1]
        convert k0 using 3
        simp only [List.getD_eq_getElem?_getD, List.getElem?_take]
        rw [if_pos hlt]; simp
      · show mag (sval r1.2.w * r1.1.namp J (l + 1) r1.2.p (Fin.init d) - xs.getD (bitIdx (Fin.init d) + 1 * 2 ^ (l + 1)) 0) ≤ _
        convert k1 using 3
        simp only [List.getD_eq_getElem?_getD, List.getElem?_drop]
        simp [Nat.add_comm]
      · omega
    refine (mag_tri _ _ _).trans ((add_le_add (mk.acc d) sub).trans ?_)
    have g1 := kidW_one hτ
    have gl := kidW_pow hτ l
    have gl' := kidW_pow hτ (l + 1)
    have rm : rho τ ^ (l + 1) * N ≤ rho τ ^ (l + 1 + 1) * N := mul_le_mul_of_nonneg_right (pow_le_pow_right₀ r1' (by omega)) hN
    have rp : 0 ≤ rho τ ^ (l + 1) * N := mul_nonneg (by linarith) hN
    have hA : 0 ≤ 8 / 5 * τ * (1 + 3 * (rho τ ^ (l + 1) * N)) := mul_nonneg (by linarith) (by linarith)
    have hA' : 8 / 5 * τ * (1 + 3 * (rho τ ^ (l + 1) * N)) ≤ 8 / 5 * τ * (1 + 3 * (rho τ ^ (l + 1 + 1) * N)) :=
      mul_le_mul_of_nonneg_left (by linarith) (by linarith)
    have hle : kidW τ ^ l ≤ kidW τ ^ (l + 1) := pow_le_pow_right₀ g1 (by omega)
    have t1 : 8 / 5 * τ * (1 + 3 * mag (sval (r1.1.makeV J (l + 1) ![r0.2, r1.2]).2.w)) * kidW τ ^ (l + 1) ≤
        8 / 5 * τ * (1 + 3 * (rho τ ^ (l + 1 + 1) * N)) * kidW τ ^ (l + 1) := by
      apply mul_le_mul_of_nonneg_right _ (by linarith)
      exact mul_le_mul_of_nonneg_left (by linarith) (by linarith)
    have t2 : ((l : R) + 1) * (8 / 5 * τ * (1 + 3 * (rho τ ^ (l + 1) * N))) * kidW τ ^ l ≤
        ((l : R) + 1) * (8 / 5 * τ * (1 + 3 * (rho τ ^ (l + 1 + 1) * N))) * kidW τ ^ (l + 1) :=
      mul_le_mul (mul_le_mul_of_nonneg_left hA' (by positivity)) hle (by linarith) (mul_nonneg (by positivity) (hA.trans hA'))
    push_cast
    linarith

/-- The end of an operation. -/
theorem finishV_acc (hJ : J.Good) (hτ : 0 ≤ τ) {r : JState R × SEdge R} (h : TInv J τ r.1) {l : Nat} (ho : r.1.SOk l r.2) :
    TInv J τ (JState.finishV J r).1 ∧ Grow J r.1 (JState.finishV J r).1 ∧ (JState.finishV J r).1.ValidV J l (JState.finishV J r).2 ∧
    mag ((JState.finishV J r).1.ct.cval J.C (JState.finishV J r).2.w - sval r.2.w) ≤ 3 / 2 * τ ∧
    ∀ d, mag ((JState.finishV J r).1.vecJ J l (JState.finishV J r).2 d - sval r.2.w * r.1.namp J l r.2.p d) ≤ 3 / 2 * τ * kidW τ ^ l := by
  obtain ⟨s, p, w⟩ := r
  dsimp only at *
  have g := kidW_pow hτ l
  unfold JState.finishV
  cases w with
  | none =>
    dsimp only
    refine ⟨h, .refl s, .intro ⟨trivial, trivial⟩ ho.1 (fun _ => Or.inr rfl), ?_, fun d => ?_⟩
    · show mag (0 - 0) ≤ _
      rw [sub_self, mag_zero]
      linarith
    rw [vecJ_eq]
    show mag (0 * _ - 0 * _) ≤ _
    simp only [zero_mul, sub_self, mag_zero]
    exact mul_nonneg (by linarith) (by linarith)
  | some z =>
    dsimp only
    obtain ⟨a1, a2, a3, a4⟩ := lookupC_grow hJ hτ h z
    refine ⟨a1, a2, .intro a3 (a2.nodeOk ho.1) (fun hp => (ho.2 hp).imp id (fun e => by simp at e)), a4, fun d => ?_⟩
    rw [vecJ_eq]
    dsimp only
    rw [a2.namp h a1 d ho.1]
    show mag (_ * _ - z * _) ≤ _
    rw [← sub_mul]
    exact mag_mono_mul a4 (namp_bound' hτ h l _ d ho.1)

end DD
