import Verif.Proofs.ApproxBasisState

/-! # Normalising a vector node again -/

namespace DD

open Pkg UTable JState

variable {R : Type} [Field R] [LinearOrder R] [IsStrictOrderedRing R] [FloorRing R] {J : JCfg R} {τ : R}
variable {s s' s'' : JState R} [HasSqrt R] [LawfulSqrt R]

omit [FloorRing R] in
theorem mag_real (y : R) : mag (⟨y, 0⟩ : Cx R) = |y| := by
  have h1 := mag_sq (⟨y, 0⟩ : Cx R)
  have h0 : (⟨y, 0⟩ : Cx R).mag2 = y * y := by simp [Cx.mag2]
  rw [h0, ← abs_mul_abs_self y] at h1
  have h2 := mag_nonneg (⟨y, 0⟩ : Cx R)
  rcases mul_self_eq_mul_self_iff.1 h1 with h3 | h3
  · exact h3
  · have := abs_nonneg y; linarith

omit [FloorRing R] in
/-- A pair of weights close to a pair of norm one. -/
theorem pair_low' {a b : Cx R} {α β : R} (hτ : 0 ≤ τ) (hα : 0 ≤ α) (hβ : 0 ≤ β) (h : 1 ≤ α * α + β * β)
    (ha : α ≤ mag a + 2 * τ) (hb : β ≤ mag b + 5 * τ) : 1 ≤ HasSqrt.sqrt (a.mag2 + b.mag2) + 6 * τ := by
  have h0 : 0 ≤ HasSqrt.sqrt (a.mag2 + b.mag2) := LawfulSqrt.nonneg _
  have h1 := LawfulSqrt.mul_self (a.mag2 + b.mag2) (add_nonneg (Cx.mag2_nonneg _) (Cx.mag2_nonneg _))
  set m := HasSqrt.sqrt (a.mag2 + b.mag2)
  have ma := mag_nonneg a
  have mb := mag_nonneg b
  rw [← mag_sq, ← mag_sq] at h1
  -- 2 P + 5 Q ≤ √29 m ≤ 6 m
  have k : 2 * mag a + 5 * mag b ≤ 6 * m := by
    refine le_of_sq (by linarith) ?_
    nlinarith [mul_self_nonneg (5 * mag a - 2 * mag b), mul_self_nonneg (mag a), mul_self_nonneg (mag b)]
  refine le_of_sq (by linarith) ?_
  have h2 : α * α ≤ (mag a + 2 * τ) * (mag a + 2 * τ) := mul_le_mul ha ha hα (by linarith)
  have h3 : β * β ≤ (mag b + 5 * τ) * (mag b + 5 * τ) := mul_le_mul hb hb hβ (by linarith)
  have h4 := mul_le_mul_of_nonneg_left k hτ
  nlinarith [mul_self_nonneg τ]

omit [FloorRing R] in
/-- A number whose square is close to one. -/
theorem near_one {x δ : R} (hx : 0 ≤ x) (h : |x * x - 1| ≤ δ) : |x - 1| ≤ δ := by
  rw [abs_le] at *
  obtain ⟨h1, h2⟩ := h
  have hd : 0 ≤ δ := by linarith
  constructor
  · by_contra hn
    push Not at hn
    nlinarith
  · by_contra hn
    push Not at hn
    nlinarith

/-- The weight that is divided out when a node with the weights `z0` and `z1` is normalised. -/
def leadU (J : JCfg R) (s : JState R) (z0 z1 : Cx R) : Cx R :=
  if s.ct.zeroV z0 then z1 else if s.ct.zeroV z1 then z0 else if J.fl (mag2F J.fl z0 + s.ct.tol) ≥ mag2F J.fl z1 then z0 else z1

/-- What normalising a node of norm about one guarantees. -/
structure UOk (J : JCfg R) (τ δ : R) (s : JState R) (l : Nat) (es : Fin 2 → PtrEdge) (u : JState R × PtrEdge) (q : Nat) (r : CNum Loc) : Prop where
  inv : TInv J τ u.1
  grow : Grow J s u.1
  eq : u.2 = ⟨some q, r⟩
  live : u.1.ct.LiveC J.C r
  node : u.1.NodeOk (l + 1) (some q)
  size : |mag (u.1.ct.cval J.C r) - 1| ≤ δ + 2 * τ
  kid : ∀ i : Fin 2, (((u.1.tab .v).tab.mem q).e i).p = (es i).p ∨
    ((((u.1.tab .v).tab.mem q).e i).p = none ∧ mag (u.1.ct.cval J.C (((u.1.tab .v).tab.mem q).e i).w) ≤ 3 / 2 * τ)
  acc : ∀ i : Fin 2, mag (u.1.ct.cval J.C r * u.1.ct.cval J.C (((u.1.tab .v).tab.mem q).e i).w - s.ct.cval J.C (es i).w) ≤ 7 * τ
  lead : ∀ x : R, 0 ≤ x → mag (leadU J s (s.ct.cval J.C (es 0).w) (s.ct.cval J.C (es 1).w) - ⟨x, 0⟩) ≤ 3 / 2 * τ →
    mag (u.1.ct.cval J.C r - 1) ≤ δ + 6 * τ

theorem lookupN_grow (hJ : J.Good) (hτ : 0 ≤ τ) (h : TInv J τ s) {w : CNum Loc} (hw : s.ct.LiveC J.C w) :
    TInv J τ (s.lookupN J w).1 ∧ Grow J s (s.lookupN J w).1 ∧ (s.lookupN J w).1.ct.LiveC J.C (s.lookupN J w).2 ∧
      mag ((s.lookupN J w).1.ct.cval J.C (s.lookupN J w).2 - s.ct.cval J.C w) ≤ 3 / 2 * τ := by
  unfold JState.lookupN
  split_ifs with h0 h1
  · refine ⟨h, .refl s, by rwa [h0] at hw, ?_⟩
    rw [h0, sub_self, mag_zero]; linarith
  · refine ⟨h, .refl s, by rwa [h1] at hw, ?_⟩
    rw [h1, sub_self, mag_zero]; linarith
  · exact lookupC_grow hJ hτ h _

/-- One of the two weights is zero. -/
theorem makeU_one (hJ : J.Good) (hτ : 0 ≤ τ) (hτ1 : 1000 * τ ≤ 1) (h : TInv J τ s) {l : Nat} (hl : l < (s.tab .v).tab.nvars) {es : Fin 2 → PtrEdge}
    (hes : ∀ i, s.ValidV J l (es i)) {δ : R} (hδ : δ ≤ 1 / 100) {j k : Fin 2} (hjk : j ≠ k)
    (hs : |(s.ct.cval J.C (es j).w).mag2 + (s.ct.cval J.C (es k).w).mag2 - 1| ≤ δ)
    (hj : s.ct.zeroV (s.ct.cval J.C (es j).w) = true) (hk : ¬ s.ct.zeroV (s.ct.cval J.C (es k).w) = true)
    (hlead : leadU J s (s.ct.cval J.C (es 0).w) (s.ct.cval J.C (es 1).w) = s.ct.cval J.C (es k).w) {ks : Fin 2 → PtrEdge} (kj : ks j = es j)
    (kk : ks k = ⟨(es k).p, CNum.one⟩) :
    UOk J τ δ s l es (((s.lookupN J (es k).w).1.nodeV J l ks).1, ⟨some ((s.lookupN J (es k).w).1.nodeV J l ks).2, (s.lookupN J (es k).w).2⟩)
      ((s.lookupN J (es k).w).1.nodeV J l ks).2 (s.lookupN J (es k).w).2 := by
  have htol := h.tol hJ hτ
  have ht0 : 0 ≤ s.ct.tol := by rw [htol]; exact hτ
  obtain ⟨c1, c2, c3, c4⟩ := lookupN_grow hJ hτ h (hes k).live
  set c := s.lookupN J (es k).w with hc
  clear_value c
  have all2 : ∀ i : Fin 2, i = j ∨ i = k := by
    intro i
    fin_cases i <;> fin_cases j <;> fin_cases k <;> simp_all
  have hj' := zeroV_mag' ht0 hj
  rw [htol] at hj'
  have ej : c.1.ct.cval J.C (es j).w = s.ct.cval J.C (es j).w := c2.cval (hes j).live
  set zj := s.ct.cval J.C (es j).w with hzj
  set zk := s.ct.cval J.C (es k).w with hzk
  have kw : kidW τ = 1 + 16 / 5 * τ := rfl
  have ττ : τ * τ ≤ τ * (1 / 1000) := mul_le_mul_of_nonneg_left (by linarith) hτ
  have ττ0 : 0 ≤ τ * τ := mul_nonneg hτ hτ
  have j2 : zj.mag2 ≤ 9 / 4 * (τ * τ) := by
    rw [← mag_sq]
    have := mul_le_mul hj' hj' (mag_nonneg _) (by linarith)
    linarith
  have j20 := Cx.mag2_nonneg zj
  have nk : |mag zk - 1| ≤ δ + 1 / 100 * τ := by
    refine near_one (mag_nonneg _) ?_
    rw [mag_sq]
    rw [abs_le] at *
    constructor <;> linarith [hs.1, hs.2]
  have nk' := abs_le.1 nk
  have kz : (ks k).p = none → l = 0 ∨ (ks k).w = CNum.zero := by
    rw [kk]
    intro h0
    refine ((hes k).none h0).imp id (fun e => ?_)
    exfalso
    apply hk
    rw [hzk, e, cval_zero]; exact zeroV_zero ht0
  have hw0 : ∀ i, c.1.ValidV J l (ks i) := by
    intro i
    rcases all2 i with rfl | rfl
    · rw [kj]; exact c2.validV (hes _)
    · rw [kk]
      rw [kk] at kz
      exact .intro ⟨trivial, trivial⟩ (c2.nodeOk (hes _).node) kz
  have wk : c.1.ct.cval J.C (ks k).w = 1 := by rw [kk]; rfl
  have wj : c.1.ct.cval J.C (ks j).w = zj := by rw [kj]; exact ej
  have low : 1 ≤ HasSqrt.sqrt ((c.1.ct.cval J.C (ks 0).w).mag2 + (c.1.ct.cval J.C (ks 1).w).mag2) + 6 * τ := by
    have : (c.1.ct.cval J.C (ks 0).w).mag2 + (c.1.ct.cval J.C (ks 1).w).mag2 = (1 : Cx R).mag2 + zj.mag2 := by
      have : ∀ i j : Fin 2, i ≠ j → ∀ f : Fin 2 → R, f 0 + f 1 = f i + f j := by
        intro i j hij f
        fin_cases i <;> fin_cases j <;> simp_all [add_comm]
      rw [this k j hjk.symm (fun i => (c.1.ct.cval J.C (ks i).w).mag2), wk, wj]
    rw [this]
    refine pair_low' (α := 1) (β := 0) hτ (by norm_num) (le_refl _) (by norm_num) ?_ (by have := mag_nonneg zj; linarith)
    rw [mag_one]; linarith
  obtain ⟨n1, n2, n3, n4⟩ := nodeV_grow hJ hτ c1 (l := l) (by rw [c2.nvars .v]; exact hl) (es := ks) hw0 (by
      intro i
      rcases all2 i with rfl | rfl
      · rw [wj, kw]; linarith
      · rw [wk, kw, mag_one]; linarith) low
  set n := c.1.nodeV J l ks with hn
  clear_value n
  have er : n.1.ct.cval J.C c.2 = c.1.ct.cval J.C c.2 := n2.cval c3
  set ρ := c.1.ct.cval J.C c.2 with hρ
  have dρ := abs_le.1 (mag_dist c4)
  have mρ : mag ρ ≤ 102 / 100 := by linarith
  refine ⟨n1, c2.trans n2, rfl, n2.liveC c3, n3, ?_, fun i => ?_, fun i => ?_, fun x hx hxl => ?_⟩
  · show |mag (n.1.ct.cval J.C c.2) - 1| ≤ _
    rw [er, abs_le]
    constructor <;> linarith
  · left
    rw [(n4 i).1]
    rcases all2 i with rfl | rfl
    · rw [kj]
    · rw [kk]
  · show mag (n.1.ct.cval J.C c.2 * _ - _) ≤ _
    rw [er]
    have h2 := (n4 i).2
    set w := n.1.ct.cval J.C (((n.1.tab .v).tab.mem n.2).e i).w with hw
    rcases all2 i with rfl | rfl
    · rw [wj] at h2
      have e : ρ * w - zj = ρ * (w - zj) + (ρ - 1) * zj := by ring
      show mag (ρ * w - zj) ≤ _
      rw [e]
      have h3 := mag_mono_mul mρ h2
      have h4 : mag (ρ - 1) ≤ 203 / 100 := by
        have := mag_sub_le ρ 1
        rw [mag_one] at this
        linarith
      have h5 := mag_mono_mul h4 hj'
      have h6 := mag_add (ρ * (w - zj)) ((ρ - 1) * zj)
      linarith
    · rw [wk] at h2
      have e : ρ * w - zk = ρ * (w - 1) + (ρ - zk) := by ring
      show mag (ρ * w - zk) ≤ _
      rw [e]
      have h3 := mag_mono_mul mρ h2
      have h6 := mag_add (ρ * (w - 1)) (ρ - zk)
      linarith
  · show mag (n.1.ct.cval J.C c.2 - 1) ≤ _
    rw [er]
    rw [hlead] at hxl
    have h1 := mag_dist hxl
    rw [mag_real, abs_of_nonneg hx] at h1
    have h1' := abs_le.1 h1
    have h2 : mag ((⟨x, 0⟩ : Cx R) - 1) = |x - 1| := by
      rw [← mag_real]
      congr 1
      ext <;> simp
    have h3 : |x - 1| ≤ δ + 151 / 100 * τ := by rw [abs_le]; constructor <;> linarith
    have h4 := mag_tri zk ⟨x, 0⟩ 1
    have h5 := mag_tri ρ zk 1
    linarith

theorem fin2_or {j k : Fin 2} (h : j ≠ k) (i : Fin 2) : i = j ∨ i = k := by
  revert i j k; decide

theorem fin2_sum {j k : Fin 2} (h : j ≠ k) (f : Fin 2 → R) : f 0 + f 1 = f j + f k := by
  rcases fin2_or h 0 with h0 | h0 <;> rcases fin2_or h 1 with h1 | h1
  · exact absurd (h0.trans h1.symm) (by decide)
  · rw [h0, h1]
  · rw [h0, h1, add_comm]
  · exact absurd (h0.trans h1.symm) (by decide)

set_option maxHeartbeats 2000000 in
/-- Both weights are not zero. -/
theorem makeU_two (hJ : J.Good) (hτ : 0 ≤ τ) (hτ1 : 1000 * τ ≤ 1) (h : TInv J τ s) {l : Nat} (hl : l < (s.tab .v).tab.nvars) {es : Fin 2 → PtrEdge}
    (hes : ∀ i, s.ValidV J l (es i)) {δ : R} (hδ : δ ≤ 1 / 100)
    (hs : |(s.ct.cval J.C (es 0).w).mag2 + (s.ct.cval J.C (es 1).w).mag2 - 1| ≤ δ)
    (c0 : ¬ s.ct.zeroV (s.ct.cval J.C (es 0).w) = true) (c1 : ¬ s.ct.zeroV (s.ct.cval J.C (es 1).w) = true) :
    ∃ q r, UOk J τ δ s l es (s.makeU J l es) q r := by
  have htol := h.tol hJ hτ
  have ht0 : 0 ≤ s.ct.tol := by rw [htol]; exact hτ
  have hle : leadU J s (s.ct.cval J.C (es 0).w) (s.ct.cval J.C (es 1).w) =
      if decide (J.fl (mag2F J.fl (s.ct.cval J.C (es 0).w) + s.ct.tol) ≥ mag2F J.fl (s.ct.cval J.C (es 1).w)) = true then s.ct.cval J.C (es 0).w
        else s.ct.cval J.C (es 1).w := by
    unfold leadU
    rw [if_neg c0, if_neg c1]
    simp only [decide_eq_true_eq]
  have hmk : s.makeU J l es = s.makeU J l es := rfl
  conv at hmk => rhs; unfold JState.makeU
  dsimp only at hmk
  rw [if_neg c0, if_neg c1] at hmk
  set z0 := s.ct.cval J.C (es 0).w with hz0
  set z1 := s.ct.cval J.C (es 1).w with hz1
  have nz : ∀ z : Cx R, ¬ s.ct.zeroV z = true → 0 < mag z := by
    intro z hz
    rcases (mag_nonneg z).lt_or_eq with h1 | h1
    · exact h1
    · have := mag_eq_zero h1.symm
      subst this
      exact absurd (zeroV_zero ht0) hz
  have m0 := nz z0 c0
  have m1 := nz z1 c1
  have q0 := mag_sq z0
  have q1 := mag_sq z1
  have tm0 : τ ≤ mag z0 := by have := nzV_mag c0; rwa [htol] at this
  have tm1 : τ ≤ mag z1 := by have := nzV_mag c1; rwa [htol] at this
  obtain ⟨ε, η, hR⟩ := h.rnd.ok
  have ε0 := hR.nn
  have ε1 := hR.one
  have ετ := hR.tol
  have η1 := hR.eta1
  set N := HasSqrt.sqrt (z0.mag2 + z1.mag2) with hN
  have n2 : N * N = z0.mag2 + z1.mag2 :=
    LawfulSqrt.mul_self _ (add_nonneg (Cx.mag2_nonneg _) (Cx.mag2_nonneg _))
  have hN0 : 0 ≤ N := LawfulSqrt.nonneg _
  have hs' := abs_le.1 hs
  have N1 : |N - 1| ≤ δ := near_one hN0 (by rw [n2]; exact hs)
  have N1' := abs_le.1 N1
  have δ0 : 0 ≤ δ := (abs_nonneg _).trans N1
  have Npos : 0 < N := by linarith
  have smax : ∀ b : Bool, HasSqrt.sqrt (if b = true then mag2F J.fl z0 else mag2F J.fl z1) =
      HasSqrt.sqrt (mag2F J.fl (if b = true then z0 else z1)) := by
    intro b; cases b <;> rfl
  rw [smax] at hmk
  have a0 := hR.mag2 tm0
  have a1 := hR.mag2 tm1
  have p0 := Cx.mag2_nonneg z0
  have p1 := Cx.mag2_nonneg z1
  have hn2 : |J.fl (mag2F J.fl z0 + mag2F J.fl z1) - N * N| ≤ 89 / 10 * ε * (N * N) := by
    have tN : τ * τ ≤ N * N := by
      rw [n2, ← q0, ← q1]
      have := mul_le_mul tm0 tm0 hτ m0.le
      have := mul_self_nonneg (mag z1)
      linarith
    have a2 : |mag2F J.fl z0 + mag2F J.fl z1 - N * N| ≤ 6 * ε * (N * N) := by
      rw [n2]
      have e : mag2F J.fl z0 + mag2F J.fl z1 - (z0.mag2 + z1.mag2) = (mag2F J.fl z0 - z0.mag2) + (mag2F J.fl z1 - z1.mag2) := by ring
      rw [e]
      exact (abs_add_le _ _).trans (by linarith)
    have NN : 0 ≤ ε * (N * N) := mul_nonneg ε0 (mul_self_nonneg N)
    have a3 : |mag2F J.fl z0 + mag2F J.fl z1| ≤ N * N + 6 * ε * (N * N) := by
      have := abs_add_le (N * N) (mag2F J.fl z0 + mag2F J.fl z1 - N * N)
      rw [add_sub_cancel, abs_of_nonneg (mul_self_nonneg N)] at this
      linarith
    have a4 := hR.err (mag2F J.fl z0 + mag2F J.fl z1)
    have a5 := mul_le_mul_of_nonneg_left a3 ε0
    have a6 : ε * (ε * (N * N)) ≤ 1 / 1000 * (ε * (N * N)) := mul_le_mul_of_nonneg_right (by linarith) NN
    have a7 := mul_le_mul_of_nonneg_left tN ε0
    have a8 := hR.eta2
    rw [sq] at a8
    have a9 := abs_add_le (J.fl (mag2F J.fl z0 + mag2F J.fl z1) - (mag2F J.fl z0 + mag2F J.fl z1))
      (mag2F J.fl z0 + mag2F J.fl z1 - N * N)
    rw [sub_add_sub_cancel] at a9
    linarith
  -- the weight divided out is not small
  have e0 : |mag2F J.fl z0 - z0.mag2| ≤ 61 / 10 * ε := a0.trans (by
    have := mul_le_mul_of_nonneg_left (by linarith : z0.mag2 ≤ 101 / 100) ε0
    linarith)
  have e1 : |mag2F J.fl z1 - z1.mag2| ≤ 61 / 10 * ε := a1.trans (by
    have := mul_le_mul_of_nonneg_left (by linarith : z1.mag2 ≤ 101 / 100) ε0
    linarith)
  have e0' := abs_le.1 e0
  have e1' := abs_le.1 e1
  have efl : |J.fl (mag2F J.fl z0 + s.ct.tol) - (mag2F J.fl z0 + τ)| ≤ 21 / 10 * ε := by
    rw [htol]
    refine (hR.err _).trans ?_
    have : |mag2F J.fl z0 + τ| ≤ 11 / 10 := by rw [abs_le]; constructor <;> linarith
    have := mul_le_mul_of_nonneg_left this ε0
    linarith
  have efl' := abs_le.1 efl
  have hb1 : J.fl (mag2F J.fl z0 + s.ct.tol) ≥ mag2F J.fl z1 → z1.mag2 ≤ z0.mag2 + 51 / 50 * τ := by intro hh; linarith
  have hb2 : ¬ J.fl (mag2F J.fl z0 + s.ct.tol) ≥ mag2F J.fl z1 → z0.mag2 ≤ z1.mag2 := by intro hh; push Not at hh; linarith
  set b := decide (J.fl (mag2F J.fl z0 + s.ct.tol) ≥ mag2F J.fl z1) with hb
  set mx := if b = true then z0 else z1 with hmx
  set mn := if b = true then z1 else z0 with hmn
  have big : mn.mag2 ≤ mx.mag2 + 51 / 50 * τ := by
    rw [hmx, hmn]
    by_cases hh : J.fl (mag2F J.fl z0 + s.ct.tol) ≥ mag2F J.fl z1
    · have : b = true := by rw [hb]; exact decide_eq_true hh
      rw [if_pos this, if_pos this]; exact hb1 hh
    · have : ¬ b = true := by rw [hb, decide_eq_true_eq]; exact hh
      rw [if_neg this, if_neg this]
      have := hb2 hh; linarith
  clear_value b
  have mxpos : 0 < mag mx := by rw [hmx]; split_ifs <;> assumption
  have tmx : τ ≤ mag mx := by rw [hmx]; split_ifs <;> assumption
  have tmn : τ ≤ mag mn := by rw [hmn]; split_ifs <;> assumption
  have sum2 : mx.mag2 + mn.mag2 = N * N := by
    rw [n2, hmx, hmn]; split_ifs
    · rfl
    · rw [add_comm]
  have mxlo : 7 / 10 ≤ mag mx := by
    refine le_of_sq mxpos.le ?_
    rw [mag_sq]
    linarith
  have mxN : mag mx ≤ N := by
    refine le_of_sq Npos.le ?_
    rw [mag_sq]; have := Cx.mag2_nonneg mn; linarith
  have mnhi : mag mn ≤ 3 / 4 := by
    refine le_of_sq (by norm_num) ?_
    rw [mag_sq]
    have := mul_self_le_mul_self (by norm_num) mxlo
    rw [mag_sq] at this
    linarith
  obtain ⟨v1, v2, v3, v4⟩ := hR.vec tmx mxpos mxN hn2 rfl rfl rfl rfl rfl
  set top : Cx R := ⟨J.fl (mx.re * J.fl (J.fl (HasSqrt.sqrt (J.fl (mag2F J.fl z0 + mag2F J.fl z1))) / J.fl (HasSqrt.sqrt (mag2F J.fl mx)))),
    J.fl (mx.im * J.fl (J.fl (HasSqrt.sqrt (J.fl (mag2F J.fl z0 + mag2F J.fl z1))) / J.fl (HasSqrt.sqrt (mag2F J.fl mx))))⟩ with htop
  set α := J.fl (J.fl (HasSqrt.sqrt (mag2F J.fl mx)) / J.fl (HasSqrt.sqrt (J.fl (mag2F J.fl z0 + mag2F J.fl z1)))) with hα
  clear_value top α
  have εN : ε * N ≤ ε * (101 / 100) := mul_le_mul_of_nonneg_left (by linarith) ε0
  obtain ⟨r1, r2, r3, r4⟩ := lookupC_grow hJ hτ h top
  set r := s.lookupC J top with hr
  clear_value r
  have rt := r1.tol hJ hτ
  set ρ := r.1.ct.cval J.C r.2 with hρ
  have dρ := abs_le.1 (mag_dist r4)
  have mρlo : N - 31 / 20 * τ ≤ mag ρ := by linarith
  have mρhi : mag ρ ≤ N + 31 / 20 * τ := by linarith
  rw [if_neg (by
    intro hn
    have := zeroV_mag' (by rw [rt]; exact hτ) hn
    rw [rt] at this
    linarith)] at hmk
  obtain ⟨A1, A2, A3, A4⟩ := lookupC_grow hJ hτ r1 (⟨α, 0⟩ : Cx R)
  set A := r.1.lookupC J ⟨α, 0⟩ with hA
  clear_value A
  have er : A.1.ct.cval J.C r.2 = ρ := A2.cval r3
  rw [er] at hmk
  have hat : A.1.ct.tol = τ := A1.tol hJ hτ
  have r1o := rho_one hτ
  obtain ⟨d1, d2, d3⟩ := divV_spec (t := A.1.ct) (fl := J.fl) (a := mn) (b := ρ) (A1.ok hJ hτ) (by rw [hat]; exact tmn)
    (by rw [hat]; linarith) (by linarith) (by
      rw [hat]
      have := mul_le_mul_of_nonneg_right r1o (mag_nonneg ρ)
      linarith)
  rw [hat] at d1 d2 d3
  obtain ⟨B1, B2, B3, B4⟩ := lookupC_grow hJ hτ A1 (A.1.ct.divV J.fl mn ρ)
  set u := A.1.ct.divV J.fl mn ρ with hu
  set B := A.1.lookupC J u with hB
  clear_value B u
  have eA : B.1.ct.cval J.C A.2 = A.1.ct.cval J.C A.2 := B2.cval A3
  have kw : kidW τ = 1 + 16 / 5 * τ := rfl
  have r0 : 0 ≤ mag mx / N := div_nonneg mxpos.le Npos.le
  have r1' : mag mx / N ≤ 1 := by rw [div_le_one Npos]; exact mxN
  have rlo : 69 / 100 ≤ mag mx / N := by rw [le_div_iff₀ Npos]; linarith
  have v3' := abs_le.1 v3
  have dA := abs_le.1 (mag_dist A4)
  have αpos : 0 ≤ α := by linarith
  rw [mag_real, abs_of_nonneg αpos] at dA
  have mB := abs_le.1 (mag_dist B4)
  have u0 := mag_nonneg u
  have ττ : τ * τ ≤ τ * (1 / 1000) := mul_le_mul_of_nonneg_left (by linarith) hτ
  have ττ0 := mul_nonneg hτ hτ
  have mnN : mag mn / N ≤ mag u + 7 / 2 * τ := by
    rw [div_le_iff₀ Npos]
    have h1 : (mag u + 8 / 5 * τ) * mag ρ ≤ (mag u + 8 / 5 * τ) * (N + 31 / 20 * τ) := mul_le_mul_of_nonneg_left mρhi (by linarith)
    have h2 : τ * mag u ≤ τ * (101 / 100) := mul_le_mul_of_nonneg_left (by linarith) hτ
    have h3 : τ * (99 / 100) ≤ τ * N := mul_le_mul_of_nonneg_left (by linarith) hτ
    linarith
  have low : 1 ≤ HasSqrt.sqrt ((B.1.ct.cval J.C A.2).mag2 + (B.1.ct.cval J.C B.2).mag2) + 6 * τ := by
    refine pair_low' (α := mag mx / N) (β := mag mn / N) hτ r0 (div_nonneg (mag_nonneg _) Npos.le) ?_ ?_ ?_
    · rw [div_mul_div_comm, div_mul_div_comm, ← add_div, mag_sq, mag_sq, sum2, div_self (mul_pos Npos Npos).ne']
    · rw [eA]; linarith
    · linarith
  have kA : ∀ p, kidOf p A.2 = ⟨p, A.2⟩ := by
    intro p
    unfold kidOf
    rw [if_neg]
    intro hn
    rw [hn, cval_zero, mag_zero] at dA
    linarith
  have gB := r2.trans (A2.trans B2)
  have nonz : ∀ i, (es i).w ≠ CNum.zero := by
    rw [Fin.forall_fin_two]
    constructor
    · intro e; apply c0; rw [hz0, e, cval_zero]; exact zeroV_zero ht0
    · intro e; apply c1; rw [hz1, e, cval_zero]; exact zeroV_zero ht0
  have vk : ∀ (i : Fin 2) (c : CNum Loc), B.1.ct.LiveC J.C c → B.1.ValidV J l (kidOf (es i).p c) := by
    intro i c hc
    unfold kidOf
    split_ifs
    · exact .intro ⟨trivial, trivial⟩ trivial (fun _ => Or.inr rfl)
    · exact .intro hc (gB.nodeOk (hes i).node) (fun hp => ((hes i).none hp).imp id (fun e => absurd e (nonz i)))
  have mAk : mag (B.1.ct.cval J.C A.2) ≤ kidW τ := by rw [eA, kw]; linarith
  have mBk : mag (B.1.ct.cval J.C B.2) ≤ kidW τ := by rw [kw]; linarith
  -- both orders at once
  have key : ∀ (j k : Fin 2) (ks : Fin 2 → PtrEdge), j ≠ k → s.ct.cval J.C (es j).w = mx → s.ct.cval J.C (es k).w = mn →
      ks j = kidOf (es j).p A.2 → ks k = kidOf (es k).p B.2 →
      UOk J τ δ s l es ((B.1.nodeV J l ks).1, ⟨some (B.1.nodeV J l ks).2, r.2⟩) (B.1.nodeV J l ks).2 r.2 := by
    intro j k ks hjk hj hk kj kk
    have all2 : ∀ i : Fin 2, i = j ∨ i = k := fin2_or hjk
    have wj : (ks j).w = A.2 := by rw [kj, kidOf_w]
    have wk : (ks k).w = B.2 := by rw [kk, kidOf_w]
    obtain ⟨n1, n2, n3, n4⟩ := nodeV_grow hJ hτ B1 (l := l) (by rw [gB.nvars .v]; exact hl) (es := ks) (by
        intro i
        rcases all2 i with rfl | rfl
        · rw [kj]; exact vk _ _ (B2.liveC A3)
        · rw [kk]; exact vk _ _ B3) (by
        intro i
        rcases all2 i with rfl | rfl
        · rw [wj]; exact mAk
        · rw [wk]; exact mBk) (by
        have := fin2_sum hjk (fun i => (B.1.ct.cval J.C (ks i).w).mag2)
        rw [this, wj, wk]
        exact low)
    set n := B.1.nodeV J l ks with hn
    clear_value n
    have gn := A2.trans (B2.trans n2)
    have ern : n.1.ct.cval J.C r.2 = ρ := gn.cval r3
    have mρ : mag ρ ≤ 102 / 100 := by linarith
    refine ⟨n1, r2.trans gn, rfl, gn.liveC r3, n3, ?_, fun i => ?_, fun i => ?_, fun x hx hxl => ?_⟩
    · show |mag (n.1.ct.cval J.C r.2) - 1| ≤ _
      rw [ern, abs_le]
      constructor <;> linarith
    · show (((n.1.tab .v).tab.mem n.2).e i).p = _ ∨ (((n.1.tab .v).tab.mem n.2).e i).p = none ∧ mag (n.1.ct.cval J.C (((n.1.tab .v).tab.mem n.2).e i).w) ≤ _
      rw [(n4 i).1]
      rcases all2 i with rfl | rfl
      · left; rw [kj, kA]
      · by_cases hz : B.2 = CNum.zero
        · right
          refine ⟨by rw [kk, kidOf, if_pos hz], ?_⟩
          have := (n4 i).2
          rw [wk, hz, cval_zero, sub_zero] at this
          exact this
        · left; rw [kk, kidOf, if_neg hz]
    · show mag (n.1.ct.cval J.C r.2 * _ - _) ≤ _
      rw [ern]
      have h2 := (n4 i).2
      set w := n.1.ct.cval J.C (((n.1.tab .v).tab.mem n.2).e i).w with hw
      rcases all2 i with rfl | rfl
      · rw [wj, eA] at h2
        show mag (ρ * w - s.ct.cval J.C (es i).w) ≤ _
        rw [hj]
        have h3 := mag_tri w (A.1.ct.cval J.C A.2) ⟨α, 0⟩
        have h4 : mag (w - ⟨α, 0⟩) ≤ 3 * τ := by linarith
        have e : ρ * w - mx = ρ * (w - ⟨α, 0⟩) + ((ρ - top) * ⟨α, 0⟩ + (top * ⟨α, 0⟩ - mx)) := by ring
        rw [e]
        have h5 := mag_mono_mul mρ h4
        have h6 : mag ((ρ - top) * ⟨α, 0⟩) ≤ 3 / 2 * τ * (101 / 100) := mag_mono_mul r4 (by rw [mag_real, abs_of_nonneg αpos]; linarith)
        have h7 := mag_add (ρ * (w - ⟨α, 0⟩)) ((ρ - top) * ⟨α, 0⟩ + (top * ⟨α, 0⟩ - mx))
        have h8 := mag_add ((ρ - top) * ⟨α, 0⟩) (top * ⟨α, 0⟩ - mx)
        linarith
      · rw [wk] at h2
        show mag (ρ * w - s.ct.cval J.C (es i).w) ≤ _
        rw [hk]
        have h3 := mag_tri w (B.1.ct.cval J.C B.2) u
        have h4 : mag (w - u) ≤ 3 * τ := by linarith
        have e : ρ * w - mn = ρ * (w - u) + (ρ * u - mn) := by ring
        rw [e]
        have h5 := mag_mono_mul mρ h4
        have h7 := mag_add (ρ * (w - u)) (ρ * u - mn)
        have h8 := mul_le_mul_of_nonneg_left mρ (by linarith : 0 ≤ 8 / 5 * τ)
        linarith
    · show mag (n.1.ct.cval J.C r.2 - 1) ≤ _
      rw [ern]
      rw [hle] at hxl
      have h1 := mag_dist hxl
      rw [mag_real, abs_of_nonneg hx] at h1
      have h2 : mag ((⟨x, 0⟩ : Cx R) - ⟨mag mx, 0⟩) ≤ 3 / 2 * τ := by
        have : (⟨x, 0⟩ : Cx R) - ⟨mag mx, 0⟩ = ⟨x - mag mx, 0⟩ := by ext <;> simp
        rw [this, mag_real, abs_sub_comm]
        exact h1
      have h3 := mag_tri mx ⟨x, 0⟩ ⟨mag mx, 0⟩
      have h4 : mag (mx - ⟨mag mx, 0⟩) ≤ 3 * τ := by linarith
      set κ := mag mx / N with hκ
      have κN : κ * N = mag mx := by rw [hκ, div_mul_cancel₀ _ Npos.ne']
      have e : (top - ⟨N, 0⟩) * ⟨κ, 0⟩ = (top * ⟨α, 0⟩ - mx) + (top * ⟨κ - α, 0⟩ + (mx - ⟨mag mx, 0⟩)) := by
        rw [← κN]
        ext
        · simp; ring
        · simp; ring
      have h5 : mag ((top - ⟨N, 0⟩) * ⟨κ, 0⟩) ≤ 31 / 10 * τ := by
        rw [e]
        have g1 := mag_add (top * ⟨α, 0⟩ - mx) (top * ⟨κ - α, 0⟩ + (mx - ⟨mag mx, 0⟩))
        have g2 := mag_add (top * ⟨κ - α, 0⟩) (mx - ⟨mag mx, 0⟩)
        have g3 : mag (top * ⟨κ - α, 0⟩) ≤ 105 / 100 * (27 * ε) := mag_mono_mul (by linarith) (by rw [mag_real, abs_sub_comm]; exact v3)
        linarith
      rw [mag_mul, mag_real, abs_of_nonneg r0] at h5
      have h6 : mag (top - ⟨N, 0⟩) * (69 / 100) ≤ mag (top - ⟨N, 0⟩) * κ := mul_le_mul_of_nonneg_left rlo (mag_nonneg _)
      have h7 : mag ((⟨N, 0⟩ : Cx R) - 1) ≤ δ := by
        have : (⟨N, 0⟩ : Cx R) - 1 = ⟨N - 1, 0⟩ := by ext <;> simp
        rw [this, mag_real]; exact N1
      have h8 := mag_tri ρ top 1
      have h9 := mag_tri top ⟨N, 0⟩ 1
      linarith
  rw [hmk]
  cases b
  · exact ⟨_, _, key 1 0 _ (by decide) rfl rfl rfl rfl⟩
  · exact ⟨_, _, key 0 1 _ (by decide) rfl rfl rfl rfl⟩

/-- Normalising a node whose weights have norm about one. -/
theorem makeU_acc (hJ : J.Good) (hτ : 0 ≤ τ) (hτ1 : 1000 * τ ≤ 1) (h : TInv J τ s) {l : Nat} (hl : l < (s.tab .v).tab.nvars) {es : Fin 2 → PtrEdge}
    (hes : ∀ i, s.ValidV J l (es i)) {δ : R} (hδ : δ ≤ 1 / 100)
    (hs : |(s.ct.cval J.C (es 0).w).mag2 + (s.ct.cval J.C (es 1).w).mag2 - 1| ≤ δ) :
    ∃ q r, UOk J τ δ s l es (s.makeU J l es) q r := by
  have htol := h.tol hJ hτ
  have ht0 : 0 ≤ s.ct.tol := by rw [htol]; exact hτ
  by_cases c0 : s.ct.zeroV (s.ct.cval J.C (es 0).w) = true
  · by_cases c1 : s.ct.zeroV (s.ct.cval J.C (es 1).w) = true
    · exfalso
      have h0 := zeroV_mag' ht0 c0
      have h1 := zeroV_mag' ht0 c1
      rw [htol] at h0 h1
      have g0 := mul_le_mul h0 h0 (mag_nonneg _) (by linarith)
      have g1 := mul_le_mul h1 h1 (mag_nonneg _) (by linarith)
      rw [mag_sq] at g0 g1
      have ττ : τ * τ ≤ τ * (1 / 1000) := mul_le_mul_of_nonneg_left (by linarith) hτ
      have := (abs_le.1 hs).1
      linarith
    · have e : s.makeU J l es = (((s.lookupN J (es 1).w).1.nodeV J l ![es 0, ⟨(es 1).p, CNum.one⟩]).1,
          ⟨some ((s.lookupN J (es 1).w).1.nodeV J l ![es 0, ⟨(es 1).p, CNum.one⟩]).2, (s.lookupN J (es 1).w).2⟩) := by
        unfold JState.makeU
        dsimp only
        rw [if_pos c0, if_neg c1]
      rw [e]
      exact ⟨_, _, makeU_one hJ hτ hτ1 h hl hes hδ (j := 0) (k := 1) (by decide) hs c0 c1 (by unfold leadU; rw [if_pos c0]) rfl rfl⟩
  · by_cases c1 : s.ct.zeroV (s.ct.cval J.C (es 1).w) = true
    · have e : s.makeU J l es = (((s.lookupN J (es 0).w).1.nodeV J l ![⟨(es 0).p, CNum.one⟩, es 1]).1,
          ⟨some ((s.lookupN J (es 0).w).1.nodeV J l ![⟨(es 0).p, CNum.one⟩, es 1]).2, (s.lookupN J (es 0).w).2⟩) := by
        unfold JState.makeU
        dsimp only
        rw [if_neg c0, if_pos c1]
      rw [e]
      exact ⟨_, _, makeU_one hJ hτ hτ1 h hl hes hδ (j := 1) (k := 0) (by decide) (by rwa [add_comm]) c1 c0
        (by unfold leadU; rw [if_neg c0, if_pos c1]) rfl rfl⟩
    · exact makeU_two hJ hτ hτ1 h hl hes hδ hs c0 c1

end DD
