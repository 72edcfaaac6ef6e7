import Verif.Proofs.Ctrl2Ops

/-! # The controlled constructions -/

namespace DD

open Gates Real

/-! ### The gate matrices in terms of few numbers -/

theorem tens_tn (A B : Matrix (Fin 2) (Fin 2) (Cx ℝ)) : tens A B = tn A B := by
  ext1 a b
  fin_cases a <;> fin_cases b <;> rfl

theorem ctl01_x : ctl01 (mat2 Xmat) = cx01 := by
  unfold ctl01 cx01 mat2 Xmat
  ext1 a b
  fin_cases a <;> fin_cases b <;> rfl

theorem ctl10_x : ctl10 (mat2 Xmat) = cx10 := by
  unfold ctl10 cx10 mat2 Xmat
  ext1 a b
  fin_cases a <;> fin_cases b <;> rfl

noncomputable abbrev hC' : Cx ℝ := Cx.ofReal Pkg.sqrt12
noncomputable abbrev halfC : Cx ℝ := Cx.ofReal (1 / 2)

theorem two_re : (2 : Cx ℝ).re = 2 := by
  have : (2 : Cx ℝ) = 1 + 1 := one_add_one_eq_two.symm
  rw [this, Cx.add_re, Cx.one_re]; norm_num
theorem two_im : (2 : Cx ℝ).im = 0 := by
  have : (2 : Cx ℝ) = 1 + 1 := one_add_one_eq_two.symm
  rw [this, Cx.add_im, Cx.one_im]; norm_num

theorem hh_cx : 2 * (hC' * hC') = 1 := by
  have := rsqrt12_sq
  rw [← Cx.ofReal_mul, this]
  ext <;> simp [two_re, two_im]

theorem half_cx : 2 * halfC = 1 := by
  ext <;> simp [two_re, two_im]

theorem imag_sq : (imag : Cx ℝ) * imag = -1 := by
  ext <;> simp [imag]

macro "byEnt" : tactic => `(tactic| (
  ext a b <;> fin_cases a <;> fin_cases b <;> simp [mat2, mat4, had, dia2, qx, sx, ry, dia4, imag, Hmat, Xmat, Smat, Sdagmat, SXmat, SXdagmat, RXmat, RYmat,
    RZmat, SWAPmat, iSWAPmat, iSWAPinvmat, ECRmat, DCXmat, RXXmat, RYYmat, RZZmat, RZXmat, XXMinusYYmat, XXPlusYYmat,
    one, zero, mone, i, mi, SQRT2_2, mSQRT2_2, iSQRT2_2, miSQRT2_2, onePlusI2, oneMinusI2]))

theorem m_h : mat2 Hmat = had hC' := by byEnt
theorem m_s : mat2 Smat = dia2 1 imag := by byEnt
theorem m_sdag : mat2 Sdagmat = dia2 1 (-imag) := by byEnt
theorem m_sx : mat2 SXmat = sx halfC imag := by byEnt
theorem m_sxdag : mat2 SXdagmat = sx halfC (-imag) := by byEnt
theorem m_x : mat2 Xmat = !![0, 1; 1, 0] := by byEnt
theorem m_rz (x : ℝ) : mat2 (RZmat x) = dia2 (Cx.ofReal (cos (x / 2)) - imag * Cx.ofReal (sin (x / 2)))
    (Cx.ofReal (cos (x / 2)) + imag * Cx.ofReal (sin (x / 2))) := by byEnt
theorem m_rz' (x : ℝ) : mat2 (RZmat (-x)) = dia2 (Cx.ofReal (cos (x / 2)) + imag * Cx.ofReal (sin (x / 2)))
    (Cx.ofReal (cos (x / 2)) - imag * Cx.ofReal (sin (x / 2))) := by
  have h1 : cos (-x / 2) = cos (x / 2) := by rw [neg_div, cos_neg]
  have h2 : sin (-x / 2) = - sin (x / 2) := by rw [neg_div, sin_neg]
  byEnt <;> simp [h1, h2]
theorem m_ry (x : ℝ) : mat2 (RYmat x) = ry (Cx.ofReal (cos (x / 2))) (Cx.ofReal (sin (x / 2))) := by byEnt
theorem m_ry' (x : ℝ) : mat2 (RYmat (-x / 2)) = ry (Cx.ofReal (cos (x / 2 / 2))) (-Cx.ofReal (sin (x / 2 / 2))) := by
  have h1 : cos (-x / 2 / 2) = cos (x / 2 / 2) := by rw [neg_div, neg_div, cos_neg]
  have h2 : sin (-x / 2 / 2) = - sin (x / 2 / 2) := by rw [neg_div, neg_div, sin_neg]
  byEnt <;> simp [h1, h2]

theorem cos_quarter : cos (π / 2 / 2) = Pkg.sqrt12 := by rw [rsqrt12_eq, div_div]; norm_num
theorem sin_quarter : sin (π / 2 / 2) = Pkg.sqrt12 := by rw [rsqrt12_eq, div_div]; norm_num

theorem m_rzq : mat2 (RZmat (π / 2)) = dia2 (hC' - imag * hC') (hC' + imag * hC') := by
  rw [m_rz, cos_quarter, sin_quarter]
theorem m_rzq' : mat2 (RZmat (-(π / 2))) = dia2 (hC' + imag * hC') (hC' - imag * hC') := by
  rw [m_rz', cos_quarter, sin_quarter]
theorem m_rxq : mat2 (RXmat (π / 2)) = qx hC' imag := by
  byEnt <;> simp [cos_quarter, sin_quarter]
theorem m_rxq' : mat2 (RXmat (-(π / 2))) = qx hC' (-imag) := by
  have h1 : cos (-(π / 2) / 2) = Pkg.sqrt12 := by rw [neg_div, cos_neg, cos_quarter]
  have h2 : sin (-(π / 2) / 2) = -Pkg.sqrt12 := by rw [neg_div, sin_neg, sin_quarter]
  byEnt <;> simp [h1, h2]

theorem m_swap : mat4 SWAPmat = !![1, 0, 0, 0; 0, 0, 1, 0; 0, 1, 0, 0; 0, 0, 0, 1] := by byEnt
theorem m_dcx : mat4 DCXmat = !![1, 0, 0, 0; 0, 0, 0, 1; 0, 1, 0, 0; 0, 0, 1, 0] := by byEnt
theorem m_iswap : mat4 iSWAPmat = !![1, 0, 0, 0; 0, 0, imag, 0; 0, imag, 0, 0; 0, 0, 0, 1] := by byEnt
theorem m_iswapinv : mat4 iSWAPinvmat = !![1, 0, 0, 0; 0, 0, -imag, 0; 0, -imag, 0, 0; 0, 0, 0, 1] := by byEnt

section
variable (x : ℝ)

theorem m_rzz : mat4 (RZZmat x) = dia4 (Cx.ofReal (cos (x / 2)) - imag * Cx.ofReal (sin (x / 2)))
    (Cx.ofReal (cos (x / 2)) + imag * Cx.ofReal (sin (x / 2))) (Cx.ofReal (cos (x / 2)) + imag * Cx.ofReal (sin (x / 2)))
    (Cx.ofReal (cos (x / 2)) - imag * Cx.ofReal (sin (x / 2))) := by byEnt
theorem m_rxx : mat4 (RXXmat x) =
    let c := Cx.ofReal (cos (x / 2)); let s := Cx.ofReal (sin (x / 2)); let I := imag
    !![c, 0, 0, -I * s; 0, c, -I * s, 0; 0, -I * s, c, 0; -I * s, 0, 0, c] := by byEnt
theorem m_ryy : mat4 (RYYmat x) =
    let c := Cx.ofReal (cos (x / 2)); let s := Cx.ofReal (sin (x / 2)); let I := imag
    !![c, 0, 0, I * s; 0, c, -I * s, 0; 0, -I * s, c, 0; I * s, 0, 0, c] := by byEnt
theorem m_rzx : mat4 (RZXmat x) =
    let c := Cx.ofReal (cos (x / 2)); let s := Cx.ofReal (sin (x / 2)); let I := imag
    !![c, -I * s, 0, 0; -I * s, c, 0, 0; 0, 0, c, I * s; 0, 0, I * s, c] := by byEnt
theorem m_rzx' : mat4 (RZXmat (-x)) =
    let c := Cx.ofReal (cos (x / 2)); let s := Cx.ofReal (sin (x / 2)); let I := imag
    !![c, I * s, 0, 0; I * s, c, 0, 0; 0, 0, c, -I * s; 0, 0, -I * s, c] := by
  have h1 : cos (-x / 2) = cos (x / 2) := by rw [neg_div, cos_neg]
  have h2 : sin (-x / 2) = - sin (x / 2) := by rw [neg_div, sin_neg]
  byEnt <;> simp [h1, h2]
theorem m_ecr : mat4 ECRmat =
    let h := hC'; let I := imag
    !![0, 0, h, I * h; 0, 0, I * h, h; h, -I * h, 0, 0; -I * h, h, 0, 0] := by byEnt

theorem cos_half (x : ℝ) : cos x = cos (x / 2) * cos (x / 2) - sin (x / 2) * sin (x / 2) := by
  rw [← cos_add]; congr 1; ring
theorem sin_half (x : ℝ) : sin x = 2 * (sin (x / 2) * cos (x / 2)) := by
  have := sin_two_mul (x / 2)
  rw [show 2 * (x / 2) = x by ring] at this
  rw [this]; ring

variable (β : ℝ)
theorem m_xxm : mat4 (XXMinusYYmat x β) =
    let c := Cx.ofReal (cos (x / 2 / 2)); let s := Cx.ofReal (sin (x / 2 / 2)); let I := imag
    let b := Cx.ofReal (cos (β / 2)); let b' := Cx.ofReal (sin (β / 2))
    !![c * c - s * s, 0, 0, -I * ((b * b - b' * b') + I * (2 * (b' * b))) * (2 * (s * c));
       0, 1, 0, 0; 0, 0, 1, 0;
       -I * ((b * b - b' * b') - I * (2 * (b' * b))) * (2 * (s * c)), 0, 0, c * c - s * s] := by
  byEnt <;> simp only [cos_half (x / 2), sin_half (x / 2), cos_half β, sin_half β] <;> simp [two_re, two_im] <;> ring_nf
theorem m_xxp : mat4 (XXPlusYYmat x β) =
    let c := Cx.ofReal (cos (x / 2 / 2)); let s := Cx.ofReal (sin (x / 2 / 2)); let I := imag
    let b := Cx.ofReal (cos (β / 2)); let b' := Cx.ofReal (sin (β / 2))
    !![1, 0, 0, 0;
       0, c * c - s * s, -I * ((b * b - b' * b') + I * (2 * (b' * b))) * (2 * (s * c)), 0;
       0, -I * ((b * b - b' * b') - I * (2 * (b' * b))) * (2 * (s * c)), c * c - s * s, 0;
       0, 0, 0, 1] := by
  byEnt <;> simp only [cos_half (x / 2), sin_half (x / 2), cos_half β, sin_half β] <;> simp [two_re, two_im] <;> ring_nf
end

theorem cs_cx (x : ℝ) : Cx.ofReal (cos x) * Cx.ofReal (cos x) + Cx.ofReal (sin x) * Cx.ofReal (sin x) = 1 := by
  rw [← Cx.ofReal_mul, ← Cx.ofReal_mul, ← Cx.ofReal_add]
  have := sin_sq_add_cos_sq x
  rw [show cos x * cos x + sin x * sin x = 1 by linarith]; rfl

/-! ### The constructions -/

theorem chain14 {K : Type} [CommRing K] (a b c d e f g h i j : Matrix (Fin 2) (Fin 2) K) (X : Matrix (Fin 4) (Fin 4) K) :
    tn 1 a * tn b 1 * tn c 1 * tn d 1 * tn 1 e * X * tn f 1 * tn 1 g * X * tn 1 h * tn b 1 * tn i 1 * tn d 1 * tn 1 j =
      tn (b * c * d) (a * e) * (X * tn f g * X) * tn (b * i * d) (h * j) := by
  have e1 : tn 1 a * tn b 1 * tn c 1 * tn d 1 * tn 1 e = tn (b * c * d) (a * e) := by simp only [tn_mul, one_mul, mul_one]
  have e2 : tn 1 h * tn b 1 * tn i 1 * tn d 1 * tn 1 j = tn (b * i * d) (h * j) := by simp only [tn_mul, one_mul, mul_one]
  have e3 : tn f 1 * tn 1 g = tn f g := by simp only [tn_mul, one_mul, mul_one]
  rw [e1, ← e2, ← e3]
  simp only [mul_assoc]

theorem chain12 {K : Type} [CommRing K] (a b c d e h i j : Matrix (Fin 2) (Fin 2) K) (X : Matrix (Fin 4) (Fin 4) K) (hX : X * X = 1) :
    tn 1 a * tn b 1 * tn c 1 * tn d 1 * tn 1 e * X * X * tn 1 h * tn b 1 * tn i 1 * tn d 1 * tn 1 j =
      tn (b * c * d) (a * e) * tn (b * i * d) (h * j) := by
  have e1 : tn 1 a * tn b 1 * tn c 1 * tn d 1 * tn 1 e = tn (b * c * d) (a * e) := by simp only [tn_mul, one_mul, mul_one]
  have e2 : tn 1 h * tn b 1 * tn i 1 * tn d 1 * tn 1 j = tn (b * i * d) (h * j) := by simp only [tn_mul, one_mul, mul_one]
  rw [e1, ← e2, mul_assoc (tn (b * c * d) (a * e)) X X, hX, mul_one]
  simp only [mul_assoc]

variable {P : PCfg ℝ} {s : Pkg ℝ} {n : Nat} {cs : List Ctrl} {t0 t1 : Fin n}

section
variable (hx : TwoCtx n cs t0 t1) (hC : 0 < P.C.growth) (hw : PWF P s ∅) (hn : n ≤ (s.ut .m).nvars)
include hx hC hw hn

theorem swap_yd : Yd P s n cs t0 t1 (mat4 SWAPmat) 1 (Pkg.makeSWAPDD P s n cs t0 t1) := by
  unfold Pkg.makeSWAPDD
  dsimp only
  rw [hx.er0]
  refine Yd.congr (((hx.c01 _).first hx hC hw hn).step fun q h => h.mul (h.self.gateMul (hx.c10 _))) ?_ ?_
  · rw [ctl01_x, ctl10_x, m_swap]; exact a_swap
  · simp

theorem peres_yd : Yd P s n cs t0 t1 (tens 1 (mat2 Xmat) * ctl10 (mat2 Xmat)) 1 (Pkg.makePeresDD P s n cs t0 t1) := by
  unfold Pkg.makePeresDD
  dsimp only
  refine Yd.congr (((hx.c10 _).first hx hC hw hn).step fun q h => h.gateMul (hx.g1 _)) rfl ?_
  simp

theorem peresdag_yd : Yd P s n cs t0 t1 (ctl10 (mat2 Xmat) * tens 1 (mat2 Xmat)) 1 (Pkg.makePeresdagDD P s n cs t0 t1) := by
  unfold Pkg.makePeresdagDD
  dsimp only
  refine Yd.congr (((hx.g1 _).first hx hC hw hn).step fun q h => h.gateMul (hx.c10 _)) rfl ?_
  simp

theorem iswap_yd : Yd P s n cs t0 t1 (mat4 iSWAPmat) 1 (Pkg.makeiSWAPDD P s n cs t0 t1) := by
  unfold Pkg.makeiSWAPDD
  dsimp only
  rw [hx.er0]
  refine Yd.congr (((hx.g1 _).first hx hC hw hn).step fun q h => (h.mulGate (hx.g0 _)).step fun q h =>
    (h.mulGate (hx.g0 _)).step fun q h => (h.mulGate (hx.c01 _)).step fun q h => (h.mulGate (hx.c10 _)).step fun q h =>
    h.mulGate (hx.g1 _)) ?_ ?_
  · simp only [ctl01_x, ctl10_x, m_s, m_h, m_iswap, tens_tn, ← id2_eq]; exact a_iswap _ _ hh_cx imag_sq
  · simp

theorem iswapinv_yd : Yd P s n cs t0 t1 (mat4 iSWAPinvmat) 1 (Pkg.makeiSWAPinvDD P s n cs t0 t1) := by
  unfold Pkg.makeiSWAPinvDD
  dsimp only
  rw [hx.er1]
  refine Yd.congr (((hx.g1 _).first hx hC hw hn).step fun q h => (h.mulGate (hx.c10 _)).step fun q h =>
    (h.mulGate (hx.c01 _)).step fun q h => (h.mulGate (hx.g0 _)).step fun q h => (h.mulGate (hx.g0 _)).step fun q h =>
    h.mulGate (hx.g1 _)) ?_ ?_
  · simp only [ctl01_x, ctl10_x, m_sdag, m_h, m_iswapinv, tens_tn, ← id2_eq]; exact a_iswapinv _ _ hh_cx imag_sq
  · simp

theorem dcx_yd : Yd P s n cs t0 t1 (mat4 DCXmat) 1 (Pkg.makeDCXDD P s n cs t0 t1) := by
  unfold Pkg.makeDCXDD
  dsimp only
  rw [hx.er0]
  refine Yd.congr (((hx.c01 _).first hx hC hw hn).step fun q h => h.mulGate (hx.c10 _)) ?_ ?_
  · rw [ctl01_x, ctl10_x, m_dcx]; exact a_dcx
  · simp

theorem rzz_yd (θ : ℝ) : Yd P s n cs t0 t1 (mat4 (RZZmat θ)) 1 (Pkg.makeRZZDD P s n cs t0 t1 θ) := by
  unfold Pkg.makeRZZDD
  dsimp only
  rw [hx.er0]
  refine Yd.congr (((hx.c01 _).first hx hC hw hn).step fun q h => (h.mulGate (hx.g1 _)).step fun q h => h.mulGate (hx.c01 _)) ?_ ?_
  · simp only [ctl01_x, m_rz, m_rzz, tens_tn, ← id2_eq]; exact a_rzz _ _
  · simp

theorem ryy_yd (θ : ℝ) : Yd P s n cs t0 t1 (mat4 (RYYmat θ)) 1 (Pkg.makeRYYDD P s n cs t0 t1 θ) := by
  unfold Pkg.makeRYYDD
  refine Yd.congr (((hx.f0 _).first hx hC hw hn).step fun q h => (h.mulGate (hx.f1 _)).step fun q h =>
    (h.mul (rzz_yd hx hC h.wf h.bound θ)).step fun q h => (h.mulGate (hx.f1 _)).step fun q h => h.mulGate (hx.f0 _)) ?_ ?_
  · simp only [m_rxq, m_rxq', m_rzz, m_ryy, tens_tn, ← id2_eq]; exact a_ryy _ _ _ _ hh_cx imag_sq
  · simp only [m_rxq, m_rxq', tens_tn, ← id2_eq]; exact a_qx _ _ hh_cx imag_sq

theorem rxx_yd (θ : ℝ) : Yd P s n cs t0 t1 (mat4 (RXXmat θ)) 1 (Pkg.makeRXXDD P s n cs t0 t1 θ) := by
  unfold Pkg.makeRXXDD
  refine Yd.congr (((hx.f0 _).first hx hC hw hn).step fun q h => (h.mulGate (hx.f1 _)).step fun q h =>
    (h.mul (rzz_yd hx hC h.wf h.bound θ)).step fun q h => (h.mulGate (hx.f1 _)).step fun q h => h.mulGate (hx.f0 _)) ?_ ?_
  · simp only [m_h, m_rzz, m_rxx, tens_tn, ← id2_eq]; exact a_rxx _ _ _ _ hh_cx imag_sq
  · simp only [m_h, tens_tn, ← id2_eq]; exact a_had _ hh_cx

theorem rzx_yd (θ : ℝ) : Yd P s n cs t0 t1 (mat4 (RZXmat θ)) 1 (Pkg.makeRZXDD P s n cs t0 t1 θ) := by
  unfold Pkg.makeRZXDD
  refine Yd.congr (((hx.f1 _).first hx hC hw hn).step fun q h =>
    (h.mul (rzz_yd hx hC h.wf h.bound θ)).step fun q h => h.mulGate (hx.f1 _)) ?_ ?_
  · simp only [m_h, m_rzz, m_rzx, tens_tn, ← id2_eq]; exact a_rzx _ _ _ _ hh_cx imag_sq
  · simp only [m_h, tens_tn, ← id2_eq]; exact a_had1 _ hh_cx

theorem ecr_yd : Yd P s n cs t0 t1 (mat4 ECRmat) 1 (Pkg.makeECRDD P s n cs t0 t1) := by
  unfold Pkg.makeECRDD
  refine Yd.congr ((rzx_yd hx hC hw hn _).step fun q h => (h.mulGate (hx.g0 _)).step fun q h =>
    h.mul (rzx_yd hx hC h.wf h.bound _)) ?_ ?_
  · rw [m_rzx', m_rzx, m_x, m_ecr, tens_tn, ← id2_eq]
    refine a_ecr _ _ _ _ imag_sq (cs_cx _) ?_ ?_
    · have := cos_half (π / 4)
      rw [cos_pi_div_four, ← rsqrt12_eq] at this
      unfold hC'; rw [this]; ext <;> simp
    · have := sin_half (π / 4)
      rw [sin_pi_div_four, ← rsqrt12_eq] at this
      unfold hC'; rw [this]; ext <;> simp [two_re, two_im]
  · simp

theorem xxm_yd (θ β : ℝ) : Yd P s n cs t0 t1 (mat4 (XXMinusYYmat θ β)) 1 (Pkg.makeXXMinusYYDD P s n cs t0 t1 θ β) := by
  unfold Pkg.makeXXMinusYYDD
  refine Yd.congr (((hx.f1 _).first hx hC hw hn).step fun q h => (h.mulGate (hx.f0 _)).step fun q h =>
    (h.mulGate (hx.f0 _)).step fun q h => (h.mulGate (hx.f0 _)).step fun q h => (h.mulGate (hx.f1 _)).step fun q h =>
    (h.mulGate (hx.c01f _)).step fun q h => (h.mulGate (hx.g0 _)).step fun q h => (h.mulGate (hx.g1 _)).step fun q h =>
    (h.mulGate (hx.c01f _)).step fun q h => (h.mulGate (hx.f1 _)).step fun q h => (h.mulGate (hx.f0 _)).step fun q h =>
    (h.mulGate (hx.f0 _)).step fun q h => (h.mulGate (hx.f0 _)).step fun q h => h.mulGate (hx.f1 _)) ?_ ?_
  · simp only [ctl01_x, tens_tn]
    rw [m_xxm]
    refine Eq.trans ?_ (a_xxm imag halfC _ _ _ _ half_cx imag_sq (cs_cx _) (cs_cx _))
    rw [← a_mid_m, ← a_w0 hC' imag halfC half_cx hh_cx imag_sq, ← a_w1 hC' imag halfC half_cx hh_cx imag_sq]
    have e1 := dia2_mul (Cx.ofReal (cos (β / 2)) + imag * Cx.ofReal (sin (β / 2))) (Cx.ofReal (cos (β / 2)) - imag * Cx.ofReal (sin (β / 2))) 1 imag
    have e2 := dia2_mul 1 (-imag) (Cx.ofReal (cos (β / 2)) - imag * Cx.ofReal (sin (β / 2))) (Cx.ofReal (cos (β / 2)) + imag * Cx.ofReal (sin (β / 2)))
    rw [mul_one] at e1
    rw [one_mul] at e2
    rw [← e1, ← e2, ← m_s, ← m_sdag, ← m_rz, ← m_rz', ← m_ry', ← m_ry, ← m_rzq, ← m_rzq', ← m_sx, ← m_sxdag]
    exact chain14 ..
  · simp only [ctl01_x, tens_tn, mul_one]
    rw [chain12 _ _ _ _ _ _ _ _ _ a_cx2, m_rzq, m_rzq', m_sx, m_sxdag, a_w0 hC' imag halfC half_cx hh_cx imag_sq,
      a_w1 hC' imag halfC half_cx hh_cx imag_sq, m_rz', m_rz, m_s, m_sdag, dia2_mul, dia2_mul]
    refine a_xx1 _ _ _ _ _ _ half_cx imag_sq ?_ ?_
    · have := cs_cx (β / 2)
      have hI := imag_sq
      grind
    · have := cs_cx (β / 2)
      have hI := imag_sq
      grind

theorem xxp_yd (θ β : ℝ) : Yd P s n cs t0 t1 (mat4 (XXPlusYYmat θ β)) 1 (Pkg.makeXXPlusYYDD P s n cs t0 t1 θ β) := by
  unfold Pkg.makeXXPlusYYDD
  refine Yd.congr (((hx.f1 _).first hx hC hw hn).step fun q h => (h.mulGate (hx.f0 _)).step fun q h =>
    (h.mulGate (hx.f0 _)).step fun q h => (h.mulGate (hx.f0 _)).step fun q h => (h.mulGate (hx.f1 _)).step fun q h =>
    (h.mulGate (hx.c01f _)).step fun q h => (h.mulGate (hx.g0 _)).step fun q h => (h.mulGate (hx.g1 _)).step fun q h =>
    (h.mulGate (hx.c01f _)).step fun q h => (h.mulGate (hx.f1 _)).step fun q h => (h.mulGate (hx.f0 _)).step fun q h =>
    (h.mulGate (hx.f0 _)).step fun q h => (h.mulGate (hx.f0 _)).step fun q h => h.mulGate (hx.f1 _)) ?_ ?_
  · simp only [ctl01_x, tens_tn]
    rw [m_xxp]
    refine Eq.trans ?_ (a_xxp imag halfC _ _ _ _ half_cx imag_sq (cs_cx _) (cs_cx _))
    rw [← a_mid_p, ← a_w0 hC' imag halfC half_cx hh_cx imag_sq, ← a_w1 hC' imag halfC half_cx hh_cx imag_sq]
    have e1 := dia2_mul (Cx.ofReal (cos (β / 2)) - imag * Cx.ofReal (sin (β / 2))) (Cx.ofReal (cos (β / 2)) + imag * Cx.ofReal (sin (β / 2))) 1 imag
    have e2 := dia2_mul 1 (-imag) (Cx.ofReal (cos (β / 2)) + imag * Cx.ofReal (sin (β / 2))) (Cx.ofReal (cos (β / 2)) - imag * Cx.ofReal (sin (β / 2)))
    rw [mul_one] at e1
    rw [one_mul] at e2
    rw [← e1, ← e2, ← m_s, ← m_sdag, ← m_rz, ← m_rz', ← m_ry, ← m_rzq, ← m_rzq', ← m_sx, ← m_sxdag]
    exact chain14 ..
  · simp only [ctl01_x, tens_tn, mul_one]
    rw [chain12 _ _ _ _ _ _ _ _ _ a_cx2, m_rzq, m_rzq', m_sx, m_sxdag, a_w0 hC' imag halfC half_cx hh_cx imag_sq,
      a_w1 hC' imag halfC half_cx hh_cx imag_sq, m_rz', m_rz, m_s, m_sdag, dia2_mul, dia2_mul]
    refine a_xx1 _ _ _ _ _ _ half_cx imag_sq ?_ ?_
    · have := cs_cx (β / 2)
      have hI := imag_sq
      grind
    · have := cs_cx (β / 2)
      have hI := imag_sq
      grind

end

end DD
