import Verif.Model.ApproxCopy
import Verif.CopySpec
import Verif.Proofs.ApproxHistory
import Verif.Proofs.ApproxMeasureAcc
import Verif.Proofs.Copy

/-! # Accuracy of copies -/

namespace DD

open Pkg UTable JState

variable {R : Type} [Field R] [LinearOrder R] [IsStrictOrderedRing R] [FloorRing R] {J : JCfg R} {τ : R}
variable {o s s' s'' : JState R} [HasSqrt R] [LawfulSqrt R]

omit [FloorRing R] [LawfulSqrt R] [IsStrictOrderedRing R] [LinearOrder R] [HasSqrt R] in
theorem nonNeg_eq [LinearOrder R] {z : Cx R} (h : z.NonNeg) : z = ⟨z.re, 0⟩ := by
  ext
  · rfl
  · exact h.1

omit [FloorRing R] in
theorem mag2_dist {z w : Cx R} {e : R} (h : mag (w - z) ≤ e) : |w.mag2 - z.mag2| ≤ e * (2 * mag z + e) := by
  have h1 := mag_dist h
  have e0 : 0 ≤ e := (mag_nonneg _).trans h
  rw [← mag_sq, ← mag_sq]
  have e1 : mag w * mag w - mag z * mag z = (mag w - mag z) * (mag w + mag z) := by ring
  rw [e1, abs_mul]
  have h2 := abs_le.1 h1
  have h3 := mag_nonneg w
  have h4 := mag_nonneg z
  rw [abs_of_nonneg (by linarith : 0 ≤ mag w + mag z)]
  exact mul_le_mul h1 (by linarith) (by linarith) e0

/-- The weight that is divided out if a steady node is normalised again. -/
theorem lead_steady (hJ : J.Good) (hτ : 0 ≤ τ) (hτ1 : 1000 * τ ≤ 1) (h : TInv J τ s) {z w : Fin 2 → Cx R} (hd : ∀ i, mag (w i - z i) ≤ 3 / 2 * τ)
    (hs : |(z 0).mag2 + (z 1).mag2 - 1| ≤ 1 / 100)
    (hz : (∀ i, (z i).NonNeg) ∨ ∃ i, (z i).NonNeg ∧ ∀ j, j ≠ i → (z j).mag2 + 10 * τ < (z i).mag2) :
    ∃ x : R, 0 ≤ x ∧ mag (leadU J s (w 0) (w 1) - ⟨x, 0⟩) ≤ 3 / 2 * τ := by
  have htol := h.tol hJ hτ
  have ht0 : 0 ≤ s.ct.tol := by rw [htol]; exact hτ
  have ok : ∀ i, (z i).NonNeg → leadU J s (w 0) (w 1) = w i → ∃ x : R, 0 ≤ x ∧ mag (leadU J s (w 0) (w 1) - ⟨x, 0⟩) ≤ 3 / 2 * τ := by
    intro i hi e
    refine ⟨(z i).re, hi.2, ?_⟩
    rw [e, ← nonNeg_eq hi]
    exact hd i
  rcases hz with hz | ⟨i, hi, hj⟩
  · have : leadU J s (w 0) (w 1) = w 0 ∨ leadU J s (w 0) (w 1) = w 1 := by
      unfold leadU
      split_ifs <;> simp
    rcases this with e | e
    · exact ok 0 (hz 0) e
    · exact ok 1 (hz 1) e
  · obtain ⟨ε, η, hR⟩ := h.rnd.ok
    have ετ := hR.tol
    have ε0 := hR.nn
    have η1 := hR.eta1
    have hs' := abs_le.1 hs
    have p0 := Cx.mag2_nonneg (z 0)
    have p1 := Cx.mag2_nonneg (z 1)
    have mz : ∀ i, mag (z i) ≤ 101 / 100 := by
      intro i
      refine le_of_sq (by norm_num) ?_
      rw [mag_sq]
      have : (z i).mag2 ≤ (z 0).mag2 + (z 1).mag2 := by
        rcases fin2_or (show (0 : Fin 2) ≠ 1 by decide) i with rfl | rfl <;> linarith
      linarith
    have ττ : τ * τ ≤ τ * (1 / 1000) := mul_le_mul_of_nonneg_left (by linarith) hτ
    have d2 : ∀ i, |(w i).mag2 - (z i).mag2| ≤ 31 / 10 * τ := by
      intro i
      refine (mag2_dist (hd i)).trans ?_
      have := mul_le_mul_of_nonneg_left (mz i) hτ
      linarith
    have w2 : ∀ i, (w i).mag2 ≤ 11 / 10 := by
      intro i
      have := abs_le.1 (d2 i)
      have : (z i).mag2 ≤ (z 0).mag2 + (z 1).mag2 := by
        rcases fin2_or (show (0 : Fin 2) ≠ 1 by decide) i with rfl | rfl <;> linarith
      linarith
    have f2 : ∀ i, |mag2F J.fl (w i) - (w i).mag2| ≤ τ / 90 := by
      intro i
      refine (mag2F_rnd hR (w i)).trans ?_
      have := mul_le_mul_of_nonneg_left (w2 i) hτ
      linarith
    have a0 := abs_le.1 (d2 0)
    have a1 := abs_le.1 (d2 1)
    have b0 := abs_le.1 (f2 0)
    have b1 := abs_le.1 (f2 1)
    have q0 := w2 0
    have q1 := w2 1
    have n0 := Cx.mag2_nonneg (w 0)
    have efl : |J.fl (mag2F J.fl (w 0) + s.ct.tol) - (mag2F J.fl (w 0) + τ)| ≤ τ / 100 := by
      rw [htol]
      refine (hR.err _).trans ?_
      have : |mag2F J.fl (w 0) + τ| ≤ 2 := by rw [abs_le]; constructor <;> linarith
      have := mul_le_mul_of_nonneg_left this ε0
      linarith
    have c0 := abs_le.1 efl
    have big : ∀ k, s.ct.zeroV (w k) = true → (z k).mag2 ≤ 1 / 1000 := by
      intro k hk
      have h1 := zeroV_mag' ht0 hk
      rw [htol] at h1
      have h2 := abs_le.1 (mag_dist (hd k))
      have h3 : mag (z k) ≤ 3 * τ := by linarith
      have := mul_le_mul h3 h3 (mag_nonneg _) (by linarith)
      rw [mag_sq] at this
      linarith
    refine ok i hi ?_
    rcases fin2_or (show (0 : Fin 2) ≠ 1 by decide) i with rfl | rfl
    · have hj := hj 1 (by decide)
      unfold leadU
      split_ifs with h1 h2 h3
      · have := big 0 h1; linarith
      · rfl
      · rfl
      · push Not at h3; linarith
    · have hj := hj 0 (by decide)
      unfold leadU
      split_ifs with h1 h2 h3
      · rfl
      · have := big 1 h2; linarith
      · linarith
      · rfl

omit [LawfulSqrt R] in
theorem namp_none (s : JState R) (l : Nat) (d : Fin l → Fin 2) : s.namp J l none d = 1 := by
  cases l <;> rfl

/-- The node `c` of `s` is a copy of the node `p` of `o`. -/
structure Cp (J : JCfg R) (o s : JState R) (K : R) (l : Nat) (p c : Option Nat) : Prop where
  node : s.NodeOk l c
  none : c = none → p = none
  mods : ∀ d, |mag (s.namp J l c d) - mag (o.namp J l p d)| ≤ l * K
  amps : o.Steady J l p → ∀ d, mag (s.namp J l c d - o.namp J l p d) ≤ l * K

omit [LawfulSqrt R] in
theorem Cp.mono {K : R} {l : Nat} {p c : Option Nat} (h : Cp J o s K l p c) (h1 : TInv J τ s) (h2 : TInv J τ s') (g : Grow J s s') : Cp J o s' K l p c := by
  refine ⟨g.nodeOk h.node, h.none, fun d => ?_, fun hs d => ?_⟩
  · rw [g.namp h1 h2 d h.node]; exact h.mods d
  · rw [g.namp h1 h2 d h.node]; exact h.amps hs d

theorem kid_pow (hτ : 0 ≤ τ) : ∀ (l : Nat), 1000 * ((l : R) + 1) * τ ≤ 1 → kidBound τ ^ l ≤ 1 + 5 * l * τ := by
  intro l
  induction l with
  | zero => intro _; simp
  | succ l ih =>
    intro h
    push_cast at h ⊢
    have l0 : (0 : R) ≤ l := Nat.cast_nonneg l
    have lt : 0 ≤ (l : R) * τ := mul_nonneg l0 hτ
    have := ih (by linarith)
    rw [pow_succ]
    have h1 : kidBound τ ^ l * kidBound τ ≤ (1 + 5 * l * τ) * kidBound τ := mul_le_mul_of_nonneg_right this (by linarith [kidBound_one hτ])
    have h2 : kidBound τ = 1 + 4 * τ := rfl
    have h3 : τ * ((l : R) * τ) ≤ τ * (1 / 1000) := mul_le_mul_of_nonneg_left (by linarith) hτ
    rw [h2] at h1 ⊢
    linarith

set_option maxHeartbeats 1000000 in
/-- Copying a node whose children have been copied. -/
theorem copyN (hJ : J.Good) (hτ : 0 ≤ τ) (ho : TInv J τ o) (h : TInv J τ s) {δ : R} (hd0 : 0 ≤ δ) (hδ : δ + 5 * τ ≤ 1 / 100) {a l : Nat}
    (hn : 1000 * ((l : R) + 1) * τ ≤ 1) (ha : o.NodeOk (l + 1) (some a)) (hl : l < (s.tab .v).tab.nvars) (hs : o.SumsLe J δ (l + 1) (some a))
    {es : Fin 2 → PtrEdge} (hw : ∀ i, s.ct.LiveC J.C (es i).w)
    (hd : ∀ i, mag (s.ct.cval J.C (es i).w - o.ct.cval J.C (((o.tab .v).tab.mem a).e i).w) ≤ 3 / 2 * τ)
    (hc : ∀ i, Cp J o s (2 * δ + 25 * τ) l (((o.tab .v).tab.mem a).e i).p (es i).p) (hz : ∀ i, (es i).p = none → l = 0 ∨ (es i).w = CNum.zero) :
    ∃ q r, UOk J τ (δ + 22 / 5 * τ) s l es (s.makeU J l es) q r ∧ Cp J o (s.makeU J l es).1 (2 * δ + 25 * τ) (l + 1) (some a) (some q) ∧
      (TReach J τ s → TReach J τ (s.makeU J l es).1) ∧
      (o.Steady J (l + 1) (some a) → mag ((s.makeU J l es).1.ct.cval J.C r - 1) ≤ δ + 52 / 5 * τ) := by
  have l0 : (0 : R) ≤ l := Nat.cast_nonneg l
  have lt : 0 ≤ (l : R) * τ := mul_nonneg l0 hτ
  have hτ1 : 1000 * τ ≤ 1 := by linarith
  have hlv : ((o.tab .v).tab.mem a).v = l := by have := ha.2; omega
  have vk := fun i => (ho.kids a ha.1 i)
  rw [hlv] at vk
  set z : Fin 2 → Cx R := fun i => o.ct.cval J.C (((o.tab .v).tab.mem a).e i).w with hzd
  set w : Fin 2 → Cx R := fun i => s.ct.cval J.C (es i).w with hwd
  have hd' : ∀ i, mag (w i - z i) ≤ 3 / 2 * τ := hd
  have hS : |(z 0).mag2 + (z 1).mag2 - 1| ≤ δ := hs.1
  have hS' := abs_le.1 hS
  have q0 := mag_sq (z 0)
  have q1 := mag_sq (z 1)
  have g0 := mag_nonneg (z 0)
  have g1 := mag_nonneg (z 1)
  have sum1 : mag (z 0) + mag (z 1) ≤ 1422 / 1000 := by
    refine le_of_sq (by norm_num) ?_
    nlinarith [mul_self_nonneg (mag (z 0) - mag (z 1))]
  have ττ : τ * τ ≤ τ * (1 / 1000) := mul_le_mul_of_nonneg_left (by linarith) hτ
  have hS2 : |(w 0).mag2 + (w 1).mag2 - 1| ≤ δ + 22 / 5 * τ := by
    have a0 := abs_le.1 (mag2_dist (hd' 0))
    have a1 := abs_le.1 (mag2_dist (hd' 1))
    have := mul_le_mul_of_nonneg_left sum1 hτ
    rw [abs_le]
    constructor <;> linarith
  have hval : ∀ i, s.ValidV J l (es i) := fun i => .intro (hw i) (hc i).node (hz i)
  obtain ⟨q, r, u⟩ := makeU_acc hJ hτ hτ1 h hl hval (by linarith) hS2
  set m := s.makeU J l es with hm
  have hrc : TReach J τ s → TReach J τ m.1 := fun hr => hr.step (.makeNode l es hl hval hτ1 (hS2.trans (by linarith)))
  clear_value m
  set K := 2 * δ + 25 * τ with hK
  have K0 : 0 ≤ K := by rw [hK]; linarith
  set ρ := m.1.ct.cval J.C r with hρ
  have hsz := abs_le.1 u.size
  have kb := kid_pow hτ l hn
  have lK : 0 ≤ (l : R) * K := mul_nonneg l0 K0
  have tlK : τ * ((l : R) * K) ≤ 1 / 1000 * K := by
    have : τ * ((l : R) * K) = (l * τ) * K := by ring
    rw [this]
    exact mul_le_mul_of_nonneg_right (by linarith) K0
  -- the new weights
  set w' : Fin 2 → Cx R := fun i => m.1.ct.cval J.C (((m.1.tab .v).tab.mem q).e i).w with hw'
  have mw' : ∀ i, mag (w' i) ≤ 1 + 16 / 5 * τ := fun i => (u.inv.kids q u.node.1 i).2
  have acc : ∀ i, mag (ρ * w' i - z i) ≤ 17 / 2 * τ := fun i => by
    have := mag_tri (ρ * w' i) (w i) (z i)
    have h1 := u.acc i
    have h2 := hd' i
    linarith
  have wm : ∀ i, |mag (w' i) - mag (z i)| ≤ 101 / 100 * δ + 15 * τ := by
    intro i
    have h1 := mag_dist (acc i)
    rw [mag_mul] at h1
    have h1 := abs_le.1 h1
    have h2 := mag_nonneg (w' i)
    have h3 : |mag ρ * mag (w' i) - mag (w' i)| ≤ (δ + 22 / 5 * τ + 2 * τ) * (101 / 100) := by
      have e : mag ρ * mag (w' i) - mag (w' i) = (mag ρ - 1) * mag (w' i) := by ring
      rw [e, abs_mul, abs_of_nonneg h2]
      exact mul_le_mul u.size (by linarith [mw' i]) h2 (by linarith)
    have h3 := abs_le.1 h3
    rw [abs_le]
    constructor <;> linarith
  have ws : mag (ρ - 1) ≤ δ + 52 / 5 * τ → ∀ i, mag (w' i - z i) ≤ 101 / 100 * δ + 20 * τ := by
    intro hρ1 i
    have e : w' i - z i = (ρ * w' i - z i) - (ρ - 1) * w' i := by ring
    rw [e]
    have h1 := mag_sub_le (ρ * w' i - z i) ((ρ - 1) * w' i)
    have h2 := mag_mono_mul hρ1 (show mag (w' i) ≤ 101 / 100 by linarith [mw' i])
    have h3 := acc i
    linarith
  have nb : ∀ (p : Option Nat) (d : Fin l → Fin 2), o.NodeOk l p → mag (o.namp J l p d) ≤ 101 / 100 := by
    intro p d hp
    have := namp_bound hτ ho l p d hp
    linarith
  have small : ∀ i, mag (w' i) ≤ 3 / 2 * τ → mag (z i) ≤ 11 * τ := by
    intro i hi
    have h1 := mag_dist (acc i)
    rw [mag_mul] at h1
    have h1 := abs_le.1 h1
    have : mag ρ * mag (w' i) ≤ 11 / 10 * (3 / 2 * τ) := mul_le_mul (by linarith) hi (mag_nonneg _) (by norm_num)
    linarith
  have stead : o.Steady J (l + 1) (some a) → mag (ρ - 1) ≤ δ + 52 / 5 * τ := by
    intro hst
    have hst1 := hst.1
    rw [ho.tol hJ hτ] at hst1
    obtain ⟨x, hx, hx2⟩ := lead_steady hJ hτ hτ1 h hd' (hS.trans (by linarith)) hst1
    have := u.lead x hx hx2
    linarith
  refine ⟨q, r, u, ⟨u.node, by simp, fun d => ?_, fun hst d => ?_⟩, hrc, stead⟩
  · rw [namp_succ, namp_succ]
    set i := d (Fin.last l) with hi
    set d' : Fin l → Fin 2 := Fin.init d with hd''
    have kn := (vk i).1.node
    have nbi := nb _ d' kn
    have n0 := mag_nonneg (o.namp J l (((o.tab .v).tab.mem a).e i).p d')
    show |mag (w' i * _) - mag (z i * _)| ≤ _
    rw [mag_mul, mag_mul]
    set N := mag (o.namp J l (((o.tab .v).tab.mem a).e i).p d') with hN
    have wmi := abs_le.1 (wm i)
    have w0 := mag_nonneg (w' i)
    push_cast
    rcases u.kid i with hk | ⟨hk, hk2⟩
    · rw [hk, u.grow.namp h u.inv d' (hc i).node]
      have hcp := (hc i).mods d'
      set N' := mag (s.namp J l (es i).p d') with hN'
      have e : mag (w' i) * N' - mag (z i) * N = (mag (w' i) - mag (z i)) * N + mag (w' i) * (N' - N) := by ring
      rw [e]
      have h1 : |(mag (w' i) - mag (z i)) * N| ≤ (101 / 100 * δ + 15 * τ) * (101 / 100) := by
        rw [abs_mul, abs_of_nonneg n0]
        exact mul_le_mul (wm i) nbi n0 (by linarith)
      have h2 : |mag (w' i) * (N' - N)| ≤ (1 + 16 / 5 * τ) * (l * K) := by
        rw [abs_mul, abs_of_nonneg w0]
        exact mul_le_mul (mw' i) hcp (abs_nonneg _) (by linarith)
      refine (abs_add_le _ _).trans ?_
      linarith
    · rw [hk, namp_none, mag_one, mul_one]
      have hz11 := small i hk2
      have h1 : mag (z i) * N ≤ 11 * τ * (101 / 100) := mul_le_mul hz11 nbi n0 (by linarith)
      have h2 : 0 ≤ mag (z i) * N := mul_nonneg (mag_nonneg _) n0
      have hk2' : mag (w' i) ≤ 3 / 2 * τ := hk2
      rw [abs_le]
      constructor <;> linarith
  · have wsi := ws (stead hst) (d (Fin.last l))
    rw [namp_succ, namp_succ]
    set i := d (Fin.last l) with hi
    set d' : Fin l → Fin 2 := Fin.init d with hd''
    have kn := (vk i).1.node
    have nbi := nb _ d' kn
    show mag (w' i * _ - z i * _) ≤ _
    push_cast
    rcases u.kid i with hk | ⟨hk, hk2⟩
    · rw [hk, u.grow.namp h u.inv d' (hc i).node]
      have hcp := (hc i).amps (hst.2 i) d'
      have e : w' i * s.namp J l (es i).p d' - z i * o.namp J l (((o.tab .v).tab.mem a).e i).p d' =
          (w' i - z i) * o.namp J l (((o.tab .v).tab.mem a).e i).p d' +
          w' i * (s.namp J l (es i).p d' - o.namp J l (((o.tab .v).tab.mem a).e i).p d') := by ring
      rw [e]
      have h1 := mag_mono_mul wsi nbi
      have h2 := mag_mono_mul (mw' i) hcp
      have h3 := mag_add ((w' i - z i) * o.namp J l (((o.tab .v).tab.mem a).e i).p d')
        (w' i * (s.namp J l (es i).p d' - o.namp J l (((o.tab .v).tab.mem a).e i).p d'))
      linarith
    · rw [hk, namp_none, mul_one]
      have hz11 := small i hk2
      have hk2' : mag (w' i) ≤ 3 / 2 * τ := hk2
      have h1 := mag_mono_mul hz11 nbi
      have h2 := mag_sub_le (w' i) (z i * o.namp J l (((o.tab .v).tab.mem a).e i).p d')
      linarith

section reach

omit [LawfulSqrt R]

theorem lookup_reach' (hr : TReach J τ s) {v : R} (hv : 0 ≤ v) : TReach J τ { s with ct := (s.ct.lookup J.C v).1 } :=
  hr.step (.other (.lookup v hv) (fun _ ha => ha) (fun _ ha => Or.inl ha) (fun _ _ hk => hk) (fun _ _ hk => hk) (fun _ _ hk => hk) (fun _ _ hk => hk)
    (fun _ _ hk => hk))

theorem lookupSigned_reach' (hr : TReach J τ s) (x : R) : TReach J τ { s with ct := (s.ct.lookupSigned J.C x).1 } := by
  unfold CTab.lookupSigned
  split_ifs with h1 h2
  · exact hr
  · exact lookup_reach' hr (abs_nonneg x)
  · exact lookup_reach' hr (not_lt.1 h1)

theorem lookupC_reach' (hr : TReach J τ s) (z : Cx R) : TReach J τ (s.lookupC J z).1 :=
  lookupSigned_reach' (lookupSigned_reach' hr z.re) z.im

end reach

/-- The edge `x` of `s` is a copy of the edge `e` of `o`. -/
structure CpE (J : JCfg R) (τ : R) (o s : JState R) (K : R) (l : Nat) (e x : PtrEdge) : Prop where
  live : s.ct.LiveC J.C x.w
  near : mag (s.ct.cval J.C x.w - o.ct.cval J.C e.w) ≤ 3 / 2 * τ
  copy : Cp J o s K l e.p x.p
  none : x.p = none → l = 0 ∨ x.w = CNum.zero

omit [LawfulSqrt R] in
theorem CpE.mono {K : R} {l : Nat} {e x : PtrEdge} (h : CpE J τ o s K l e x) (h1 : TInv J τ s) (h2 : TInv J τ s') (g : Grow J s s') :
    CpE J τ o s' K l e x := by
  refine ⟨g.liveC h.live, ?_, h.copy.mono h1 h2 g, h.none⟩
  rw [g.cval h.live]; exact h.near

theorem cp_terminal {K : R} (hK : 0 ≤ K) (l : Nat) : Cp J o s K l none none := by
  have : 0 ≤ (l : R) * K := mul_nonneg (Nat.cast_nonneg l) hK
  refine ⟨trivial, fun _ => rfl, fun d => ?_, fun _ d => ?_⟩
  · rw [namp_none, namp_none, sub_self, abs_zero]; exact this
  · rw [namp_none, namp_none, sub_self, mag_zero]; exact this

/-- The properties of the copied edges after one of them has been copied. -/
def EdgeStep (J : JCfg R) (τ : R) (o s : JState R) (K : R) (l : Nat) (e : PtrEdge) (q : JState R × Option PtrEdge) : Prop :=
  (TInv J τ q.1 ∧ (TReach J τ s → TReach J τ q.1)) ∧ Grow J s q.1 ∧ ∃ x, q.2 = some x ∧ CpE J τ o q.1 K l e x

/-- Copying the two edges of a node. -/
theorem edges_spec {K : R} {l : Nat} {f : Fin 2 → JState R → JState R × Option PtrEdge} {es : Fin 2 → PtrEdge} (h : TInv J τ s)
    (hf : ∀ i s1, TInv J τ s1 → Grow J s s1 → EdgeStep J τ o s1 K l (es i) (f i s1)) :
    TInv J τ (seqFin 2 f s).1 ∧ Grow J s (seqFin 2 f s).1 ∧ (TReach J τ s → TReach J τ (seqFin 2 f s).1) ∧
      ∀ i, ∃ x, (seqFin 2 f s).2 i = some x ∧ CpE J τ o (seqFin 2 f s).1 K l (es i) x := by
  obtain ⟨h1, h2, h3⟩ := seqFin_grow' 2 f (fun s' i b => ∃ x, b = some x ∧ CpE J τ o s' K l (es i) x) s
    (fun i s1 t1 g1 => ⟨(hf i s1 t1 g1).1.1, (hf i s1 t1 g1).2.1, (hf i s1 t1 g1).2.2⟩)
    (fun s1 s2 i b t1 t2 g ⟨x, hx, hc⟩ => ⟨x, hx, hc.mono t1 t2 g⟩) s h (.refl s)
  refine ⟨h1, h2, fun hr => ?_, h3⟩
  obtain ⟨⟨a1, a2⟩, a3, -⟩ := hf 0 s h (.refl s)
  obtain ⟨⟨b1, b2⟩, b3, -⟩ := hf 1 _ a1 a3
  exact b2 (a2 hr)

/-- The result of copying the nodes. -/
structure RootRes (J : JCfg R) (τ δ : R) (o s : JState R) (a : Nat) (e : PtrEdge) : Prop where
  node : ∃ b, e.p = some b ∧ Cp J o s (2 * δ + 25 * τ) (((o.tab .v).tab.mem a).v + 1) (some a) (some b)
  live : s.ct.LiveC J.C e.w
  size : |mag (s.ct.cval J.C e.w) - 1| ≤ δ + 32 / 5 * τ
  phase : o.Steady J (((o.tab .v).tab.mem a).v + 1) (some a) → mag (s.ct.cval J.C e.w - 1) ≤ δ + 52 / 5 * τ

theorem tidy_children (ho : TInv J τ o) (hty : o.Tidy J) : Children (n := 2) (o.tabV J .v) := by
  intro a ha i
  have vk := (ho.kids a ha i).1
  cases hp : (((o.tab .v).tab.mem a).e i).p with
  | none =>
    refine (valid_none (by exact hp)).2 ?_
    rcases vk.none hp with h | h
    · left; exact h
    · right
      show o.ct.cval J.C (((o.tab .v).tab.mem a).e i).w = 0
      rw [h]; rfl
  | some b =>
    have := vk.node
    rw [hp] at this
    exact (valid_some (by exact hp)).2 ⟨this.1, this.2, hty a ha i b hp⟩

end DD
