import Verif.MeasureApproxSpec
import Verif.Model.ApproxMeasure
import Verif.Proofs.ApproxReach
import Verif.Proofs.Measure

/-! # The accuracy of `measureAll` -/

namespace DD

open Pkg JState

variable {R : Type} [Field R] [LinearOrder R] [IsStrictOrderedRing R] [FloorRing R] [HasSqrt R] [LawfulSqrt R]
variable {J : JCfg R} {τ : R} {s : JState R}

omit [FloorRing R] [HasSqrt R] [LawfulSqrt R] in
theorem mag2F_rnd {fl : R → R} {ε η : R} (h : Rnd fl τ ε η) (z : Cx R) : |mag2F fl z - z.mag2| ≤ τ / 200 * (1 + z.mag2) := by
  obtain ⟨h1, h2, h3, h4, h5, h6, herr⟩ := h
  have a1 := herr (z.re * z.re)
  have a2 := herr (z.im * z.im)
  have a3 := herr (fl (z.re * z.re) + fl (z.im * z.im))
  rw [abs_mul_self] at a1 a2
  have p1 := mul_self_nonneg z.re
  have p2 := mul_self_nonneg z.im
  unfold mag2F Cx.mag2
  generalize z.re * z.re = p at *
  generalize z.im * z.im = q at *
  generalize fl p = P at *
  generalize fl q = Q at *
  rw [abs_le] at a1 a2
  have b : |P + Q| ≤ 2 * (p + q) + 2 * η := by
    have e1 : ε * p ≤ 1 / 1000 * p := mul_le_mul_of_nonneg_right (by linarith) p1
    have e2 : ε * q ≤ 1 / 1000 * q := mul_le_mul_of_nonneg_right (by linarith) p2
    rw [abs_le]
    constructor <;> linarith
  have b1 := mul_le_mul_of_nonneg_left b h1
  have b2 : ε * η ≤ 1 / 1000 * η := mul_le_mul_of_nonneg_right (by linarith) h4
  have c1 := mul_le_mul_of_nonneg_right h2 (add_nonneg p1 p2)
  rw [abs_le] at a3 ⊢
  constructor <;> linarith

omit [FloorRing R] [HasSqrt R] [LawfulSqrt R] in
/-- The numbers computed at one node. -/
theorem meas_num {fl : R → R} {ε η m0 m1 p0 p1 δ eps : R} (h : Rnd fl τ ε η) (h0 : 0 ≤ m0) (h1 : 0 ≤ m1)
    (hp0 : |p0 - m0| ≤ τ / 200 * (1 + m0)) (hp1 : |p1 - m1| ≤ τ / 200 * (1 + m1)) (hS : |m0 + m1 - 1| ≤ δ) (hδ : δ + τ ≤ eps) (he : eps ≤ 1 / 2) :
    |fl (fl (p0 + p1) - 1)| ≤ eps ∧ 1 / 4 ≤ fl (p0 + p1) ∧ |fl (p0 / fl (p0 + p1)) - m0| ≤ δ + τ := by
  have hτ := h.pos
  obtain ⟨e1, e2, e3, e4, e5, e6, herr⟩ := h
  have d0 : 0 ≤ δ := (abs_nonneg _).trans hS
  rw [abs_le] at hS
  have t0 : τ / 200 * m0 ≤ τ / 200 * (3 / 2) := mul_le_mul_of_nonneg_left (by linarith) (by linarith)
  have t1 : τ / 200 * m1 ≤ τ / 200 * (3 / 2) := mul_le_mul_of_nonneg_left (by linarith) (by linarith)
  have tS : τ / 200 * (m0 + m1) ≤ τ / 200 * (3 / 2) := mul_le_mul_of_nonneg_left (by linarith) (by linarith)
  have hp0' := abs_le.1 hp0
  have hp1' := abs_le.1 hp1
  have a1 := herr (p0 + p1)
  have b1 : |p0 + p1| ≤ 2 := by rw [abs_le]; constructor <;> linarith
  have c1 := mul_le_mul_of_nonneg_left b1 e1
  have hT : |fl (p0 + p1) - (m0 + m1)| ≤ τ / 40 := by
    have a1' := abs_le.1 a1
    rw [abs_le]
    constructor <;> linarith
  generalize fl (p0 + p1) = T at *
  have T' := abs_le.1 hT
  have T1 : |T - 1| ≤ δ + τ / 40 := by rw [abs_le]; constructor <;> linarith
  have low : 1 / 4 ≤ T := by linarith
  have T0 : 0 < T := by linarith
  refine ⟨?_, low, ?_⟩
  · have a2 := herr (T - 1)
    have c2 := mul_le_mul_of_nonneg_left T1 e1
    have c3 : ε * (δ + τ / 40) ≤ ε * 1 := mul_le_mul_of_nonneg_left (by linarith) e1
    have := abs_sub_abs_le_abs_sub (fl (T - 1)) (T - 1)
    linarith
  · have a3 := herr (p0 / T)
    have up : p0 / T ≤ 1 + τ / 5 := by
      rw [div_le_iff₀ T0]
      have : τ / 5 * (1 / 4) ≤ τ / 5 * T := mul_le_mul_of_nonneg_left low (by linarith)
      linarith
    have dn : -(τ / 5) ≤ p0 / T := by
      rw [le_div_iff₀ T0]
      have : τ / 5 * (1 / 4) ≤ τ / 5 * T := mul_le_mul_of_nonneg_left low (by linarith)
      linarith
    have ab : |p0 / T| ≤ 1 + τ / 5 := by rw [abs_le]; constructor <;> linarith
    have e : p0 / T - p0 = p0 / T * (1 - T) := by field_simp
    have q1 : |p0 / T - p0| ≤ (1 + τ / 5) * (δ + τ / 40) := by
      rw [e, abs_mul, abs_sub_comm 1 T]
      exact mul_le_mul ab T1 (abs_nonneg _) (by linarith)
    have q2 : τ / 5 * (δ + τ / 40) ≤ τ / 5 * 1 := mul_le_mul_of_nonneg_left (by linarith) (by linarith)
    have q3 := mul_le_mul_of_nonneg_left ab e1
    have q4 : ε * (1 + τ / 5) ≤ ε * 2 := mul_le_mul_of_nonneg_left (by linarith) e1
    have q1' := abs_le.1 q1
    have a3' := abs_le.1 a3
    rw [abs_le]
    constructor <;> linarith

/-- The probability of a zero at a node. -/
def measQ (J : JCfg R) (w0 w1 : Cx R) : R :=
  max 0 (min 1 (J.fl (mag2F J.fl w0 / J.fl (mag2F J.fl w0 + mag2F J.fl w1))))

omit [LawfulSqrt R] in
theorem meas_node {ε η δ eps : R} (h : Rnd J.fl τ ε η) (hf : J.Exact) {w0 w1 : Cx R} (hS : |w0.mag2 + w1.mag2 - 1| ≤ δ) (hδ : δ + τ ≤ eps)
    (he : eps ≤ 1 / 2) :
    |J.fl (J.fl (mag2F J.fl w0 + mag2F J.fl w1) - 1)| ≤ eps ∧ 0 ≤ measQ J w0 w1 ∧ measQ J w0 w1 ≤ 1 ∧
    |measQ J w0 w1 - w0.mag2| ≤ 2 * δ + τ ∧ |1 - measQ J w0 w1 - w1.mag2| ≤ 2 * δ + τ ∧
    (w0 = 0 → measQ J w0 w1 = 0) ∧ (w1 = 0 → measQ J w0 w1 = 1) ∧
    ∀ u, 0 ≤ u → u < 1 → (u < J.fl (mag2F J.fl w0 / J.fl (mag2F J.fl w0 + mag2F J.fl w1)) ↔ u < measQ J w0 w1) := by
  obtain ⟨f0, f1, f2⟩ := hf
  obtain ⟨a1, a2, a3⟩ := meas_num h (Cx.mag2_nonneg w0) (Cx.mag2_nonneg w1) (mag2F_rnd h w0) (mag2F_rnd h w1) hS hδ he
  have z0 : mag2F J.fl (0 : Cx R) = 0 := by simp [mag2F, f0]
  have m0 := Cx.mag2_nonneg w0
  have m1 := Cx.mag2_nonneg w1
  have hS' := abs_le.1 hS
  have q0 : 0 ≤ measQ J w0 w1 := le_max_left _ _
  have q1 : measQ J w0 w1 ≤ 1 := max_le zero_le_one (min_le_left _ _)
  have d0 : 0 ≤ δ := (abs_nonneg _).trans hS
  have q2 : |measQ J w0 w1 - w0.mag2| ≤ δ + τ := by
    unfold measQ
    generalize J.fl (mag2F J.fl w0 / J.fl (mag2F J.fl w0 + mag2F J.fl w1)) = q at *
    have a3' := abs_le.1 a3
    have := h.pos
    rw [abs_le]
    rcases le_total q 1 with c | c
    · rw [min_eq_right c]
      rcases le_total 0 q with c' | c'
      · rw [max_eq_right c']; exact ⟨by linarith, by linarith⟩
      · rw [max_eq_left c']; exact ⟨by linarith, by linarith⟩
    · rw [min_eq_left c, max_eq_right zero_le_one]
      exact ⟨by linarith, by linarith⟩
  refine ⟨a1, q0, q1, by linarith, ?_, fun e => ?_, fun e => ?_, fun u u0 u1 => ?_⟩
  · have q2' := abs_le.1 q2
    rw [abs_le]
    constructor <;> linarith
  · unfold measQ
    rw [e, z0, zero_div, f0, min_eq_right zero_le_one, max_self]
  · unfold measQ
    rw [e, z0, add_zero] at a2 ⊢
    have e1 : J.fl (mag2F J.fl w0) = mag2F J.fl w0 := by unfold mag2F; rw [f2]
    rw [e1] at a2 ⊢
    rw [div_self (by linarith), f1, min_self, max_eq_right zero_le_one]
  · unfold measQ
    rw [lt_max_iff, lt_min_iff]
    constructor
    · exact fun h => Or.inr ⟨u1, h⟩
    · rintro (h | h)
      · linarith
      · exact h.2

omit [FloorRing R] [HasSqrt R] [LawfulSqrt R] in
theorem prod_num {b m B M κ K : R} {l : Nat} (hb0 : 0 ≤ b) (hb1 : b ≤ 1) (hm0 : 0 ≤ m) (hm : m ≤ 1 + κ) (hκ : 0 ≤ κ) (hbm : |b - m| ≤ κ) (hM0 : 0 ≤ M)
    (hM : M ≤ K) (hK : 1 ≤ K) (hBM : |B - M| ≤ l * κ * K) :
    |B * b - m * M| ≤ ((l + 1 : Nat) : R) * κ * ((1 + κ) * K) ∧ m * M ≤ (1 + κ) * K := by
  have n0 : (0 : R) ≤ l := Nat.cast_nonneg l
  constructor
  · have e : B * b - m * M = (B - M) * b + (b - m) * M := by ring
    rw [e]
    refine (abs_add_le _ _).trans ?_
    rw [abs_mul, abs_mul, abs_of_nonneg hb0, abs_of_nonneg hM0]
    have h1 : |B - M| * b ≤ l * κ * K * 1 := mul_le_mul hBM hb1 hb0 (by positivity)
    have h2 : |b - m| * M ≤ κ * K := mul_le_mul hbm hM hM0 hκ
    have h3 : 0 ≤ ((l : R) + 1) * κ * (κ * K) := by positivity
    push_cast
    linarith
  · exact mul_le_mul hm hM hM0 (by linarith)

theorem namp_succ (s : JState R) (l a : Nat) (d : Fin (l + 1) → Fin 2) : s.namp J (l + 1) (some a) d =
    s.ct.cval J.C (((s.tab .v).tab.mem a).e (d (Fin.last l))).w * s.namp J l (((s.tab .v).tab.mem a).e (d (Fin.last l))).p (Fin.init d) := rfl

/-- The walk. -/
theorem measureF_acc (hJ : J.Good) (h : TInv J τ s) (hf : J.Exact) {δ eps : R} (hd0 : 0 ≤ δ) (hδ : δ + τ ≤ eps) (he : eps ≤ 1 / 2) :
    ∀ (l : Nat) (e : PtrEdge), s.NodeOk l e.p → (e.p = none → l = 0) → s.SumsLe J δ l e.p →
    ∃ lo hi : (Fin l → Fin 2) → Fin l → R, (∀ d i, 0 ≤ lo d i ∧ lo d i ≤ hi d i ∧ hi d i ≤ 1) ∧
      (∀ d, |∏ i, (hi d i - lo d i) - (s.namp J l e.p d).mag2| ≤ l * (2 * δ + τ) * (1 + (2 * δ + τ)) ^ l ∧
        (s.namp J l e.p d).mag2 ≤ (1 + (2 * δ + τ)) ^ l) ∧
      ∀ (draw : Nat → R) (res : Nat → Char), (∀ i < l, 0 ≤ draw i ∧ draw i < 1) → (∀ i < l, res i = '0') →
        ∃ d r, JState.measureF J s eps draw l e res = some r ∧ (∀ i : Fin l, r i = if d i = 1 then '1' else '0') ∧
          (∀ i, l ≤ i → r i = res i) ∧ ∀ d', d' = d ↔ ∀ i : Fin l, lo d' i ≤ draw i ∧ draw i < hi d' i := by
  obtain ⟨ε, η, hε0, hε1, hε2, hη0, hη1, hη2, herr⟩ := h.rnd
  have rd : Rnd J.fl τ ε η := ⟨hε0, hε1, hε2, hη0, hη1, hη2, herr⟩
  have hκ : 0 ≤ 2 * δ + τ := by have := rd.pos; linarith
  intro l
  induction l with
  | zero =>
    intro e _ _ _
    refine ⟨fun _ _ => 0, fun _ _ => 1, fun _ i => i.elim0, fun d => ?_, fun draw res _ _ => ?_⟩
    · have : s.namp J 0 e.p d = 1 := rfl
      rw [this, Cx.mag2_one]
      simp
    · exact ⟨Fin.elim0, res, rfl, fun i => i.elim0, fun _ _ => rfl, fun d' => ⟨fun _ i => i.elim0, fun _ => funext fun i => i.elim0⟩⟩
  | succ l ih =>
    intro e hn h0 hs
    obtain ⟨a, hp⟩ : ∃ a, e.p = some a := by
      cases hq : e.p with
      | none => exact absurd (h0 hq) (by omega)
      | some a => exact ⟨a, rfl⟩
    rw [hp] at hn hs
    have hl : ((s.tab .v).tab.mem a).v = l := by have := hn.2; omega
    have vk := fun i => (h.kids a hn.1 i).1
    rw [hl] at vk
    set w : Fin 2 → Cx R := fun c => s.ct.cval J.C (((s.tab .v).tab.mem a).e c).w with hw
    have key : ∀ c : Fin 2, ∃ lo hi : (Fin l → Fin 2) → Fin l → R, (∀ d i, 0 ≤ lo d i ∧ lo d i ≤ hi d i ∧ hi d i ≤ 1) ∧
        (w c ≠ 0 → (∀ d, |∏ i, (hi d i - lo d i) - (s.namp J l (((s.tab .v).tab.mem a).e c).p d).mag2| ≤ l * (2 * δ + τ) * (1 + (2 * δ + τ)) ^ l ∧
          (s.namp J l (((s.tab .v).tab.mem a).e c).p d).mag2 ≤ (1 + (2 * δ + τ)) ^ l) ∧
        ∀ (draw : Nat → R) (res : Nat → Char), (∀ i < l, 0 ≤ draw i ∧ draw i < 1) → (∀ i < l, res i = '0') →
        ∃ d r, JState.measureF J s eps draw l (((s.tab .v).tab.mem a).e c) res = some r ∧ (∀ i : Fin l, r i = if d i = 1 then '1' else '0') ∧
          (∀ i, l ≤ i → r i = res i) ∧ ∀ d', d' = d ↔ ∀ i : Fin l, lo d' i ≤ draw i ∧ draw i < hi d' i) := by
      intro c
      by_cases hc : w c = 0
      · exact ⟨fun _ _ => 0, fun _ _ => 1, fun _ _ => ⟨le_rfl, zero_le_one, le_rfl⟩, fun h => absurd hc h⟩
      · obtain ⟨lo, hi, h1, h2, h3⟩ := ih (((s.tab .v).tab.mem a).e c) (vk c).node
          (fun e => ((vk c).none e).resolve_right fun e => hc (by rw [hw]; dsimp only; rw [e, cval_zero])) (hs.2 c)
        exact ⟨lo, hi, h1, fun _ => ⟨h2, h3⟩⟩
    choose lo hi hbd hcase using key
    obtain ⟨n1, q0, q1, n2, n3, n4, n5, n6⟩ := meas_node rd hf (w0 := w 0) (w1 := w 1) hs.1 hδ he
    set q := measQ J (w 0) (w 1) with hq
    refine ⟨fun d => Fin.snoc (α := fun _ => R) (lo (d (Fin.last l)) (Fin.init d)) (if d (Fin.last l) = 0 then 0 else q),
      fun d => Fin.snoc (α := fun _ => R) (hi (d (Fin.last l)) (Fin.init d)) (if d (Fin.last l) = 0 then q else 1), ?_, ?_, ?_⟩
    · intro d i
      refine Fin.lastCases ?_ (fun i => ?_) i
      · simp only [Fin.snoc_last]
        split_ifs
        · exact ⟨le_rfl, q0, q1⟩
        · exact ⟨q0, q1, le_rfl⟩
      · simp only [Fin.snoc_castSucc]
        exact hbd _ _ _
    · rw [forall_snoc]
      intro d c
      rw [Fin.prod_univ_castSucc, hp, namp_succ]
      simp only [Fin.snoc_castSucc, Fin.snoc_last, Fin.init_snoc]
      rw [Cx.mag2_mul]
      have hS := abs_le.1 hs.1
      have mz : ∀ c, 0 ≤ (w c).mag2 := fun c => Cx.mag2_nonneg _
      have hlast : 0 ≤ ((if c = 0 then q else 1) - if c = 0 then 0 else q) ∧ ((if c = 0 then q else 1) - if c = 0 then 0 else q) ≤ 1 ∧
          |((if c = 0 then q else 1) - if c = 0 then 0 else q) - (w c).mag2| ≤ 2 * δ + τ ∧
          (w c = 0 → ((if c = 0 then q else 1) - if c = 0 then 0 else q) = 0) ∧ (w c).mag2 ≤ 1 + (2 * δ + τ) := by
        have := mz 0
        have := mz 1
        have := rd.pos
        fin_cases c
        · simp only [Fin.zero_eta, if_true, sub_zero]
          exact ⟨q0, q1, n2, n4, by show (w 0).mag2 ≤ _; linarith [hS.2]⟩
        · simp only [Fin.mk_one, one_ne_zero, if_false]
          exact ⟨by linarith, by linarith, n3, fun e => by rw [n5 e, sub_self], by show (w 1).mag2 ≤ _; linarith [hS.2]⟩
      obtain ⟨b0, b1, b2, b3, b4⟩ := hlast
      have K1 : 1 ≤ (1 + (2 * δ + τ)) ^ l := one_le_pow₀ (by linarith)
      rw [pow_succ, mul_comm _ (1 + (2 * δ + τ))]
      by_cases hc : w c = 0
      · have e1 : (s.ct.cval J.C (((s.tab .v).tab.mem a).e c).w).mag2 = 0 := by
          show (w c).mag2 = 0
          rw [hc, Cx.mag2_zero]
        rw [b3 hc, e1, mul_zero, zero_mul, sub_zero, abs_zero]
        have := mul_nonneg (by linarith : (0 : R) ≤ 1 + (2 * δ + τ)) (by linarith : 0 ≤ (1 + (2 * δ + τ)) ^ l)
        exact ⟨mul_nonneg (mul_nonneg (Nat.cast_nonneg _) hκ) this, this⟩
      · obtain ⟨c1, c2⟩ := (hcase c hc).1 d
        exact prod_num b0 b1 (mz c) b4 hκ b2 (Cx.mag2_nonneg _) c2 K1 c1
    · intro draw res hdraw hres
      unfold JState.measureF
      rw [hp]
      dsimp only
      rw [if_neg (not_lt.2 n1)]
      have hd0 := hdraw l (by omega)
      have hdq := n6 (draw l) hd0.1 hd0.2
      -- the bit chosen at this level
      have step : ∀ (c : Fin 2) (res' : Nat → Char), w c ≠ 0 → (∀ i < l, res' i = '0') →
          (res' l = if c = 1 then '1' else '0') → (∀ i, l + 1 ≤ i → res' i = res i) → (draw l < q ↔ c = 0) →
          ∃ d r, JState.measureF J s eps draw l (((s.tab .v).tab.mem a).e c) res' = some r ∧
            (∀ i : Fin (l + 1), r i = if d i = 1 then '1' else '0') ∧
            (∀ i, l + 1 ≤ i → r i = res i) ∧ ∀ d' : Fin (l + 1) → Fin 2, d' = d ↔ ∀ i : Fin (l + 1),
              (Fin.snoc (α := fun _ => R) (lo (d' (Fin.last l)) (Fin.init d')) (if d' (Fin.last l) = 0 then 0 else q) : Fin (l + 1) → R) i ≤ draw i ∧
              draw i < (Fin.snoc (α := fun _ => R) (hi (d' (Fin.last l)) (Fin.init d')) (if d' (Fin.last l) = 0 then q else 1) : Fin (l + 1) → R) i := by
        intro c res' h0 hr1 hr2 hr3 hdr
        obtain ⟨_, h3⟩ := hcase c h0
        obtain ⟨d, r, e1, e2, e3, e4⟩ := h3 draw res' (fun i hi => hdraw i (by omega)) hr1
        refine ⟨Fin.snoc (α := fun _ => Fin 2) d c, r, e1, ?_, fun i hi => by rw [e3 i (by omega), hr3 i hi], ?_⟩
        · intro i
          refine Fin.lastCases ?_ (fun i => ?_) i
          · rw [Fin.snoc_last, Fin.val_last, e3 l le_rfl, hr2]
          · rw [Fin.snoc_castSucc, Fin.val_castSucc, e2 i]
        · rw [forall_snoc]
          intro d' c'
          rw [Fin.forall_fin_succ']
          simp only [Fin.snoc_castSucc, Fin.snoc_last, Fin.init_snoc, Fin.val_castSucc, Fin.val_last]
          have hbit : ((if c' = 0 then 0 else q) ≤ draw l ∧ draw l < if c' = 0 then q else 1) ↔ c' = c := by
            by_cases hc' : c' = 0
            · rw [if_pos hc', if_pos hc']
              constructor
              · intro h; rw [hc', hdr.1 h.2]
              · intro h; exact ⟨hd0.1, hdr.2 (by rw [← h, hc'])⟩
            · rw [if_neg hc', if_neg hc']
              constructor
              · intro h
                have : c ≠ 0 := fun hcc => absurd (hdr.2 hcc) (not_lt.2 h.1)
                omega
              · intro h
                exact ⟨not_lt.1 (fun hlt => hc' (by rw [h, hdr.1 hlt])), hd0.2⟩
          rw [hbit]
          constructor
          · intro h
            have h1 : c' = c := by
              have := congrFun h (Fin.last l)
              rwa [Fin.snoc_last, Fin.snoc_last] at this
            have h2 : d' = d := by
              have := congrArg (fun f => Fin.init (α := fun _ => Fin 2) f) h
              simpa only [Fin.init_snoc] using this
            refine ⟨?_, h1⟩
            rw [h1]
            exact (e4 d').1 h2
          · rintro ⟨h1, h2⟩
            rw [h2] at h1 ⊢
            rw [(e4 d').2 h1]
      by_cases hlt : draw l < q
      · rw [if_pos (hdq.2 hlt)]
        exact step 0 res (fun e => by rw [n4 e] at hlt; linarith [hd0.1]) (fun i hi => hres i (by omega)) (by rw [hres l (by omega)]; rfl)
          (fun _ _ => rfl) ⟨fun _ => rfl, fun _ => hlt⟩
      · rw [if_neg (fun h => hlt (hdq.1 h)), hl]
        refine step 1 _ (fun e => by rw [n5 e] at hlt; exact hlt hd0.2) (fun i hi => ?_) ?_ (fun i hi => ?_)
          ⟨fun h => absurd h hlt, fun h => absurd h (by decide)⟩
        · rw [Function.update_of_ne (by omega)]; exact hres i (by omega)
        · rw [Function.update_self]; rfl
        · rw [Function.update_of_ne (by omega)]

/-- The norm of a diagram whose nodes are normalised up to `δ`. -/
theorem sums_norm (h : TInv J τ s) {δ : R} (hd0 : 0 ≤ δ) : ∀ (l : Nat) (p : Option Nat), s.NodeOk l p → (p = none → l = 0) → s.SumsLe J δ l p →
    |∑ d, (s.namp J l p d).mag2 - 1| ≤ l * δ * (1 + δ) ^ l := by
  intro l
  induction l with
  | zero =>
    intro p _ _ _
    have : ∀ d : Fin 0 → Fin 2, s.namp J 0 p d = 1 := fun d => rfl
    simp [this, Cx.mag2_one]
  | succ l ih =>
    intro p hn h0 hs
    cases p with
    | none => exact absurd (h0 rfl) (by omega)
    | some a =>
      have hl : ((s.tab .v).tab.mem a).v = l := by have := hn.2; omega
      have vk := fun i => (h.kids a hn.1 i).1
      rw [hl] at vk
      set w : Fin 2 → Cx R := fun c => s.ct.cval J.C (((s.tab .v).tab.mem a).e c).w with hw
      set N : Fin 2 → R := fun c => ∑ d, (s.namp J l (((s.tab .v).tab.mem a).e c).p d).mag2 with hN
      have e : ∑ d, (s.namp J (l + 1) (some a) d).mag2 = (w 0).mag2 * N 0 + (w 1).mag2 * N 1 := by
        have := sum_split (fun (i : Fin 2) (d : Fin l → Fin 2) => (w i * s.namp J l (((s.tab .v).tab.mem a).e i).p d).mag2)
        simp only [Cx.mag2_mul, ← Finset.mul_sum, Fin.sum_univ_two] at this
        rw [← this]
        exact Finset.sum_congr rfl fun d _ => Cx.mag2_mul _ _
      have K1 : 1 ≤ (1 + δ) ^ l := one_le_pow₀ (by linarith)
      have n0 : (0 : R) ≤ l := Nat.cast_nonneg l
      have k : ∀ c, |(w c).mag2 * N c - (w c).mag2| ≤ (w c).mag2 * (l * δ * (1 + δ) ^ l) := by
        intro c
        by_cases hc : w c = 0
        · rw [hc, Cx.mag2_zero]; simp
        · have := ih _ (vk c).node (fun e => ((vk c).none e).resolve_right fun e => hc (by rw [hw]; dsimp only; rw [e, cval_zero])) (hs.2 c)
          have e : (w c).mag2 * N c - (w c).mag2 = (w c).mag2 * (N c - 1) := by ring
          rw [e, abs_mul, abs_of_nonneg (Cx.mag2_nonneg _)]
          exact mul_le_mul_of_nonneg_left this (Cx.mag2_nonneg _)
      rw [e]
      have k0 := abs_le.1 (k 0)
      have k1 := abs_le.1 (k 1)
      have hS : |(w 0).mag2 + (w 1).mag2 - 1| ≤ δ := hs.1
      have hS := abs_le.1 hS
      have E0 : 0 ≤ (l : R) * δ * (1 + δ) ^ l := by positivity
      have b : ((w 0).mag2 + (w 1).mag2) * (l * δ * (1 + δ) ^ l) ≤ (1 + δ) * (l * δ * (1 + δ) ^ l) := mul_le_mul_of_nonneg_right (by linarith) E0
      have c : δ * 1 ≤ δ * ((1 + δ) ^ l * (1 + δ)) := mul_le_mul_of_nonneg_left (by nlinarith) hd0
      rw [pow_succ]
      push_cast
      rw [abs_le]
      constructor <;> linarith

end DD
