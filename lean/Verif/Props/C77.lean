import Verif.Proofs.ApproxMeasureAcc
import Verif.Props.C40
import Verif.Props.C76

/-!
# C77: measuring all qubits follows the Born rule up to the tolerance

In a package with tolerance `τ` the weights of the nodes are normalised only approximately, and probabilities are computed with rounded
arithmetic. If the nodes are normalised up to `δ`, `measureAll` nevertheless returns every string with the probability given by the state, up to
about `2 n (2 δ + τ)`. Strings whose amplitude is zero are never returned, whatever the diagram.
-/

namespace DD

open Pkg UTable

variable {R : Type} [Field R] [LinearOrder R] [IsStrictOrderedRing R] [FloorRing R] [HasSqrt R] [LawfulSqrt R]
variable {J : JCfg R} {τ : R} {s s' : JState R}

theorem lvlV_eq (hJ : J.Good) (hτ : 0 ≤ τ) (h : TInv J τ s) {n : Nat} {x : PtrEdge} (hx : s.ValidV J n x) (hw : 3 / 2 * τ < mag (s.ct.cval J.C x.w)) :
    (x.p = none → n = 0) ∧ s.lvlV x.p = n ∧ s.ct.zeroV (s.ct.cval J.C x.w) = false := by
  have tol := h.tol hJ hτ
  have h0 : s.ct.cval J.C x.w ≠ 0 := by
    intro e
    rw [e, mag_zero] at hw
    linarith
  have hp : x.p = none → n = 0 := fun e => (hx.none e).resolve_right fun e => h0 (by rw [e, cval_zero])
  refine ⟨hp, ?_, ?_⟩
  · cases hq : x.p with
    | none => rw [hp hq]; rfl
    | some a => exact nodeOk_lvl (hq ▸ hx.node)
  · by_contra hz
    have := zeroV_mag' (t := s.ct) (by rw [tol]; exact hτ) (by simpa using hz : s.ct.zeroV (s.ct.cval J.C x.w) = true)
    rw [tol] at this
    linarith

/-- A vector whose weight is zero up to the tolerance is rejected. -/
theorem C77_zero (hJ : J.Good) (hτ : 0 ≤ τ) (hτ1 : 1000 * τ ≤ 1) (hR : J.Rounds τ) (hr : TReach J τ s) {x : PtrEdge} {eps : R} (he : eps ≤ 1 / 2)
    (hz : |(s.ct.cval J.C x.w).re| ≤ τ ∧ |(s.ct.cval J.C x.w).im| ≤ τ) (draw : Nat → R) : s.measureAll J x eps draw = none := by
  have hi := hr.inv hJ hR hτ
  have tol := hi.tol hJ hτ
  obtain ⟨ε, η, h⟩ := hR.ok
  have h1 := abs_le.1 (mag2F_rnd h (s.ct.cval J.C x.w))
  have h2 : (s.ct.cval J.C x.w).mag2 ≤ 2 * (τ * τ) := by
    have a := abs_mul_abs_self (s.ct.cval J.C x.w).re
    have b := abs_mul_abs_self (s.ct.cval J.C x.w).im
    have c := mul_le_mul hz.1 hz.1 (abs_nonneg _) hτ
    have d := mul_le_mul hz.2 hz.2 (abs_nonneg _) hτ
    unfold Cx.mag2
    linarith
  have h0 := Cx.mag2_nonneg (s.ct.cval J.C x.w)
  have h3 : τ * τ ≤ 1 / 1000 := by nlinarith
  set m := mag2F J.fl (s.ct.cval J.C x.w) with hm
  have h4 : -(1 / 100) ≤ m ∧ m ≤ 1 / 100 := by
    constructor <;> nlinarith
  have h5 := abs_le.1 (h.err (m - 1))
  have h6 : |m - 1| ≤ 2 := abs_le.2 ⟨by linarith, by linarith⟩
  have h7 : ε * |m - 1| ≤ 1 / 500 := by
    have := mul_le_mul_of_nonneg_left h6 h.nn
    linarith [h.one]
  unfold JState.measureAll
  rw [if_pos]
  refine ⟨?_, ?_⟩
  · refine lt_of_le_of_lt he (lt_abs.2 (Or.inr ?_))
    linarith [h.eta1, h.one]
  · simp only [CTab.zeroV, CTab.approxZero, tol, hz.1, hz.2, decide_true, Bool.and_self]

/-- The Born rule up to the tolerance. For every state there are, for every bit string `d`, intervals within [0, 1) such that the string
returned is that of `d` exactly if all the random numbers drawn lie in these intervals. The product of their lengths differs from the
squared absolute value of the amplitude of `d`, divided by that of the state, by at most `2 n (2 δ + τ) (1 + 2 δ + τ)ⁿ`, where the nodes of the
diagram are normalised up to `δ`. The function always returns a string if its parameter `eps` is at least `δ + τ`. -/
theorem C77_born (hJ : J.Good) (hτ : 0 ≤ τ) (hR : J.Rounds τ) (hf : J.Exact) (hr : TReach J τ s) {n : Nat} {x : PtrEdge} (hx : s.ValidV J n x)
    (hw : 3 / 2 * τ < mag (s.ct.cval J.C x.w)) {δ eps : R} (hd0 : 0 ≤ δ) (hs : s.SumsLe J δ n x.p) (hδ : δ + τ ≤ eps) (he : eps ≤ 1 / 2) :
    ∃ lo hi : (Fin n → Fin 2) → Fin n → R, (∀ d i, 0 ≤ lo d i ∧ lo d i ≤ hi d i ∧ hi d i ≤ 1) ∧
      (∀ d, |∏ i, (hi d i - lo d i) - (s.vecJ J n x d).mag2 / ∑ d', (s.vecJ J n x d').mag2| ≤
        2 * n * (2 * δ + τ) * (1 + (2 * δ + τ)) ^ n) ∧
      ∀ draw : Nat → R, (∀ i < n, 0 ≤ draw i ∧ draw i < 1) →
        (∃ d : Fin n → Fin 2, s.measureAll J x eps draw = some (bitText d)) ∧
        ∀ d : Fin n → Fin 2, s.measureAll J x eps draw = some (bitText d) ↔ ∀ i : Fin n, lo d i ≤ draw i ∧ draw i < hi d i := by
  have hi := hr.inv hJ hR hτ
  obtain ⟨hp, hlv, hz⟩ := lvlV_eq hJ hτ hi hx hw
  obtain ⟨lo, hi', h1, h2, h3⟩ := measureF_acc hJ hi hf hd0 hδ he n x hx.node hp hs
  refine ⟨lo, hi', h1, fun d => ?_, fun draw hdr => ?_⟩
  · have hN := sums_norm hi hd0 n x.p hx.node hp hs
    have w0 : 0 < (s.ct.cval J.C x.w).mag2 := by
      rw [← mag_sq]
      have : 0 < mag (s.ct.cval J.C x.w) := by linarith
      exact mul_pos this this
    have e1 : ∀ d, (s.vecJ J n x d).mag2 = (s.ct.cval J.C x.w).mag2 * (s.namp J n x.p d).mag2 := fun d => by rw [vecJ_eq, Cx.mag2_mul]
    have e2 : (s.vecJ J n x d).mag2 / ∑ d', (s.vecJ J n x d').mag2 = (s.namp J n x.p d).mag2 / ∑ d', (s.namp J n x.p d').mag2 := by
      simp only [e1, ← Finset.mul_sum]
      rw [mul_div_mul_left _ _ w0.ne']
    rw [e2]
    have hd := (h2 d).1
    have a0 := Cx.mag2_nonneg (s.namp J n x.p d)
    have aN : (s.namp J n x.p d).mag2 ≤ ∑ d', (s.namp J n x.p d').mag2 :=
      Finset.single_le_sum (f := fun d => (s.namp J n x.p d).mag2) (fun i _ => Cx.mag2_nonneg _) (Finset.mem_univ d)
    have n0 : (0 : R) ≤ n := Nat.cast_nonneg n
    have cmp : (n : R) * δ * (1 + δ) ^ n ≤ n * (2 * δ + τ) * (1 + (2 * δ + τ)) ^ n := by
      refine mul_le_mul (mul_le_mul_of_nonneg_left (by linarith) n0) (pow_le_pow_left₀ (by linarith) (by linarith) n) (by positivity) (by positivity)
    generalize (s.namp J n x.p d).mag2 = a at *
    generalize ∑ d', (s.namp J n x.p d').mag2 = N at *
    generalize ∏ i, (hi' d i - lo d i) = p at *
    have k : |a - a / N| ≤ |N - 1| := by
      by_cases hN0 : N = 0
      · have : a = 0 := by linarith
        rw [this]; simp
      · have N0 : 0 < N := lt_of_le_of_ne (a0.trans aN) (Ne.symm hN0)
        have e : a - a / N = a / N * (N - 1) := by field_simp
        rw [e, abs_mul, abs_of_nonneg (by positivity)]
        have : a / N ≤ 1 := by rw [div_le_one N0]; exact aN
        exact mul_le_of_le_one_left (abs_nonneg _) this
    refine (abs_sub_le p a _).trans ?_
    have := hN.trans cmp
    linarith
  · obtain ⟨d, r, e1, e2, _, e4⟩ := h3 draw (fun _ => '0') hdr (fun _ _ => rfl)
    have e : s.measureAll J x eps draw = some (bitText d) := by
      unfold JState.measureAll
      rw [if_neg (fun h => by rw [hz] at h; exact absurd h.2 (by decide)), hlv, e1, Option.map_some, resultString_eq e2]
    refine ⟨⟨d, e⟩, fun d' => ?_⟩
    rw [e, ← e4 d']
    constructor
    · intro h; exact bitText_inj (Option.some.inj h).symm
    · intro h; rw [h]

/-- The walk takes no edges of weight zero. -/
theorem measureF_possible (hJ : J.Good) (hτ : 0 ≤ τ) (h : TInv J τ s) (hf : J.Exact) {eps : R} (he : eps ≤ 1 / 2) {draw : Nat → R} :
    ∀ (l : Nat) (e : PtrEdge) (res r : Nat → Char), s.NodeOk l e.p → (∀ i < l, 0 ≤ draw i ∧ draw i < 1) → (∀ i < l, res i = '0') →
    JState.measureF J s eps draw l e res = some r →
    (∀ i, l ≤ i → r i = res i) ∧ ∃ d : Fin l → Fin 2, (∀ i : Fin l, r i = if d i = 1 then '1' else '0') ∧ s.namp J l e.p d ≠ 0 := by
  obtain ⟨ε, η, hε0, hε1, hε2, hη0, hη1, hη2, herr⟩ := h.rnd
  intro l
  induction l with
  | zero =>
    intro e res r _ _ _ hm
    have : res = r := Option.some.inj hm
    subst this
    exact ⟨fun _ _ => rfl, Fin.elim0, fun i => i.elim0, by show (1 : Cx R) ≠ 0; exact one_ne_zero⟩
  | succ l ih =>
    intro e res r hn hdraw hres hm
    unfold JState.measureF at hm
    cases hp : e.p with
    | none => rw [hp] at hm; cases hm
    | some a =>
      rw [hp] at hm hn
      dsimp only at hm
      have hl : ((s.tab .v).tab.mem a).v = l := by have := hn.2; omega
      have vk := fun i => (h.kids a hn.1 i).1
      rw [hl] at vk
      set w : Fin 2 → Cx R := fun c => s.ct.cval J.C (((s.tab .v).tab.mem a).e c).w with hw
      have z0 : mag2F J.fl (0 : Cx R) = 0 := by simp [mag2F, hf.1]
      have hd0 := hdraw l (by omega)
      have ne1 : mag2F J.fl (w 0) + mag2F J.fl (w 1) ≠ 0 ∨ ¬ |J.fl (J.fl (mag2F J.fl (w 0) + mag2F J.fl (w 1)) - 1)| ≤ eps := by
        by_cases h0 : mag2F J.fl (w 0) + mag2F J.fl (w 1) = 0
        · right
          rw [h0, hf.1, zero_sub]
          have := herr (-1)
          rw [abs_neg, abs_one] at this
          have h2 := abs_sub_abs_le_abs_sub (-1) (J.fl (-1))
          rw [abs_neg, abs_one, abs_sub_comm] at h2
          intro h3
          linarith
        · exact Or.inl h0
      have step : ∀ (c : Fin 2) (res' : Nat → Char), w c ≠ 0 → (∀ i < l, res' i = '0') →
          (res' l = if c = 1 then '1' else '0') → (∀ i, l + 1 ≤ i → res' i = res i) →
          JState.measureF J s eps draw l (((s.tab .v).tab.mem a).e c) res' = some r →
          (∀ i, l + 1 ≤ i → r i = res i) ∧ ∃ d : Fin (l + 1) → Fin 2, (∀ i : Fin (l + 1), r i = if d i = 1 then '1' else '0') ∧
            s.namp J (l + 1) (some a) d ≠ 0 := by
        intro c res' hc hr1 hr2 hr3 hm
        obtain ⟨e1, d, e2, e3⟩ := ih _ res' r (vk c).node (fun i hi => hdraw i (by omega)) hr1 hm
        refine ⟨fun i hi => by rw [e1 i (by omega), hr3 i hi], Fin.snoc (α := fun _ => Fin 2) d c, fun i => ?_, ?_⟩
        · refine Fin.lastCases ?_ (fun i => ?_) i
          · rw [Fin.snoc_last, Fin.val_last, e1 l le_rfl, hr2]
          · rw [Fin.snoc_castSucc, Fin.val_castSucc, e2 i]
        · rw [namp_succ, Fin.snoc_last, Fin.init_snoc]
          intro h0
          have : (w c * s.namp J l (((s.tab .v).tab.mem a).e c).p d).mag2 = 0 := by
            rw [show w c * s.namp J l (((s.tab .v).tab.mem a).e c).p d = 0 from h0, Cx.mag2_zero]
          rw [Cx.mag2_mul, mul_eq_zero] at this
          exact this.elim (fun h => hc (Cx.mag2_eq_zero.1 h)) (fun h => e3 (Cx.mag2_eq_zero.1 h))
      split_ifs at hm with h1 h2
      · refine step 0 res (fun e0 => ?_) (fun i hi => hres i (by omega)) (by rw [hres l (by omega)]; rfl) (fun _ _ => rfl) hm
        have e0 : s.ct.cval J.C (((s.tab .v).tab.mem a).e (0 : Fin 2)).w = 0 := e0
        rw [e0, z0, zero_div, hf.1] at h2
        linarith [hd0.1]
      · refine step 1 _ (fun e0 => ?_) (fun i hi => ?_) ?_ (fun i hi => ?_) (by rw [hl] at hm; exact hm)
        · have ne2 := ne1.resolve_right (fun h => h (not_lt.1 h1))
          rw [e0, z0, add_zero] at ne2
          have e0 : s.ct.cval J.C (((s.tab .v).tab.mem a).e (1 : Fin 2)).w = 0 := e0
          have e1 : J.fl (mag2F J.fl (w 0)) = mag2F J.fl (w 0) := by unfold mag2F; rw [hf.2.2]
          rw [e0, z0, add_zero, show s.ct.cval J.C (((s.tab .v).tab.mem a).e (0 : Fin 2)).w = w 0 from rfl, e1, div_self ne2, hf.2.1] at h2
          exact h2 hd0.2
        · rw [Function.update_of_ne (by omega)]; exact hres i (by omega)
        · rw [Function.update_self]; rfl
        · rw [Function.update_of_ne (by omega)]

/-- A string whose amplitude is zero is never returned, whatever the weights of the diagram. -/
theorem C77_possible (hJ : J.Good) (hτ : 0 ≤ τ) (hR : J.Rounds τ) (hf : J.Exact) (hr : TReach J τ s) {n : Nat} {x : PtrEdge} (hx : s.ValidV J n x)
    (hw : 3 / 2 * τ < mag (s.ct.cval J.C x.w)) {eps : R} (he : eps ≤ 1 / 2) {draw : Nat → R} (hdr : ∀ i < n, 0 ≤ draw i ∧ draw i < 1)
    {text : List Char} (hm : s.measureAll J x eps draw = some text) :
    ∃ d : Fin n → Fin 2, text = bitText d ∧ s.vecJ J n x d ≠ 0 := by
  have hi := hr.inv hJ hR hτ
  obtain ⟨hp, hlv, hz⟩ := lvlV_eq hJ hτ hi hx hw
  unfold JState.measureAll at hm
  rw [if_neg (fun h => by rw [hz] at h; exact absurd h.2 (by decide)), hlv, Option.map_eq_some_iff] at hm
  obtain ⟨r, m1, m2⟩ := hm
  obtain ⟨-, d, e1, e2⟩ := measureF_possible hJ hτ hi hf he n x _ r hx.node hdr (fun _ _ => rfl) m1
  refine ⟨d, by rw [← m2, resultString_eq e1], ?_⟩
  rw [vecJ_eq]
  intro h0
  have : (s.ct.cval J.C x.w * s.namp J n x.p d).mag2 = 0 := by rw [h0, Cx.mag2_zero]
  rw [Cx.mag2_mul, mul_eq_zero] at this
  refine this.elim (fun h => ?_) (fun h => e2 (Cx.mag2_eq_zero.1 h))
  rw [Cx.mag2_eq_zero.1 h, mag_zero] at hw
  linarith

/-- The Born rule up to the tolerance over the real numbers: if the random numbers are distributed uniformly and independently in [0, 1), a
string is returned with the probability given by the state, up to the error. -/
theorem C77_probability {J : JCfg ℝ} {τ : ℝ} {s : JState ℝ} (hJ : J.Good) (hτ : 0 ≤ τ) (hR : J.Rounds τ) (hf : J.Exact) (hr : TReach J τ s) {n : Nat}
    {x : PtrEdge} (hx : s.ValidV J n x) (hw : 3 / 2 * τ < mag (s.ct.cval J.C x.w)) {δ eps : ℝ} (hd0 : 0 ≤ δ) (hs : s.SumsLe J δ n x.p)
    (hδ : δ + τ ≤ eps) (he : eps ≤ 1 / 2) (d : Fin n → Fin 2) :
    |(MeasureTheory.volume {u : Fin n → ℝ | (∀ i, 0 ≤ u i ∧ u i < 1) ∧
      s.measureAll J x eps (fun i => if hi : i < n then u ⟨i, hi⟩ else 0) = some (bitText d)}).toReal -
    (s.vecJ J n x d).mag2 / ∑ d', (s.vecJ J n x d').mag2| ≤ 2 * n * (2 * δ + τ) * (1 + (2 * δ + τ)) ^ n := by
  obtain ⟨lo, hi, h1, h2, h3⟩ := C77_born hJ hτ hR hf hr hx hw hd0 hs hδ he
  have hset : {u : Fin n → ℝ | (∀ i, 0 ≤ u i ∧ u i < 1) ∧
      s.measureAll J x eps (fun i => if hi : i < n then u ⟨i, hi⟩ else 0) = some (bitText d)} =
      Set.pi Set.univ fun i => Set.Ico (lo d i) (hi d i) := by
    ext u
    simp only [Set.mem_ofPred_eq, Set.mem_pi, Set.mem_univ, true_imp_iff, Set.mem_Ico]
    constructor
    · rintro ⟨h4, h5⟩ i
      have := (((h3 _ (fun i hi => by rw [dif_pos hi]; exact h4 _)).2 d).1 h5) i
      rwa [dif_pos i.isLt] at this
    · intro h4
      have h5 : ∀ i, 0 ≤ u i ∧ u i < 1 := fun i =>
        ⟨le_trans (h1 d i).1 (h4 i).1, lt_of_lt_of_le (h4 i).2 (h1 d i).2.2⟩
      refine ⟨h5, ((h3 _ (fun i hi => by rw [dif_pos hi]; exact h5 _)).2 d).2 fun i => ?_⟩
      rw [dif_pos i.isLt]
      exact h4 i
  rw [hset, Real.volume_pi_Ico_toReal (fun i => (h1 d i).2.1)]
  exact h2 d

/-! ## The collapse -/

/-- Giving back a reference. -/
theorem dropV_spec (hJ : J.Good) (hτ : 0 ≤ τ) (h : TInv J τ s) {e : PtrEdge} (he : e ∈ (s.tab .v).held) :
    ∃ s', s.dropV J e = some s' ∧ TStep J τ s s' ∧ (s'.tab .v).held = (s.tab .v).held.erase e ∧ ∀ k, (s'.tab k).tab.nvars = (s.tab k).tab.nvars := by
  obtain ⟨r, t, h1, h2⟩ := (C17_release hJ (zero_tol hτ) h.reach).1 .v e he
  obtain ⟨pin, hi⟩ := h.reach.inv hJ (zero_tol hτ)
  obtain ⟨r', hr', sp⟩ := ((hi.tab .v).inv hJ.U).dec_exists hJ.U he
  rw [h1] at hr'
  have := Option.some.inj hr'
  subst this
  refine ⟨_, by unfold JState.dropV; rw [h1]; dsimp only; rw [h2], .other (.decRef .v e he r h1 t h2) (fun a ha => ?_) (fun a ha => Or.inl ha)
    (fun i k h => h) (fun i k h => h) (fun i k h => h) (fun i k h => h) (fun i k h => h), ?_, fun k => ?_⟩
  · have ha : a ∈ r.1.all := ha
    rwa [sp.shape.all] at ha
  · dsimp only
    rw [Function.update_self]
  · cases k with
    | v => exact sp.shape.nvars
    | m => rfl
    | d => rfl

/-- Collecting garbage. -/
theorem gc_spec (hJ : J.Good) (hτ : 0 ≤ τ) (h : TInv J τ s) (force : Bool) :
    TStep J τ s (s.garbageCollect J force).1 ∧ ∀ k, ((s.garbageCollect J force).1.tab k).held = (s.tab k).held := by
  obtain ⟨pin, hi⟩ := h.reach.inv hJ (zero_tol hτ)
  have key : (∀ k, ∀ a ∈ ((s.garbageCollect J force).1.tab k).tab.all, a ∈ (s.tab k).tab.all) ∧
      (∀ c i k, ((s.garbageCollect J force).1.cache c).slot i = some k → (s.cache c).slot i = some k) ∧
      ∀ k, ((s.garbageCollect J force).1.tab k).held = (s.tab k).held := by
    unfold JState.garbageCollect
    split_ifs
    · exact ⟨fun _ _ h => h, fun _ _ _ h => h, fun _ => rfl⟩
    · dsimp only
      obtain ⟨g1, _, g3⟩ := gcNodes_rest (J := J) (s := { s with ct := (s.ct.garbageCollect J.C force).1 })
        (if 0 < (s.ct.garbageCollect J.C force).2 then true else force) (s.ct.garbageCollect J.C force).2
      obtain ⟨g4, g5⟩ := gcNodes_cache (J := J) (s := { s with ct := (s.ct.garbageCollect J.C force).1 }) hi.count
        (if 0 < (s.ct.garbageCollect J.C force).2 then true else force) (s.ct.garbageCollect J.C force).2
      refine ⟨fun k a ha => ?_, fun c i k h => (g5 c i k h).1, fun k => by rw [g3]⟩
      rw [g3] at ha
      exact gc_subset _ _ _ ha
  exact ⟨.other (.garbageCollect force) (key.1 .v) (fun a ha => Or.inl (key.1 .m a ha)) (key.2.1 _) (key.2.1 _) (key.2.1 _) (key.2.1 _) (key.2.1 _), key.2.2⟩

theorem makeU_held (s : JState R) (v : Nat) (es : Fin 2 → PtrEdge) : ((s.makeU J v es).1.tab .v).held = (s.tab .v).held := by
  have n : ∀ (s : JState R) (es : Fin 2 → PtrEdge), ((s.nodeV J v es).1.tab .v).held = (s.tab .v).held := by
    intro s es
    unfold JState.nodeV
    dsimp only
    rw [Function.update_self]
  have c : ∀ (s : JState R) (z : Cx R), (s.lookupC J z).1.tab = s.tab := fun _ _ => rfl
  have l : ∀ (s : JState R) (z : CNum Loc), (s.lookupN J z).1.tab = s.tab := by
    intro s z
    unfold JState.lookupN
    split_ifs <;> rfl
  have t : ∀ (s : JState R), ((s.takeV J).tab .v).held = (s.tab .v).held ∧ ((s.takeBackV J).tab .v).held = (s.tab .v).held := by
    intro s
    unfold JState.takeV JState.takeBackV
    dsimp only
    rw [Function.update_self, Function.update_self]
    exact ⟨rfl, rfl⟩
  unfold JState.makeU
  dsimp only
  split_ifs
  · exact (t s).2
  · dsimp only; rw [n, l]
  · dsimp only; rw [n, l]
  all_goals first | rw [n, c, c, c] | rw [(t _).1, c]

theorem basisLoop_held (st : Nat → Basis) : ∀ (n : Nat) (s : JState R), ((s.basisLoop J st n).1.tab .v).held = (s.tab .v).held := by
  intro n
  induction n with
  | zero => intro s; rfl
  | succ n ih =>
    intro s
    show ((JState.makeU J _ n _).1.tab .v).held = _
    rw [makeU_held]
    rw [← ih s]
    unfold JState.basisKids
    cases st n <;> rfl

theorem bitText_length {n : Nat} (d : Fin n → Fin 2) : (bitText d).length = n := by simp [bitText]

theorem bitText_getD {n : Nat} (d : Fin n → Fin 2) (i : Fin n) : ((bitText d).reverse.map (· == '1')).getD i false = decide (d i = 1) := by
  unfold bitText
  rw [List.reverse_reverse, List.getD_eq_getElem?_getD]
  simp
  split_ifs <;> simp_all

/-- With the collapse flag, the same string is returned; the caller's reference to the measured state is replaced by one to the basis state of
that string, up to the tolerance, and all other vectors the caller holds keep their values. -/
theorem C77_collapse (hJ : J.Good) (hτ : 0 ≤ τ) (hR : J.Rounds τ) (hsq : SqOk J τ) (hr : TReach J τ s) {n : Nat} (hn : n < 128)
    (hz : 1000 * ((n : R) + 1) * τ ≤ 1) {x : PtrEdge} (hx : s.ValidV J n x) (hw : 3 / 2 * τ < mag (s.ct.cval J.C x.w))
    (hheld : x ∈ (s.tab .v).held) {eps : R} {draw : Nat → R} {d : Fin n → Fin 2} (hm : s.measureAll J x eps draw = some (bitText d)) :
    ∃ s' e, s.measureAllCollapse J x eps draw = some (s', e, bitText d) ∧ TReach J τ s' ∧ s'.ValidV J n e ∧
      (s'.tab .v).held = e :: (s.tab .v).held.erase x ∧
      (∀ d', mag (s'.vecJ J n e d' - if d' = d then 1 else 0) ≤ 12 * τ * n) ∧
      ∀ l y, y ∈ (s.tab .v).held.erase x → s.ValidV J l y → s'.ValidV J l y ∧ s'.vecJ J l y = s.vecJ J l y := by
  have hi := hr.inv hJ hR hτ
  obtain ⟨hp, hlv, hz'⟩ := lvlV_eq hJ hτ hi hx hw
  have hnv : n ≤ (s.tab .v).tab.nvars := by
    cases n with
    | zero => omega
    | succ n =>
      cases hq : x.p with
      | none => exact absurd (hp hq) (by omega)
      | some a => exact nodeOk_nvars hJ hτ hi (hq ▸ hx.node)
  obtain ⟨s1, e1, t1, d1, v1⟩ := dropV_spec hJ hτ hi hheld
  have r1 := hr.step t1
  have i1 := r1.inv hJ hR hτ
  set bits := (bitText d).reverse.map (· == '1') with hbits
  have hlen : n ≤ bits.length := by rw [hbits, List.length_map, List.length_reverse, bitText_length]
  obtain ⟨s2, e, e2, r2, v2, k2, a2⟩ := C74_bits hJ hτ hR hsq r1 (by rw [v1]; exact hnv) hz hlen
  have i2 := r2.inv hJ hR hτ
  have b2 : s1.basisLoop J (fun i => if bits.getD i false then .one else .zero) n = (s2, e) := by
    unfold JState.makeBasisState at e2
    split_ifs at e2
    exact Option.some.inj e2
  have h2 : (s2.tab .v).held = (s.tab .v).held.erase x := by
    have := basisLoop_held (J := J) (fun i => if bits.getD i false then .one else .zero) n s1
    rw [b2] at this
    exact this.trans d1
  obtain ⟨t3, -⟩ := holdV_spec hJ hτ i2 v2
  have r3 := r2.step t3
  have i3 := r3.inv hJ hR hτ
  obtain ⟨t4, g4⟩ := gc_spec hJ hτ i3 false
  have r4 := r3.step t4
  have i4 := r4.inv hJ hR hτ
  have h3 : ((s2.holdV J e).tab .v).held = e :: (s.tab .v).held.erase x := by
    rw [← h2]
    unfold JState.holdV
    dsimp only
    rw [Function.update_self]
  have h4 := (g4 .v).trans h3
  -- values survive the last two steps
  have keep : ∀ l y, y ∈ e :: (s.tab .v).held.erase x → s2.ValidV J l y →
      (JState.garbageCollect J (s2.holdV J e) false).1.ValidV J l y ∧
      (JState.garbageCollect J (s2.holdV J e) false).1.vecJ J l y = s2.vecJ J l y := by
    intro l y hy hv
    obtain ⟨k1, k2⟩ := held_value hJ hτ i2 i3 (t3.agree hJ hτ i2) hv (by rw [h3]; exact hy)
    obtain ⟨k3, k4⟩ := held_value hJ hτ i3 i4 (t4.agree hJ hτ i3) k1 (by rw [h4]; exact hy)
    exact ⟨k3, k4.trans k2⟩
  obtain ⟨kv, ke⟩ := keep n e (List.mem_cons_self ..) v2
  refine ⟨_, e, ?_, r4, kv, h4, fun d' => ?_, fun l y hy hv => ?_⟩
  · unfold JState.measureAllCollapse
    rw [hm]
    dsimp only
    rw [bitText_length, if_neg (by omega), e1]
    dsimp only
    rw [← hbits, b2]
  · rw [ke]
    refine le_trans (le_of_eq ?_) (a2 d')
    congr 3
    have : (fun i : Fin n => if bits[i.val]'(by omega) = true then (1 : Fin 2) else 0) = d := by
      funext i
      have h1 := bitText_getD d i
      rw [← hbits, List.getD_eq_getElem?_getD, List.getElem?_eq_getElem (by omega), Option.getD_some] at h1
      rw [h1]
      by_cases h2 : d i = 1
      · simp [h2]
      · simp [h2]; omega
    rw [this]
  · obtain ⟨k1, k2'⟩ := held_value hJ hτ hi i1 (t1.agree hJ hτ hi) hv (by rw [d1]; exact hy)
    obtain ⟨k3, k4⟩ := k2.1 l y k1
    obtain ⟨k5, k6⟩ := keep l y (List.mem_cons_of_mem _ hy) k3
    exact ⟨k5, k6.trans (k4.trans k2')⟩

/-! ## When the nodes are normalised -/

/-- If the vectors of all the nodes have norm at most `B`, as assumed in C68 and C76, the nodes are normalised. -/
theorem C77_normalised (hJ : J.Good) (hτ : 0 ≤ τ) (hτ1 : τ ≤ 1 / 12) (hR : J.Rounds τ) (hr : TReach J τ s) {B : R} (hB : 1 ≤ B) :
    ∀ {n : Nat} {x : PtrEdge}, s.ValidV J n x → s.NormLe J B n x.p → s.SumsLe J ((B * (1 + 12 * τ) ^ n) ^ 2 - 1) n x.p := by
  have hi := hr.inv hJ hR hτ
  have mono : ∀ {δ δ' : R}, δ ≤ δ' → ∀ (l : Nat) (p : Option Nat), s.SumsLe J δ l p → s.SumsLe J δ' l p := by
    intro δ δ' hδ l
    induction l with
    | zero => intro p _; trivial
    | succ l ih =>
      intro p hp
      cases p with
      | none => trivial
      | some a => exact ⟨hp.1.trans hδ, fun i => ih _ (hp.2 i)⟩
  intro n
  induction n with
  | zero => intro x _ _; trivial
  | succ l ih =>
    intro x hx hn
    cases hp : x.p with
    | none => trivial
    | some a =>
      have hN := hp ▸ hx.node
      rw [hp] at hn
      have hl : ((s.tab .v).tab.mem a).v = l := by have := hN.2; omega
      have vk := fun i => (hi.kids a hN.1 i).1
      rw [hl] at vk
      have K1 : 1 ≤ (1 + 12 * τ) ^ l := one_le_pow₀ (by linarith)
      have KK : (1 + 12 * τ) ^ l ≤ (1 + 12 * τ) ^ (l + 1) := pow_le_pow_right₀ (by linarith) (by omega)
      refine ⟨?_, fun i => mono ?_ _ _ (ih (vk i) (hn.2 i))⟩
      · -- the norms of the three nodes
        set w : Fin 2 → Cx R := fun c => s.ct.cval J.C (((s.tab .v).tab.mem a).e c).w with hw
        set N : Fin 2 → R := fun c => ∑ d, (s.namp J l (((s.tab .v).tab.mem a).e c).p d).mag2 with hNd
        have e : ∑ d, (s.namp J (l + 1) (some a) d).mag2 = (w 0).mag2 * N 0 + (w 1).mag2 * N 1 := by
          have := sum_split (fun (i : Fin 2) (d : Fin l → Fin 2) => (w i * s.namp J l (((s.tab .v).tab.mem a).e i).p d).mag2)
          simp only [Cx.mag2_mul, ← Finset.mul_sum, Fin.sum_univ_two] at this
          rw [← this]
          exact Finset.sum_congr rfl fun d _ => Cx.mag2_mul _ _
        have up : ∑ d, (s.namp J (l + 1) (some a) d).mag2 ≤ B ^ 2 := by
          have h1 := hn.1
          have e2 : s.vecJ J (l + 1) ⟨some a, CNum.one⟩ = s.namp J (l + 1) (some a) := by
            funext d
            rw [vecJ_eq, cval_one, one_mul]
          rw [e2] at h1
          rw [← vnorm_sq, sq]
          exact mul_self_le_mul_self (vnorm_nonneg _) h1
        have low : 1 ≤ ((1 + 12 * τ) ^ (l + 1)) ^ 2 * ∑ d, (s.namp J (l + 1) (some a) d).mag2 := by
          have h1 := namp_low hτ hτ1 hi (l + 1) (some a) hN
          have h2 := mul_self_le_mul_self (by norm_num : (0 : R) ≤ 1) h1
          rw [← vnorm_sq]
          nlinarith
        have klow : ∀ c, 1 ≤ ((1 + 12 * τ) ^ l) ^ 2 * N c := by
          intro c
          have h1 := namp_low hτ hτ1 hi l _ (vk c).node
          have h2 := mul_self_le_mul_self (by norm_num : (0 : R) ≤ 1) h1
          have : N c = vnorm (s.namp J l (((s.tab .v).tab.mem a).e c).p) * vnorm (s.namp J l (((s.tab .v).tab.mem a).e c).p) := by rw [vnorm_sq]
          rw [this]
          nlinarith
        have kup : ∀ c, (w c).mag2 * N c ≤ (w c).mag2 * B ^ 2 := by
          intro c
          by_cases hc : w c = 0
          · rw [hc, Cx.mag2_zero]; simp
          · refine mul_le_mul_of_nonneg_left ?_ (Cx.mag2_nonneg _)
            have h1 := hn.2 c
            have h3 : (((s.tab .v).tab.mem a).e c).p = none → l = 0 :=
              fun e => ((vk c).none e).resolve_right fun e => hc (by rw [hw]; dsimp only; rw [e, cval_zero])
            rw [hNd]
            dsimp only
            generalize (((s.tab .v).tab.mem a).e c).p = q at h1 h3
            cases l with
            | zero =>
              have : ∀ d : Fin 0 → Fin 2, s.namp J 0 q d = 1 := fun d => rfl
              simp only [this, Cx.mag2_one]
              simp
              exact hB.trans (le_abs_self B)
            | succ l =>
              cases q with
              | none => exact absurd (h3 rfl) (by omega)
              | some b =>
                have h1 := h1.1
                have e2 : s.vecJ J (l + 1) ⟨some b, CNum.one⟩ = s.namp J (l + 1) (some b) := by
                  funext d
                  rw [vecJ_eq, cval_one, one_mul]
                rw [e2] at h1
                rw [← vnorm_sq, sq]
                exact mul_self_le_mul_self (vnorm_nonneg _) h1
        show |(w 0).mag2 + (w 1).mag2 - 1| ≤ _
        have u0 := kup 0
        have u1 := kup 1
        have l0 := klow 0
        have l1 := klow 1
        rw [e] at up low
        have a0 := Cx.mag2_nonneg (w 0)
        have a1 := Cx.mag2_nonneg (w 1)
        generalize (w 0).mag2 = α at *
        generalize (w 1).mag2 = β at *
        generalize N 0 = M at *
        generalize N 1 = M' at *
        clear_value w N
        clear ih hn e
        generalize (1 + 12 * τ) ^ (l + 1) = K' at *
        generalize (1 + 12 * τ) ^ l = K at *
        have m0 := mul_le_mul_of_nonneg_left l0 a0
        have m1 := mul_le_mul_of_nonneg_left l1 a1
        have s1 : α + β ≤ (B * K) ^ 2 := by
          have := mul_le_mul_of_nonneg_left up (sq_nonneg K)
          nlinarith
        have KK2 : (B * K) ^ 2 ≤ (B * K') ^ 2 := pow_le_pow_left₀ (by positivity) (mul_le_mul_of_nonneg_left KK (by linarith)) 2
        have s2 : 1 ≤ (B * K') ^ 2 * (α + β) := by
          have := mul_le_mul_of_nonneg_left (add_le_add u0 u1) (sq_nonneg K')
          nlinarith
        have X1 : 1 ≤ (B * K') ^ 2 := by
          have : 1 * 1 ≤ B * K' := mul_le_mul hB (K1.trans KK) zero_le_one (by linarith)
          nlinarith
        generalize (B * K') ^ 2 = X at *
        rw [abs_le]
        constructor
        · by_contra hc
          push Not at hc
          have : X * (α + β) ≤ X * (2 - X) := mul_le_mul_of_nonneg_left (by linarith) (by linarith)
          nlinarith [sq_nonneg (X - 1)]
        · linarith
      · have h1 : 0 ≤ B * (1 + 12 * τ) ^ l := by positivity
        have h2 := pow_le_pow_left₀ h1 (mul_le_mul_of_nonneg_left KK (by linarith)) 2
        linarith

/-- The nodes of basis states are normalised. -/
theorem C77_basis (hJ : J.Good) (hτ : 0 ≤ τ) (hR : J.Rounds τ) (hsq : SqOk J τ) (hr : TReach J τ s) {n : Nat} (hn : n ≤ (s.tab .v).tab.nvars)
    (hz : 1000 * ((n : R) + 1) * τ ≤ 1) {state : List Basis} (hl : n ≤ state.length) {e : PtrEdge} (he : s.makeBasisStates J n state = some (s', e)) :
    s'.SumsLe J (40 * τ) n e.p ∧ 3 / 2 * τ < mag (s'.ct.cval J.C e.w) := by
  have hi := hr.inv hJ hR hτ
  obtain ⟨a1, a2, a3⟩ := basisLoop_acc hJ hτ hsq hi (fun i => state.getD i .zero) n hn hz
  unfold JState.makeBasisStates at he
  rw [if_neg (by omega), if_neg (by omega)] at he
  rw [Option.some.inj he] at a3
  refine ⟨a3.sums, ?_⟩
  have h1 := a3.wt
  have h2 := mag_le_add 1 (s'.ct.cval J.C e.w)
  rw [mag_one, mag_sub_comm] at h2
  dsimp only at h1
  have : 0 ≤ (n : R) * τ := by positivity
  have : 1000 * ((n : R) + 1) * τ = 1000 * (n * τ) + 1000 * τ := by ring
  have : 31 / 10 * τ * n = 31 / 10 * (n * τ) := by ring
  linarith

namespace Ex

theorem JR_exact : JR.Exact := ⟨rfl, rfl, fun _ => rfl⟩

/-- A product state of ten qubits in a package with the tolerance of the code: all strings are returned with the right probabilities. -/
example : ∃ s x, TReach JR (1 / 2 ^ 42) s ∧ s.ValidV JR 10 x ∧ ∀ d,
    |(MeasureTheory.volume {u : Fin 10 → ℝ | (∀ i, 0 ≤ u i ∧ u i < 1) ∧
      s.measureAll JR x (1 / 1000) (fun i => if hi : i < 10 then u ⟨i, hi⟩ else 0) = some (bitText d)}).toReal -
    (s.vecJ JR 10 x d).mag2 / ∑ d', (s.vecJ JR 10 x d').mag2| ≤ 1 / 10 ^ 9 := by
  obtain ⟨s, x, e, hr, hx, k, -⟩ := C74_basis JR_good (by norm_num) (JR_rounds (by norm_num)) (JR_sq (by norm_num)) (jr_reach (1 / 2 ^ 42) 10)
    (n := 10) (le_refl 10) (by norm_num) (state := [.left, .one, .plus, .minus, .right, .zero, .plus, .plus, .one, .minus]) (by simp)
  obtain ⟨b1, b2⟩ := C77_basis JR_good (by norm_num) (JR_rounds (by norm_num)) (JR_sq (by norm_num)) (jr_reach (1 / 2 ^ 42) 10) (n := 10) (le_refl 10)
    (by norm_num) (state := [.left, .one, .plus, .minus, .right, .zero, .plus, .plus, .one, .minus]) (by simp) e
  refine ⟨s, x, hr, hx, fun d => (C77_probability JR_good (by norm_num) (JR_rounds (by norm_num)) JR_exact hr hx b2 (by norm_num) b1 (by norm_num)
    (by norm_num) d).trans ?_⟩
  norm_num

/-- The collapse: the caller holds the state, a string is returned and the basis state of the string is held instead. -/
example : ∃ s x, TReach JR (1 / 2 ^ 42) s ∧ x ∈ (s.tab .v).held ∧ ∀ draw : Nat → ℝ, (∀ i, 0 ≤ draw i ∧ draw i < 1) →
    ∃ d s' e, s.measureAllCollapse JR x (1 / 1000) draw = some (s', e, bitText d) ∧ s.vecJ JR 3 x d ≠ 0 ∧ e ∈ (s'.tab .v).held ∧
      ∀ d', mag (s'.vecJ JR 3 e d' - if d' = d then 1 else 0) ≤ 1 / 10 ^ 10 := by
  have t0 : (0 : ℝ) ≤ 1 / 2 ^ 42 := by norm_num
  obtain ⟨s, x, e, hr, hx, k, -⟩ := C74_basis JR_good t0 (JR_rounds t0) (JR_sq t0) (jr_reach (1 / 2 ^ 42) 3)
    (n := 3) (le_refl 3) (by norm_num) (state := [.left, .one, .plus]) (by simp)
  obtain ⟨b1, b2⟩ := C77_basis JR_good t0 (JR_rounds t0) (JR_sq t0) (jr_reach (1 / 2 ^ 42) 3) (n := 3) (le_refl 3)
    (by norm_num) (state := [.left, .one, .plus]) (by simp) e
  have hi := hr.inv JR_good (JR_rounds t0) t0
  obtain ⟨t1, -⟩ := holdV_spec JR_good t0 hi hx
  have r1 := hr.step t1
  have i1 := r1.inv JR_good (JR_rounds t0) t0
  have hh : x ∈ ((s.holdV JR x).tab .v).held := by
    unfold JState.holdV
    dsimp only
    rw [Function.update_self]
    exact List.mem_cons_self ..
  obtain ⟨x1, -⟩ := held_value JR_good t0 hi i1 (t1.agree JR_good t0 hi) hx hh
  have w1 : 3 / 2 * (1 / 2 ^ 42) < mag ((s.holdV JR x).ct.cval JR.C x.w) := by
    rw [(t1.agree JR_good t0 hi).cval hx.live x1.live]; exact b2
  have s1 := sumsLe_agree i1 hi (t1.agree JR_good t0 hi).symm 3 x.p x1.node hx.node b1
  refine ⟨_, x, r1, hh, fun draw hd => ?_⟩
  obtain ⟨lo, hi', -, -, h3⟩ := C77_born JR_good t0 (JR_rounds t0) JR_exact r1 x1 w1 (by norm_num) s1 (eps := 1 / 1000) (by norm_num) (by norm_num)
  obtain ⟨d, hm⟩ := (h3 draw (fun i _ => hd i)).1
  obtain ⟨d2, e2, p2⟩ := C77_possible JR_good t0 (JR_rounds t0) JR_exact r1 x1 w1 (by norm_num) (fun i _ => hd i) hm
  obtain ⟨s', e', c1, -, -, c4, c5, -⟩ := C77_collapse JR_good t0 (JR_rounds t0) (JR_sq t0) r1 (by norm_num) (by norm_num) x1 w1 hh hm
  refine ⟨d, s', e', c1, by rw [bitText_inj e2]; exact p2, by rw [c4]; exact List.mem_cons_self .., fun d' => (c5 d').trans ?_⟩
  norm_num

/-- The square roots that occur in the run. -/
local instance : HasSqrt ℚ := ⟨fun q => if q = (96 / 6401) ^ 2 then 96 / 6401 else if q = (128 / 6401) ^ 2 then 128 / 6401
  else if q = (160 / 6401) ^ 2 then 160 / 6401 else if q = (6399 / 6401) ^ 2 then 6399 / 6401 else q⟩

/-- A state of norm one with two small amplitudes: 4/5 and 3/5 of 160/6401. With a tolerance of 1/100, the quotient of 128/6401 and 160/6401 is
taken to be one (ComplexNumbers.hpp:70-89), so one node is not normalised. -/
def smallRun : Option (JState ℚ × PtrEdge) := j3.makeStateFromVector JQ [⟨6399 / 6401, 0⟩, 0, ⟨96 / 6401, 0⟩, ⟨128 / 6401, 0⟩]

/-- Without normalised nodes the exception may be thrown although the state has norm one: C77_born does not hold without its hypothesis. -/
theorem C77_throws : (smallRun.map fun p => (p.1.measureAll JQ p.2 (1 / 1000) (fun _ => 1 / 2), p.1.measureAll JQ p.2 (1 / 1000) (fun _ => 9999 / 10000))) =
    some (some ['0', '0'], none) ∧ (6399 / 6401 : ℚ) ^ 2 + (96 / 6401) ^ 2 + (128 / 6401) ^ 2 = 1 := by
  constructor
  · decide +kernel
  · norm_num

end Ex
end DD
