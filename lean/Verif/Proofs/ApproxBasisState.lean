import Verif.Proofs.ApproxBasis
import Verif.MeasureApproxSpec

/-! # Accuracy of basis states: the loop over the qubits -/

namespace DD

open Pkg UTable JState

variable {R : Type} [Field R] [LinearOrder R] [IsStrictOrderedRing R] [FloorRing R] {J : JCfg R} {τ : R}
variable {s s' s'' : JState R} [HasSqrt R] [LawfulSqrt R]

section
omit [LawfulSqrt R]

theorem sumsLe_agree (h : TInv J τ s) (h' : TInv J τ s') (g : Agree J s s') {δ : R} : ∀ (l : Nat) (p : Option Nat), s.NodeOk l p →
    s'.NodeOk l p → s'.SumsLe J δ l p → s.SumsLe J δ l p := by
  intro l
  induction l with
  | zero => intro p _ _ _; trivial
  | succ l ih =>
    intro p hp hp' hn'
    cases p with
    | none => trivial
    | some a =>
      have hn := g.node .v a hp.1 hp'.1
      have hl : ((s.tab .v).tab.mem a).v = l := by have := hp.2; omega
      have hl' : ((s'.tab .v).tab.mem a).v = l := by have := hp'.2; omega
      have v1 := fun i => h.valid a hp.1 i
      have v2 := fun i => h'.valid a hp'.1 i
      simp only [hl] at v1
      simp only [hl', hn.1] at v2
      have hs := hn'
      unfold JState.SumsLe at hs ⊢
      rw [hn.1] at hs
      refine ⟨?_, fun i => ih _ (v1 i).node (v2 i).node (hs.2 i)⟩
      rw [← g.cval (v1 (0 : Fin 2)).live (v2 (0 : Fin 2)).live, ← g.cval (v1 (1 : Fin 2)).live (v2 (1 : Fin 2)).live]
      exact hs.1

theorem Grow.sumsLe (g : Grow J s s') (h : TInv J τ s) (h' : TInv J τ s') {δ : R} {l : Nat} {p : Option Nat} (hp : s.NodeOk l p)
    (hr : s.SumsLe J δ l p) : s'.SumsLe J δ l p :=
  sumsLe_agree h' h g.rel.symm l p (g.nodeOk hp) hp hr

end

/-- A state of `l` qubits close to `D`, with a weight close to one. -/
structure BRes (J : JCfg R) (τ : R) (s : JState R) (l : Nat) (e : PtrEdge) (D : (Fin l → Fin 2) → Cx R) : Prop where
  live : s.ct.LiveC J.C e.w
  node : s.NodeOk l e.p
  top : e.p = none → l = 0
  wt : mag (s.ct.cval J.C e.w - 1) ≤ 31 / 10 * τ * l
  err : ∀ d, mag (s.ct.cval J.C e.w * s.namp J l e.p d - D d) ≤ 12 * τ * l
  sums : s.SumsLe J (40 * τ) l e.p

omit [FloorRing R] in
/-- Two weights whose squares add up to about one. -/
theorem sums_near (hτ : 0 ≤ τ) (hτ1 : 1000 * τ ≤ 1) {a b : Cx R} {x y : R} (ha : |mag a - x| ≤ 21 / 2 * τ) (hb : |mag b - y| ≤ 21 / 2 * τ)
    (hx : 0 ≤ x) (hy : 0 ≤ y) (h1 : x * x + y * y = 1) (h2 : x + y ≤ 142 / 100) : |a.mag2 + b.mag2 - 1| ≤ 40 * τ := by
  rw [← mag_sq, ← mag_sq]
  have ha := abs_le.1 ha
  have hb := abs_le.1 hb
  obtain ⟨u, hu⟩ : ∃ u, mag a = x + u := ⟨mag a - x, by ring⟩
  obtain ⟨v, hv⟩ : ∃ v, mag b = y + v := ⟨mag b - y, by ring⟩
  rw [hu] at ha ⊢
  rw [hv] at hb ⊢
  have hu1 : |u| ≤ 21 / 2 * τ := abs_le.2 ⟨by linarith, by linarith⟩
  have hv1 : |v| ≤ 21 / 2 * τ := abs_le.2 ⟨by linarith, by linarith⟩
  have e : (x + u) * (x + u) + (y + v) * (y + v) - 1 = 2 * (x * u) + 2 * (y * v) + (u * u + v * v) := by linear_combination h1
  rw [e]
  have k1 : |x * u| ≤ x * (21 / 2 * τ) := by rw [abs_mul, abs_of_nonneg hx]; exact mul_le_mul_of_nonneg_left hu1 hx
  have k2 : |y * v| ≤ y * (21 / 2 * τ) := by rw [abs_mul, abs_of_nonneg hy]; exact mul_le_mul_of_nonneg_left hv1 hy
  have t2 : (21 / 2 * τ) * (21 / 2 * τ) ≤ 12 / 100 * τ := by nlinarith
  have k3 : u * u ≤ 12 / 100 * τ := by rw [← abs_mul_abs_self u]; exact (mul_self_le_mul_self (abs_nonneg _) hu1).trans t2
  have k4 : v * v ≤ 12 / 100 * τ := by rw [← abs_mul_abs_self v]; exact (mul_self_le_mul_self (abs_nonneg _) hv1).trans t2
  have k5 : (x + y) * (21 * τ) ≤ 142 / 100 * (21 * τ) := mul_le_mul_of_nonneg_right h2 (by linarith)
  have k1 := abs_le.1 k1
  have k2 := abs_le.1 k2
  have := mul_self_nonneg u
  have := mul_self_nonneg v
  rw [abs_le]
  constructor <;> linarith

omit [FloorRing R] in
theorem mag_dist {a b : Cx R} {c : R} (h : mag (a - b) ≤ c) : |mag a - mag b| ≤ c := by
  have h1 := mag_le_add a b
  have h2 := mag_le_add b a
  rw [mag_sub_comm] at h2
  rw [abs_le]
  constructor <;> linarith

theorem BRes.valid {l : Nat} {e : PtrEdge} {D : (Fin l → Fin 2) → Cx R} (h : BRes J τ s l e D) : s.ValidV J l e :=
  .intro h.live h.node (fun h0 => Or.inl (h.top h0))

theorem BRes.vecJ {l : Nat} {e : PtrEdge} {D : (Fin l → Fin 2) → Cx R} (h : BRes J τ s l e D) (d : Fin l → Fin 2) :
    mag (s.vecJ J l e d - D d) ≤ 12 * τ * l := by
  rw [vecJ_eq]; exact h.err d

theorem lookupC_sq (hJ : J.Good) (hτ : 0 ≤ τ) (hsq : SqOk J τ) (hτ1 : 1000 * τ ≤ 1) (h : TInv J τ s) {x : Cx R}
    (hx : x.re = J.C.sq ∨ x.re = -J.C.sq ∨ x.re = 0) (hy : x.im = J.C.sq ∨ x.im = -J.C.sq ∨ x.im = 0) (t : CTab R) :
    t.cval J.C (s.lookupC J x).2 = x := by
  have h1 := lookupSq hsq hτ1 (h.tol hJ hτ) hτ hx (t.value J.C) rfl rfl
  have a1 := (lookupSigned_grow hJ hτ h x.re).1
  have h2 := lookupSq hsq hτ1 (a1.tol hJ hτ) hτ hy (t.value J.C) rfl rfl
  exact Cx.ext h1 h2

theorem pairOf_grow (hJ : J.Good) (hτ : 0 ≤ τ) (hsq : SqOk J τ) (hτ1 : 1000 * τ ≤ 1) (h : TInv J τ s) (p : Option Nat) {y : Cx R}
    (hx : y.re = J.C.sq ∨ y.re = -J.C.sq ∨ y.re = 0) (hy : y.im = J.C.sq ∨ y.im = -J.C.sq ∨ y.im = 0) :
    TInv J τ (s.pairOf J p ⟨J.C.sq, 0⟩ y).1 ∧ Grow J s (s.pairOf J p ⟨J.C.sq, 0⟩ y).1 ∧
    ∃ a b, (s.pairOf J p ⟨J.C.sq, 0⟩ y).2 = ![⟨p, a⟩, ⟨p, b⟩] ∧ (s.pairOf J p ⟨J.C.sq, 0⟩ y).1.ct.cval J.C a = ⟨J.C.sq, 0⟩ ∧
      (s.pairOf J p ⟨J.C.sq, 0⟩ y).1.ct.cval J.C b = y := by
  obtain ⟨a1, a2, a3, a4⟩ := lookupC_grow hJ hτ h ⟨J.C.sq, 0⟩
  obtain ⟨b1, b2, b3, b4⟩ := lookupC_grow hJ hτ a1 y
  exact ⟨b1, a2.trans b2, _, _, rfl, lookupC_sq hJ hτ hsq hτ1 h (Or.inl rfl) (Or.inr (Or.inr rfl)) _, lookupC_sq hJ hτ hsq hτ1 a1 hx hy _⟩

/-- The amplitudes of a state extended by one qubit. -/
def extD {l : Nat} (b : Basis) (D : (Fin l → Fin 2) → Cx R) (d : Fin (l + 1) → Fin 2) : Cx R := D (Fin.init d) * basisAmp b (d (Fin.last l))

omit [LinearOrder R] [IsStrictOrderedRing R] [FloorRing R] [LawfulSqrt R] in
theorem extD_eq {l : Nat} {b : Basis} {D : (Fin l → Fin 2) → Cx R} {d : Fin (l + 1) → Fin 2} {y z : Cx R}
    (hb : basisAmp b = ![y, z]) : extD b D d = D (Fin.init d) * ![y, z] (d (Fin.last l)) := by
  unfold extD; rw [hb]

theorem kidW_small (hτ : 0 ≤ τ) {l : Nat} (hz : 1000 * ((l : R) + 1) * τ ≤ 1) : kidW τ ^ l ≤ 101 / 100 := by
  have h1 := bernoulli (x := 16 / 5 * τ) (by linarith) l
  have h2 : (l : R) * (16 / 5 * τ) ≤ 1 / 200 := by
    have : 1000 * ((l : R) + 1) * τ = 1000 * (l * τ) + 1000 * τ := by ring
    have e : (l : R) * (16 / 5 * τ) = 16 / 5 * (l * τ) := by ring
    rw [e]; linarith
  have h3 : 0 ≤ (1 + 16 / 5 * τ) ^ l := by positivity
  have h4 : (1 + 16 / 5 * τ) ^ l * (1 - 1 / 200) ≤ 1 := le_trans (mul_le_mul_of_nonneg_left (by linarith) h3) h1
  have : kidW τ = 1 + 16 / 5 * τ := rfl
  rw [this]
  linarith

/-- One of the two amplitudes is taken over. -/
theorem makeU_single (hJ : J.Good) (hτ : 0 ≤ τ) (h : TInv J τ s) {l : Nat} (hl : l < (s.tab .v).tab.nvars)
    (hz : 1000 * ((l : R) + 1) * τ ≤ 1) {f : PtrEdge} {D : (Fin l → Fin 2) → Cx R} (hf : BRes J τ s l f D) (b : Bool) :
    TInv J τ (s.makeU J l (if b then ![zeroP, f] else ![f, zeroP])).1 ∧ Grow J s (s.makeU J l (if b then ![zeroP, f] else ![f, zeroP])).1 ∧
    BRes J τ (s.makeU J l (if b then ![zeroP, f] else ![f, zeroP])).1 (l + 1) (s.makeU J l (if b then ![zeroP, f] else ![f, zeroP])).2
      (fun d => D (Fin.init d) * (if b then ![0, 1] else ![1, 0] : Fin 2 → Cx R) (d (Fin.last l))) := by
  have hlτ : 0 ≤ (l : R) * τ := by positivity
  have hz' : 1000 * ((l : R) * τ) + 1000 * τ ≤ 1 := by
    have : 1000 * ((l : R) + 1) * τ = 1000 * (l * τ) + 1000 * τ := by ring
    linarith
  have htol := h.tol hJ hτ
  have ht0 : 0 ≤ s.ct.tol := by rw [htol]; exact hτ
  have wt : mag (s.ct.cval J.C f.w - 1) ≤ 31 / 10 * (l * τ) := by have := hf.wt; linarith
  have wlo : 99 / 100 ≤ mag (s.ct.cval J.C f.w) := by
    have := mag_le_add 1 (s.ct.cval J.C f.w)
    rw [mag_one, mag_sub_comm] at this
    linarith
  have nz : ¬ s.ct.zeroV (s.ct.cval J.C f.w) = true := by
    intro hn
    have := zeroV_mag' ht0 hn
    rw [htol] at this
    linarith
  have hz0 : s.ct.zeroV (s.ct.cval J.C (zeroP : PtrEdge).w) = true := by
    show s.ct.zeroV (s.ct.cval J.C CNum.zero) = true
    rw [cval_zero]; exact zeroV_zero ht0
  -- the weight
  have look : TInv J τ (s.lookupN J f.w).1 ∧ Grow J s (s.lookupN J f.w).1 ∧ (s.lookupN J f.w).1.ct.LiveC J.C (s.lookupN J f.w).2 ∧
      mag ((s.lookupN J f.w).1.ct.cval J.C (s.lookupN J f.w).2 - s.ct.cval J.C f.w) ≤ 3 / 2 * τ := by
    unfold JState.lookupN
    split_ifs with h0 h1
    · refine ⟨h, .refl s, by have := hf.live; rwa [h0] at this, ?_⟩
      rw [h0, sub_self, mag_zero]; linarith
    · refine ⟨h, .refl s, by have := hf.live; rwa [h1] at this, ?_⟩
      rw [h1, sub_self, mag_zero]; linarith
    · exact lookupC_grow hJ hτ h _
  obtain ⟨c1, c2, c3, c4⟩ := look
  have kw : kidW τ = 1 + 16 / 5 * τ := rfl
  have l1 : (s.lookupN J f.w).1.ct.LiveC J.C CNum.one := ⟨trivial, trivial⟩
  have l0 : (s.lookupN J f.w).1.ct.LiveC J.C CNum.zero := ⟨trivial, trivial⟩
  have vf : (s.lookupN J f.w).1.ValidV J l ⟨f.p, CNum.one⟩ := .intro l1 (c2.nodeOk hf.node) (fun h0 => Or.inl (hf.top h0))
  have v0 : (s.lookupN J f.w).1.ValidV J l (zeroP : PtrEdge) := .intro l0 trivial (fun _ => Or.inr rfl)
  set c := s.lookupN J f.w with hc
  clear_value c
  have mone : (1 : Cx R).mag2 = 1 := by simp [Cx.mag2]
  have mzero : (0 : Cx R).mag2 = 0 := by simp [Cx.mag2]
  have s1 : 1 ≤ HasSqrt.sqrt (1 : R) := by
    have := LawfulSqrt.mul_self (1 : R) (by norm_num)
    have h0 := LawfulSqrt.nonneg (1 : R)
    by_contra hn
    push Not at hn
    have := mul_lt_mul'' hn hn h0 h0
    linarith
  have key : ∀ es : Fin 2 → PtrEdge, es = (if b then ![zeroP, ⟨f.p, CNum.one⟩] else ![⟨f.p, CNum.one⟩, zeroP]) →
      TInv J τ (c.1.nodeV J l es).1 ∧ Grow J s (c.1.nodeV J l es).1 ∧
      BRes J τ (c.1.nodeV J l es).1 (l + 1) ⟨some (c.1.nodeV J l es).2, c.2⟩
        (fun d => D (Fin.init d) * (if b then ![0, 1] else ![1, 0] : Fin 2 → Cx R) (d (Fin.last l))) := by
    intro es hes
    have hcase : ∀ i : Fin 2, (es i = ⟨f.p, CNum.one⟩ ∧ (if b then ![0, 1] else ![1, 0] : Fin 2 → Cx R) i = 1) ∨
        (es i = zeroP ∧ (if b then ![0, 1] else ![1, 0] : Fin 2 → Cx R) i = 0) := by
      intro i
      subst hes
      cases b <;> fin_cases i <;> simp
    obtain ⟨n1, n2, n3, n4⟩ := nodeV_grow hJ hτ c1 (l := l) (by rw [c2.nvars .v]; exact hl) (es := es)
      (fun i => by
        rcases hcase i with ⟨e, _⟩ | ⟨e, _⟩
        · rw [e]; exact vf
        · rw [e]; exact v0)
      (fun i => by
        rcases hcase i with ⟨e, _⟩ | ⟨e, _⟩
        · rw [e]; show mag (c.1.ct.cval J.C CNum.one) ≤ _
          rw [cval_one, mag_one, kw]; linarith
        · rw [e]; show mag (c.1.ct.cval J.C CNum.zero) ≤ _
          rw [cval_zero, mag_zero, kw]; linarith)
      (by
        subst hes
        cases b
        · show 1 ≤ HasSqrt.sqrt ((c.1.ct.cval J.C CNum.one).mag2 + (c.1.ct.cval J.C CNum.zero).mag2) + 6 * τ
          rw [cval_one, cval_zero, mone, mzero, add_zero]; linarith
        · show 1 ≤ HasSqrt.sqrt ((c.1.ct.cval J.C CNum.zero).mag2 + (c.1.ct.cval J.C CNum.one).mag2) + 6 * τ
          rw [cval_one, cval_zero, mone, mzero, zero_add]; linarith)
    set n := c.1.nodeV J l es with hn
    clear_value n
    refine ⟨n1, c2.trans n2, n2.liveC c3, n3, fun h0 => (by cases h0), ?_, fun d => ?_, ?_, fun i => ?_⟩
    rotate_left 2
    · have hk : ∀ i : Fin 2, |mag (n.1.ct.cval J.C (((n.1.tab .v).tab.mem n.2).e i).w) - mag ((if b then ![0, 1] else ![1, 0] : Fin 2 → Cx R) i)| ≤
          21 / 2 * τ := by
        intro i
        refine mag_dist ?_
        have := (n4 i).2
        rcases hcase i with ⟨e, ev⟩ | ⟨e, ev⟩
        · rw [ev]
          rw [e] at this
          have h2 : mag (n.1.ct.cval J.C (((n.1.tab .v).tab.mem n.2).e i).w - c.1.ct.cval J.C CNum.one) ≤ 3 / 2 * τ := this
          rw [cval_one] at h2
          linarith
        · rw [ev]
          rw [e] at this
          have h2 : mag (n.1.ct.cval J.C (((n.1.tab .v).tab.mem n.2).e i).w - c.1.ct.cval J.C CNum.zero) ≤ 3 / 2 * τ := this
          rw [cval_zero] at h2
          linarith
      refine sums_near hτ (by linarith) (hk 0) (hk 1) (mag_nonneg _) (mag_nonneg _) ?_ ?_
      · cases b <;> simp [mag_zero, mag_one]
      · cases b <;> simp [mag_zero, mag_one] <;> norm_num
    · rw [(n4 i).1]
      rcases hcase i with ⟨e, ev⟩ | ⟨e, ev⟩
      · rw [e]
        exact (c2.trans n2).sumsLe h n1 hf.node hf.sums
      · rw [e]
        show n.1.SumsLe J (40 * τ) l none
        cases l <;> trivial
    · show mag (n.1.ct.cval J.C c.2 - 1) ≤ _
      rw [n2.cval c3]
      have := mag_tri (c.1.ct.cval J.C c.2) (s.ct.cval J.C f.w) 1
      push_cast
      linarith
    · show mag (n.1.ct.cval J.C c.2 * n.1.namp J (l + 1) (some n.2) d - _) ≤ _
      rw [n2.cval c3]
      obtain ⟨k1, k2⟩ := n4 (d (Fin.last l))
      show mag (c.1.ct.cval J.C c.2 * (n.1.ct.cval J.C (((n.1.tab .v).tab.mem n.2).e (d (Fin.last l))).w *
        n.1.namp J l (((n.1.tab .v).tab.mem n.2).e (d (Fin.last l))).p (Fin.init d)) - _) ≤ _
      rw [k1]
      have mc : mag (c.1.ct.cval J.C c.2) ≤ 101 / 100 := by
        have h1 := mag_tri (c.1.ct.cval J.C c.2) (s.ct.cval J.C f.w) 1
        have h2 := mag_le_add (c.1.ct.cval J.C c.2) 1
        rw [mag_one] at h2
        linarith
      push_cast
      rcases hcase (d (Fin.last l)) with ⟨e, ev⟩ | ⟨e, ev⟩
      · rw [e] at k2 ⊢
        rw [ev, mul_one]
        dsimp only at k2 ⊢
        rw [cval_one] at k2
        rw [Grow.namp h n1 (c2.trans n2) _ hf.node]
        have hb := (namp_bound' hτ h l f.p (Fin.init d) hf.node).trans (kidW_small hτ hz)
        have he := hf.err (Fin.init d)
        set N := s.namp J l f.p (Fin.init d)
        set k := n.1.ct.cval J.C (((n.1.tab .v).tab.mem n.2).e (d (Fin.last l))).w
        have eq : c.1.ct.cval J.C c.2 * (k * N) - D (Fin.init d) =
            (c.1.ct.cval J.C c.2 * (k - 1) + (c.1.ct.cval J.C c.2 - s.ct.cval J.C f.w)) * N + (s.ct.cval J.C f.w * N - D (Fin.init d)) := by ring
        rw [eq]
        refine (mag_add _ _).trans ?_
        have h1 := mag_mono_mul mc k2
        have h2 := mag_add (c.1.ct.cval J.C c.2 * (k - 1)) (c.1.ct.cval J.C c.2 - s.ct.cval J.C f.w)
        have h3 : mag (c.1.ct.cval J.C c.2 * (k - 1) + (c.1.ct.cval J.C c.2 - s.ct.cval J.C f.w)) ≤ 302 / 100 * τ := by linarith
        have h4 := mag_mono_mul h3 hb
        linarith
      · rw [e] at k2 ⊢
        rw [ev, mul_zero, sub_zero]
        have : n.1.namp J l (zeroP : PtrEdge).p (Fin.init d) = 1 := by
          cases l <;> rfl
        rw [this, mul_one]
        have k2' : mag (n.1.ct.cval J.C (((n.1.tab .v).tab.mem n.2).e (d (Fin.last l))).w - c.1.ct.cval J.C CNum.zero) ≤ 3 / 2 * τ := k2
        rw [cval_zero, sub_zero] at k2'
        have := mag_mono_mul mc k2'
        linarith
  cases b
  · have hu : s.makeU J l (if false = true then ![zeroP, f] else ![f, zeroP]) =
        ((c.1.nodeV J l ![⟨f.p, CNum.one⟩, zeroP]).1, ⟨some (c.1.nodeV J l ![⟨f.p, CNum.one⟩, zeroP]).2, c.2⟩) := by
      show s.makeU J l ![f, zeroP] = _
      unfold JState.makeU
      show (if s.ct.zeroV (s.ct.cval J.C f.w) = true then _ else if s.ct.zeroV (s.ct.cval J.C (zeroP : PtrEdge).w) = true then _ else _) = _
      rw [if_neg nz, if_pos hz0, hc]
      rfl
    rw [hu]
    exact key _ rfl
  · have hu : s.makeU J l (if true = true then ![zeroP, f] else ![f, zeroP]) =
        ((c.1.nodeV J l ![zeroP, ⟨f.p, CNum.one⟩]).1, ⟨some (c.1.nodeV J l ![zeroP, ⟨f.p, CNum.one⟩]).2, c.2⟩) := by
      show s.makeU J l ![zeroP, f] = _
      unfold JState.makeU
      show (if s.ct.zeroV (s.ct.cval J.C (zeroP : PtrEdge).w) = true then (if s.ct.zeroV (s.ct.cval J.C f.w) = true then _ else _) else _) = _
      rw [if_pos hz0, if_neg nz, hc]
      rfl
    rw [hu]
    exact key _ rfl

/-- Both amplitudes are present. -/
theorem makeU_both (hJ : J.Good) (hτ : 0 ≤ τ) (hsq : SqOk J τ) (h : TInv J τ s) {l : Nat} (hl : l < (s.tab .v).tab.nvars)
    (hz : 1000 * ((l : R) + 1) * τ ≤ 1) {f : PtrEdge} {D : (Fin l → Fin 2) → Cx R} (hf : BRes J τ s l f D) {y : Cx R}
    (hx : y.re = J.C.sq ∨ y.re = -J.C.sq ∨ y.re = 0) (hy : y.im = J.C.sq ∨ y.im = -J.C.sq ∨ y.im = 0) (hm : mag y = J.C.sq)
    (hm2 : mag2F J.fl y = mag2F J.fl ⟨J.C.sq, 0⟩) {y' : Cx R} (hy' : mag (y - y') ≤ τ) (my' : mag y' = Pkg.sqrt12) :
    TInv J τ ((s.pairOf J f.p ⟨J.C.sq, 0⟩ y).1.makeU J l (s.pairOf J f.p ⟨J.C.sq, 0⟩ y).2).1 ∧
    Grow J s ((s.pairOf J f.p ⟨J.C.sq, 0⟩ y).1.makeU J l (s.pairOf J f.p ⟨J.C.sq, 0⟩ y).2).1 ∧
    BRes J τ ((s.pairOf J f.p ⟨J.C.sq, 0⟩ y).1.makeU J l (s.pairOf J f.p ⟨J.C.sq, 0⟩ y).2).1 (l + 1)
      ((s.pairOf J f.p ⟨J.C.sq, 0⟩ y).1.makeU J l (s.pairOf J f.p ⟨J.C.sq, 0⟩ y).2).2
      (fun d => D (Fin.init d) * ![⟨Pkg.sqrt12, 0⟩, y'] (d (Fin.last l))) := by
  have hlτ : 0 ≤ (l : R) * τ := by positivity
  have hz' : 1000 * ((l : R) * τ) + 1000 * τ ≤ 1 := by
    have : 1000 * ((l : R) + 1) * τ = 1000 * (l * τ) + 1000 * τ := by ring
    linarith
  obtain ⟨p1, p2, a, b, p3, p4, p5⟩ := pairOf_grow hJ hτ hsq (by linarith) h f.p hx hy
  rw [p3]
  set p := s.pairOf J f.p ⟨J.C.sq, 0⟩ y
  clear_value p
  obtain ⟨m1, m2, q, r, m3, m4, m5, m6, m7⟩ := makeU_pair hJ hτ (by linarith) hsq p1 (l := l) (by rw [p2.nvars .v]; exact hl)
    (p2.nodeOk hf.node) hf.top p4 p5 hm hm2
  rw [m3]
  set u := p.1.makeU J l ![⟨f.p, a⟩, ⟨f.p, b⟩]
  clear_value u
  refine ⟨m1, p2.trans m2, m4, m5, fun h0 => (by cases h0), ?_, fun d => ?_, ?_, fun i => ?_⟩
  rotate_left 2
  · have hk : ∀ i : Fin 2, |mag (u.1.ct.cval J.C (((u.1.tab .v).tab.mem q).e i).w) - Pkg.sqrt12| ≤ 21 / 2 * τ := by
      intro i
      have mA : mag ((![⟨J.C.sq, 0⟩, y] : Fin 2 → Cx R) i) = J.C.sq := by
        revert i
        refine Fin.forall_fin_two.mpr ⟨?_, hm⟩
        show mag (⟨J.C.sq, 0⟩ : Cx R) = J.C.sq
        have h1 := mag_sq (⟨J.C.sq, 0⟩ : Cx R)
        have h0 : (⟨J.C.sq, 0⟩ : Cx R).mag2 = J.C.sq * J.C.sq := by simp [Cx.mag2]
        rw [h0] at h1
        have h2 := mag_nonneg (⟨J.C.sq, 0⟩ : Cx R)
        have h3 := mag_nonneg y
        rw [hm] at h3
        rcases mul_self_eq_mul_self_iff.1 h1 with h4 | h4 <;> linarith
      have n1 := abs_le.1 (mag_dist (m7 i).2)
      rw [mA, mag_mul] at n1
      have n2 := abs_le.1 (mag_dist m6)
      rw [mag_one] at n2
      have n3 : |J.C.sq - Pkg.sqrt12| ≤ τ := hsq
      have n3 := abs_le.1 n3
      have q3 := (sqrt12_num (R := R)).2.2
      have q1 := (sqrt12_num (R := R)).2.1
      have k0 := mag_nonneg (u.1.ct.cval J.C (((u.1.tab .v).tab.mem q).e i).w)
      generalize mag (u.1.ct.cval J.C (((u.1.tab .v).tab.mem q).e i).w) = k at *
      generalize mag (u.1.ct.cval J.C r) = ρ at *
      have b1 : k * (ρ - 1) ≤ k * (31 / 10 * τ) := mul_le_mul_of_nonneg_left (by linarith) k0
      have b2 : k * (-(31 / 10 * τ)) ≤ k * (ρ - 1) := mul_le_mul_of_nonneg_left (by linarith) k0
      have b3 : k * (31 / 10 * τ) ≤ 3 * τ := by
        have : k * (1 - 31 / 10 * τ) ≤ 73 / 100 := by
          have : Pkg.sqrt12 ≤ (7072 / 10000 : R) := q3
          linarith
        have k1 : k ≤ 3 / 4 := by
          by_contra hc
          push Not at hc
          have : 3 / 4 * (1 - 31 / 10 * τ) ≤ k * (1 - 31 / 10 * τ) := mul_le_mul_of_nonneg_right hc.le (by linarith)
          linarith
        have := mul_le_mul_of_nonneg_right k1 (by linarith : 0 ≤ 31 / 10 * τ)
        linarith
      rw [abs_le]
      constructor <;> linarith
    have q := sqrt12_num (R := R)
    exact sums_near hτ (by linarith) (hk 0) (hk 1) (by linarith) (by linarith) (by linarith) (by linarith)
  · rw [(m7 i).1]
    exact (p2.trans m2).sumsLe h m1 hf.node hf.sums
  · push_cast
    show mag (u.1.ct.cval J.C r - 1) ≤ _
    linarith
  · obtain ⟨k1, k2⟩ := m7 (d (Fin.last l))
    show mag (u.1.ct.cval J.C r * (u.1.ct.cval J.C (((u.1.tab .v).tab.mem q).e (d (Fin.last l))).w *
      u.1.namp J l (((u.1.tab .v).tab.mem q).e (d (Fin.last l))).p (Fin.init d)) - _) ≤ _
    rw [k1, Grow.namp h m1 (p2.trans m2) _ hf.node]
    have hb := (namp_bound' hτ h l f.p (Fin.init d) hf.node).trans (kidW_small hτ hz)
    have he := hf.err (Fin.init d)
    have hw := hf.wt
    obtain ⟨q1, q2, q3⟩ := sqrt12_num (R := R)
    have hv : mag ((![⟨J.C.sq, 0⟩, y] : Fin 2 → Cx R) (d (Fin.last l)) - (![⟨Pkg.sqrt12, 0⟩, y'] : Fin 2 → Cx R) (d (Fin.last l))) ≤ τ ∧
        mag ((![⟨Pkg.sqrt12, 0⟩, y'] : Fin 2 → Cx R) (d (Fin.last l))) ≤ 7072 / 10000 := by
      have mof : ∀ y : R, mag (⟨y, 0⟩ : Cx R) = |y| := by
        intro y
        have h1 := mag_sq (⟨y, 0⟩ : Cx R)
        have h0 : (⟨y, 0⟩ : Cx R).mag2 = y * y := by simp [Cx.mag2]
        rw [h0, ← abs_mul_abs_self y] at h1
        have h2 := mag_nonneg (⟨y, 0⟩ : Cx R)
        rcases mul_self_eq_mul_self_iff.1 h1 with h3 | h3
        · exact h3
        · have := abs_nonneg y; linarith
      generalize d (Fin.last l) = i
      revert i
      rw [Fin.forall_fin_two]
      constructor
      · show mag ((⟨J.C.sq, 0⟩ : Cx R) - ⟨Pkg.sqrt12, 0⟩) ≤ τ ∧ mag (⟨Pkg.sqrt12, 0⟩ : Cx R) ≤ _
        have : (⟨J.C.sq, 0⟩ : Cx R) - ⟨Pkg.sqrt12, 0⟩ = ⟨J.C.sq - Pkg.sqrt12, 0⟩ := by ext <;> simp
        rw [this, mof, mof, abs_of_nonneg (by linarith : 0 ≤ (Pkg.sqrt12 : R))]
        exact ⟨hsq, q3⟩
      · exact ⟨hy', by show mag y' ≤ _; rw [my']; exact q3⟩
    obtain ⟨v1, v2⟩ := hv
    set N := s.namp J l f.p (Fin.init d)
    set k := u.1.ct.cval J.C (((u.1.tab .v).tab.mem q).e (d (Fin.last l))).w
    set ρ := u.1.ct.cval J.C r
    set W := s.ct.cval J.C f.w
    set A := (![⟨J.C.sq, 0⟩, y] : Fin 2 → Cx R) (d (Fin.last l))
    set A' := (![⟨Pkg.sqrt12, 0⟩, y'] : Fin 2 → Cx R) (d (Fin.last l))
    have eq : ρ * (k * N) - D (Fin.init d) * A' = ((ρ * k - A) + (A - A')) * N + ((W * N - D (Fin.init d)) - (W - 1) * N) * A' := by ring
    rw [eq]
    refine (mag_add _ _).trans ?_
    have h1 := mag_add (ρ * k - A) (A - A')
    have h2 : mag ((ρ * k - A) + (A - A')) ≤ 73 / 10 * τ := by linarith
    have h3 := mag_mono_mul h2 hb
    have h4 := mag_mono_mul hw hb
    have h5 := mag_sub_le (W * N - D (Fin.init d)) ((W - 1) * N)
    have h6 : mag ((W * N - D (Fin.init d)) - (W - 1) * N) ≤ 152 / 10 * (l * τ) := by linarith
    have h7 := mag_mono_mul h6 v2
    push_cast
    linarith

/-- One round of the loop. -/
theorem basis_step (hJ : J.Good) (hτ : 0 ≤ τ) (hsq : SqOk J τ) (h : TInv J τ s) {l : Nat} (hl : l < (s.tab .v).tab.nvars)
    (hz : 1000 * ((l : R) + 1) * τ ≤ 1) {f : PtrEdge} {D : (Fin l → Fin 2) → Cx R} (hf : BRes J τ s l f D) (b : Basis) :
    TInv J τ ((s.basisKids J b f).1.makeU J l (s.basisKids J b f).2).1 ∧
    Grow J s ((s.basisKids J b f).1.makeU J l (s.basisKids J b f).2).1 ∧
    BRes J τ ((s.basisKids J b f).1.makeU J l (s.basisKids J b f).2).1 (l + 1) ((s.basisKids J b f).1.makeU J l (s.basisKids J b f).2).2
      (extD b D) := by
  have q0 := (sqrt12_num (R := R)).2.1
  have hτ1 : 1000 * τ ≤ 1 := by
    have : 1000 * ((l : R) + 1) * τ = 1000 * (l * τ) + 1000 * τ := by ring
    have : 0 ≤ (l : R) * τ := by positivity
    linarith
  have hsq1 : |J.C.sq - Pkg.sqrt12| ≤ τ := hsq
  have sq0 : 0 ≤ J.C.sq := by have := (abs_le.1 hsq1).1; linarith
  have ms : ∀ x y m : R, 0 ≤ m → x * x + y * y = m * m → mag (⟨x, y⟩ : Cx R) = m := by
    intro x y m hm h0
    have h1 := mag_sq (⟨x, y⟩ : Cx R)
    have h0' : (⟨x, y⟩ : Cx R).mag2 = m * m := h0
    rw [h0'] at h1
    have h2 := mag_nonneg (⟨x, y⟩ : Cx R)
    rcases mul_self_eq_mul_self_iff.1 h1 with h3 | h3
    · exact h3
    · linarith
  have sq1 : ∀ x y : R, x * x + y * y = (J.C.sq - Pkg.sqrt12) * (J.C.sq - Pkg.sqrt12) → mag (⟨x, y⟩ : Cx R) ≤ τ := by
    intro x y h0
    rw [ms x y |J.C.sq - Pkg.sqrt12| (abs_nonneg _) (by rw [h0, abs_mul_abs_self])]
    exact hsq
  cases b
  · exact makeU_single hJ hτ h hl hz hf false
  · exact makeU_single hJ hτ h hl hz hf true
  · exact makeU_both hJ hτ hsq h hl hz hf (Or.inl rfl) (Or.inr (Or.inr rfl)) (ms _ _ _ sq0 (by ring)) rfl
      (sq1 _ _ (by simp)) (ms _ _ _ (by linarith) (by ring))
  · exact makeU_both hJ hτ hsq h hl hz hf (y := ⟨-J.C.sq, 0⟩) (Or.inr (Or.inl rfl)) (Or.inr (Or.inr rfl)) (ms _ _ _ sq0 (by ring))
      (by unfold mag2F; dsimp only; rw [neg_mul_neg]) (y' := ⟨-Pkg.sqrt12, 0⟩) (sq1 _ _ (by simp; ring)) (ms _ _ _ (by linarith) (by ring))
  · exact makeU_both hJ hτ hsq h hl hz hf (y := ⟨0, J.C.sq⟩) (Or.inr (Or.inr rfl)) (Or.inl rfl) (ms _ _ _ sq0 (by ring))
      (by unfold mag2F; dsimp only; rw [add_comm]) (y' := ⟨0, Pkg.sqrt12⟩) (sq1 _ _ (by simp)) (ms _ _ _ (by linarith) (by ring))
  · exact makeU_both hJ hτ hsq h hl hz hf (y := ⟨0, -J.C.sq⟩) (Or.inr (Or.inr rfl)) (Or.inr (Or.inl rfl)) (ms _ _ _ sq0 (by ring))
      (by unfold mag2F; dsimp only; rw [add_comm, neg_mul_neg]) (y' := ⟨0, -Pkg.sqrt12⟩) (sq1 _ _ (by simp; ring)) (ms _ _ _ (by linarith) (by ring))

theorem basisLoop_acc (hJ : J.Good) (hτ : 0 ≤ τ) (hsq : SqOk J τ) (h : TInv J τ s) (st : Nat → Basis) :
    ∀ (n : Nat), n ≤ (s.tab .v).tab.nvars → 1000 * ((n : R) + 1) * τ ≤ 1 →
      TInv J τ (s.basisLoop J st n).1 ∧ Grow J s (s.basisLoop J st n).1 ∧
      BRes J τ (s.basisLoop J st n).1 n (s.basisLoop J st n).2 (fun d => ∏ i : Fin n, basisAmp (st i) (d i)) := by
  intro n
  induction n with
  | zero =>
    intro _ _
    refine ⟨h, .refl s, ⟨trivial, trivial⟩, trivial, fun _ => rfl, ?_, fun d => ?_, trivial⟩
    · show mag (s.ct.cval J.C CNum.one - 1) ≤ _
      rw [cval_one, sub_self, mag_zero]; simp
    · show mag (s.ct.cval J.C CNum.one * 1 - _) ≤ _
      rw [cval_one]; simp [mag_zero]
  | succ n ih =>
    intro hn hz
    have hz' : 1000 * ((n : R) + 1) * τ ≤ 1 := by
      push_cast at hz
      have : 1000 * ((n : R) + 1 + 1) * τ = 1000 * ((n : R) + 1) * τ + 1000 * τ := by ring
      linarith
    obtain ⟨i1, i2, i3⟩ := ih (by omega) hz'
    obtain ⟨b1, b2, b3⟩ := basis_step hJ hτ hsq i1 (l := n) (by rw [i2.nvars .v]; omega) hz' i3 (st n)
    refine ⟨b1, i2.trans b2, ?_⟩
    have e : (fun d : Fin (n + 1) → Fin 2 => ∏ i : Fin (n + 1), basisAmp (R := R) (st i) (d i)) =
        extD (st n) (fun d => ∏ i : Fin n, basisAmp (st i) (d i)) := by
      funext d
      rw [Fin.prod_univ_castSucc]
      rfl
    rw [e]
    exact b3

end DD
