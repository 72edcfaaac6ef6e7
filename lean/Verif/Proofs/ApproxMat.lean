import Verif.ApproxSpec
import Verif.Proofs.ApproxMatExt

/-! # Accuracy of building matrices -/

namespace DD

open Pkg UTable JState

variable {R : Type} [Field R] [LinearOrder R] [IsStrictOrderedRing R] [FloorRing R] {J : JCfg R} {τ : R}
variable {s s' s'' : JState R}

omit [IsStrictOrderedRing R] in
theorem ampJ_eq (s : JState R) : ∀ (l : Nat) (e : PtrEdge) (d : Fin l → Fin 4),
    amp ((s.tab .m).tab.mapW (s.ct.cval J.C)) l ⟨e.p, s.ct.cval J.C e.w⟩ d = s.ct.cval J.C e.w * s.nampM J l e.p d := by
  intro l
  induction l with
  | zero => intro e d; show _ = _ * (1 : Cx R); rw [mul_one]; rfl
  | succ l ih =>
    intro e d
    obtain ⟨p, w⟩ := e
    cases p with
    | none => show _ = _ * (1 : Cx R); rw [mul_one]; rfl
    | some a =>
      have := ih (((s.tab .m).tab.mem a).e (d (Fin.last l))) (Fin.init d)
      exact congrArg (s.ct.cval J.C w * ·) this

omit [IsStrictOrderedRing R] in
theorem matJ_eq (s : JState R) (l : Nat) (e : PtrEdge) (r c : Fin l → Fin 2) :
    s.matJ J l e r c = s.ct.cval J.C e.w * s.nampM J l e.p (fun i => rc (r i) (c i)) := ampJ_eq s l e _

variable [HasSqrt R]

theorem Grow.nampM (hJ : J.Good) (hτ : 0 ≤ τ) (h : TInv J τ s) (g : Grow J s s') : ∀ (l : Nat) (p : Option Nat) (d : Fin l → Fin 4),
    (∀ a, p = some a → a ∈ (s.tab .m).tab.all) → s'.nampM J l p d = s.nampM J l p d := by
  obtain ⟨pin, hi⟩ := h.reach.inv hJ (zero_tol hτ)
  intro l
  induction l with
  | zero => intro p d _; rfl
  | succ l ih =>
    intro p d hp
    cases p with
    | none => rfl
    | some a =>
      have ha := hp a rfl
      have hn := g.rel.node .m a ha (g.all .m a ha)
      show s'.ct.cval J.C (((s'.tab .m).tab.mem a).e (d (Fin.last l))).w * s'.nampM J l _ _ = _
      rw [hn.1]
      exact congrArg₂ (· * ·) (g.cval (hi.nodes .m a ha (d (Fin.last l))))
        (ih _ _ (fun b hb => (((hi.tab .m).inv hJ.U).closed a ha (d (Fin.last l)) b hb).1))

/-- A number both parts of which are at most `τ`. -/
def NearZero (τ : R) (z : Cx R) : Prop := |z.re| ≤ τ ∧ |z.im| ≤ τ

omit [IsStrictOrderedRing R] [HasSqrt R] in
theorem zeroV_iff {t : CTab R} (ht : t.tol = τ) {z : Cx R} : t.zeroV z = true ↔ NearZero τ z := by
  unfold CTab.zeroV CTab.approxZero NearZero
  simp [ht]

variable [LawfulSqrt R]

theorem NearZero.mag (hτ : 0 ≤ τ) {z : Cx R} (h : NearZero τ z) : mag z ≤ 2 * τ := by
  have := mag_of_comp (a := z) (b := 0) hτ (by simpa using h.1) (by simpa using h.2)
  rwa [sub_zero] at this

theorem mag_sub_le (a b : Cx R) : Pkg.mag (a - b) ≤ Pkg.mag a + Pkg.mag b := by
  have := mag_add a (-b)
  rwa [mag_neg, ← sub_eq_add_neg] at this

theorem not_nearZero {z : Cx R} (h : ¬ NearZero τ z) : τ < Pkg.mag z := by
  by_contra hn
  push Not at hn
  exact h ⟨(abs_re_le z).trans hn, (abs_im_le z).trans hn⟩

/-- The largest entry bounds the others. -/
theorem mag_near {A z : Cx R} {b M E : R} {l : Nat} (hτ : 0 ≤ τ) (hb : 0 ≤ b) (hM : 0 ≤ M) (hE : 0 ≤ E) (hk : l * τ ≤ b * b)
    (hl : l ≠ 0 → M * b ≤ E) (h : NearZero τ A ∨ A.mag2 ≤ z.mag2 + l * (τ * (26 / 25 + 1 / 50 * M ^ 2))) :
    Pkg.mag A ≤ Pkg.mag z + (51 / 50 * b + 3 / 20 * E) + 2 * τ := by
  have hz := mag_nonneg z
  have hMb := mul_nonneg hM hb
  rcases h with h | h
  · have := h.mag hτ; linarith
  · by_cases h0 : l = 0
    · have : Pkg.mag A ≤ Pkg.mag z := by
        apply mag_le hz
        rw [mag_sq]
        simpa [h0] using h
      linarith
    · have : Pkg.mag A ≤ Pkg.mag z + (51 / 50 * b + 3 / 20 * (M * b)) := by
        apply mag_le (by linarith)
        rw [← mag_sq z] at h
        have h1 := mul_le_mul_of_nonneg_right hk (by positivity : 0 ≤ 26 / 25 + 1 / 50 * M ^ 2)
        have h2 : 0 ≤ Pkg.mag z * (51 / 50 * b + 3 / 20 * (M * b)) := mul_nonneg hz (by linarith)
        have h3 := mul_nonneg hb hMb
        have h4 := mul_nonneg hMb hMb
        have h5 := mul_nonneg hb hb
        linarith
      linarith [hl h0]

/-- Scaling below a number that is not near zero. -/
theorem scaled {z n A : Cx R} {K E : R} (hτ : 0 ≤ τ) (hz : τ < Pkg.mag z) (hK : 0 ≤ K) (hE : 0 ≤ E) (hA : Pkg.mag A ≤ Pkg.mag z + K)
    (he : Pkg.mag (z * n - A) ≤ E) : τ * Pkg.mag n ≤ τ + K + E := by
  have h1 := mag_le_add (z * n) A
  rw [mag_mul] at h1
  have hn := mag_nonneg n
  by_cases h : Pkg.mag n ≤ 1
  · nlinarith
  · push Not at h
    nlinarith [mul_nonneg (sub_nonneg.2 h.le) (sub_nonneg.2 hz.le)]

theorem kidM_err {t c z n A : Cx R} {K E D : R} (hτ : 0 ≤ τ) (hz : τ < Pkg.mag z) (hK : 0 ≤ K) (hE : 0 ≤ E) (hD : 0 ≤ D)
    (hA : Pkg.mag A ≤ Pkg.mag z + K) (he : Pkg.mag (z * n - A) ≤ E) (hc : Pkg.mag (t * c - z) ≤ D * τ) :
    Pkg.mag (t * (c * n) - A) ≤ E + D * (τ + K + E) := by
  have e : t * (c * n) - A = (z * n - A) + (t * c - z) * n := by ring
  rw [e]
  refine (mag_add _ _).trans (add_le_add he ?_)
  refine (mag_mono_mul hc (le_refl _)).trans ?_
  rw [mul_assoc]
  exact mul_le_mul_of_nonneg_left (scaled hτ hz hK hE hA he) hD

theorem divV_gen {t : CTab R} {fl : R → R} (hr : RndOk fl t.tol) {a b : Cx R} (ha : t.tol ≤ Pkg.mag a ∨ 1 ≤ Pkg.mag a)
    (hb : t.tol ≤ Pkg.mag b) (hb0 : b ≠ 0) :
    Pkg.mag (b * t.divV fl a b - a) ≤ 8 / 5 * t.tol * (1 + Pkg.mag a) + 1 / 100 * t.tol * Pkg.mag b := by
  obtain ⟨ε, η, hR⟩ := hr
  have hτ := hR.pos
  have a0 := mag_nonneg a
  have b0 := mag_nonneg b
  have ta := mul_nonneg hτ a0
  have tb := mul_nonneg hτ b0
  unfold CTab.divV
  split_ifs with h1 h2
  · have e0 : (⟨1, 0⟩ : Cx R) = 1 := rfl
    rw [e0, mul_one, mag_sub_comm]
    refine (eqV_mag' hτ h1).trans ?_
    linarith
  · have h := oneV_mag' hτ h2
    have e : b * a - a = (b - 1) * a := by ring
    rw [e]
    refine (mag_mono_mul h (le_refl _)).trans ?_
    linarith
  · have hbp : 0 < Pkg.mag b := lt_of_le_of_ne b0 (fun h => hb0 (mag_eq_zero h.symm))
    have d : Pkg.mag (⟨fl (fl (fl (a.re * b.re) + fl (a.im * b.im)) / fl (fl (b.re * b.re) + fl (b.im * b.im))),
        fl (fl (fl (a.im * b.re) - fl (a.re * b.im)) / fl (fl (b.re * b.re) + fl (b.im * b.im)))⟩ - a / b) ≤
        23 * ε * (Pkg.mag a / Pkg.mag b) + 3 / 2 * η := by
      rcases ha with ha | ha
      · exact hR.div ha hb hbp
      · rcases le_total t.tol 1 with h | h
        · exact hR.div (h.trans ha) hb hbp
        · exact (⟨hR.nn, hR.one, hR.one, hR.eta, hR.eta1, by rw [one_pow, mul_one]; exact hR.eta1, hR.err⟩ : Rnd fl 1 ε η).div ha (h.trans hb) hbp
    dsimp only
    set q : Cx R := ⟨fl (fl (fl (a.re * b.re) + fl (a.im * b.im)) / fl (fl (b.re * b.re) + fl (b.im * b.im))),
        fl (fl (fl (a.im * b.re) - fl (a.re * b.im)) / fl (fl (b.re * b.re) + fl (b.im * b.im)))⟩
    have e : b * q - a = b * (q - a / b) := by rw [mul_sub, mul_div_cancel₀ a hb0]
    rw [e]
    refine (mag_mono_mul (le_refl _) d).trans ?_
    have e1 : Pkg.mag b * (23 * ε * (Pkg.mag a / Pkg.mag b) + 3 / 2 * η) = 23 * (ε * Pkg.mag a) + 3 / 2 * (η * Pkg.mag b) := by
      field_simp
    rw [e1]
    have f1 := mul_le_mul_of_nonneg_right (by linarith [hR.tol] : ε ≤ 1 / 1000 * t.tol) a0
    have f2 := mul_le_mul_of_nonneg_right (by linarith [hR.tol, hR.eta1] : η ≤ 1 / 1000 * t.tol) b0
    linarith

/-- An intermediate result for the matrix `A` over `l` qubits, with error `E`. -/
structure MatRes (J : JCfg R) (τ M E : R) (s : JState R) (l : Nat) (A : (Fin l → Fin 2) → (Fin l → Fin 2) → Cx R) (e : SEdge R) : Prop where
  node : ∀ a, e.p = some a → a ∈ (s.tab .m).tab.all ∧ ((s.tab .m).tab.mem a).v + 1 = l
  term : e.p = none → l = 0 ∨ e.w = none
  bd : mag (sval e.w) ≤ M
  zero : NearZero τ (sval e.w) → (l = 0 ∨ e = ⟨none, none⟩) ∧ ∀ r c, NearZero τ (A r c)
  big : ¬ NearZero τ (sval e.w) → ∀ r c, NearZero τ (A r c) ∨ (A r c).mag2 ≤ (sval e.w).mag2 + l * (τ * (26 / 25 + 1 / 50 * M ^ 2))
  acc : ∀ r c, mag (sval e.w * s.nampM J l e.p (fun i => rc (r i) (c i)) - A r c) ≤ E

omit [LawfulSqrt R] in
theorem Grow.matRes (hJ : J.Good) (hτ : 0 ≤ τ) (h : TInv J τ s) (g : Grow J s s') {M E : R} {l : Nat}
    {A : (Fin l → Fin 2) → (Fin l → Fin 2) → Cx R} {e : SEdge R} (hr : MatRes J τ M E s l A e) : MatRes J τ M E s' l A e := by
  refine ⟨fun a ha => ?_, hr.term, hr.bd, hr.zero, hr.big, fun r c => ?_⟩
  · obtain ⟨h1, h2⟩ := hr.node a ha
    refine ⟨g.all .m a h1, ?_⟩
    rw [(g.rel.node .m a h1 (g.all .m a h1)).2]; exact h2
  · rw [g.nampM hJ hτ h _ _ _ (fun a ha => (hr.node a ha).1)]
    exact hr.acc r c

/-- Making a node for a matrix. -/
theorem makeM_acc (hJ : J.Good) (hτ : 0 ≤ τ) {tr : JState R → PtrEdge → JState R × PtrEdge} {l : Nat} (ht : TrJ J τ tr l)
    (h : TInv J τ s) (hl : l < (s.tab .m).tab.nvars) {M E b : R} (hM : 1 ≤ M) (hE : 0 ≤ E) (hb : 0 ≤ b) (hlb : l * τ ≤ b * b)
    (hEl : l ≠ 0 → M * b ≤ E) {A : Fin 4 → (Fin l → Fin 2) → (Fin l → Fin 2) → Cx R} {es : Fin 4 → SEdge R} (hes : ∀ i, MatRes J τ M E s l (A i) (es i)) :
    TInv J τ (s.makeM J tr l es).1 ∧ Grow J s (s.makeM J tr l es).1 ∧
    MatRes J τ M ((1 + 10 * M) * E + 30 * M * (τ + b)) (s.makeM J tr l es).1 (l + 1)
      (fun r c => A (rc (r (Fin.last l)) (c (Fin.last l))) (Fin.init r) (Fin.init c)) (s.makeM J tr l es).2 := by
  have htol := h.tol hJ hτ
  have hE' : 0 ≤ (1 + 10 * M) * E + 30 * M * (τ + b) := by positivity
  unfold JState.makeM
  obtain ⟨am1, am2⟩ := argmax_spec s.ct (h.ok hJ hτ) (fun i => sval (es i).w)
  cases ha : s.ct.argmax J.fl (fun i => sval (es i).w) with
  | none =>
    obtain ⟨a1, a2⟩ := takeM_grow hJ hτ h
    refine ⟨a1, a2, fun a ha => by simp at ha, fun _ => Or.inr rfl, ?_, fun _ => ⟨Or.inr rfl, fun r c => ?_⟩, fun hn => ?_,
      fun r c => ?_⟩
    · show mag (0 : Cx R) ≤ M; rw [mag_zero]; linarith
    · exact ((hes _).zero ((zeroV_iff htol).1 (am1 ha _))).2 _ _
    · exact absurd ⟨by show |(0 : R)| ≤ τ; simpa using hτ, by show |(0 : R)| ≤ τ; simpa using hτ⟩ hn
    · show mag ((0 : Cx R) * _ - _) ≤ _
      rw [zero_mul, zero_sub, mag_neg]
      refine (((hes _).zero ((zeroV_iff htol).1 (am1 ha _))).2 _ _ |>.mag hτ).trans ?_
      nlinarith [mul_nonneg (by linarith : (0 : R) ≤ M) hE, mul_nonneg (by linarith : (0 : R) ≤ M) hb]
  | some m =>
    dsimp only
    obtain ⟨nz, mx⟩ := am2 m ha
    have nzm : ¬ NearZero τ (sval (es m).w) := by rw [← zeroV_iff htol, nz]; simp
    obtain ⟨k1, k2, k3⟩ := kids_grow hJ hτ h (v := l) (m := m) (z := fun i => sval (es i).w) (p := fun i => (es i).p)
      (fun i b hb => (hes i).node b hb) (fun i hp _ => by
        rcases (hes i).term hp with h0 | h0
        · exact Or.inl h0
        · right
          rw [h0]
          exact zeroV_zero (by rw [htol]; exact hτ)) nz
    obtain ⟨n1, n2, n3, n4, n5⟩ := nodeM_grow hJ hτ ht k1 (by rw [k2.nvars .m]; exact hl) (fun i => (k3 i).1)
    set k := seqFin 4 (fun i => kidM J m (sval (es m).w) i (es i).p (sval (es i).w)) s
    set n := k.1.nodeM J tr l k.2
    have g := k2.trans n2
    refine ⟨n1, g, fun a ha => ?_, fun hp => by simp at hp, (hes m).bd, fun hz => absurd hz nzm, fun _ r c => ?_, fun r c => ?_⟩
    · simp only [Option.some.injEq] at ha
      subst ha
      exact ⟨n3, by rw [n4]⟩
    · set i := rc (r (Fin.last l)) (c (Fin.last l))
      by_cases hz : NearZero τ (sval (es i).w)
      · exact Or.inl (((hes i).zero hz).2 _ _)
      · rcases (hes i).big hz (Fin.init r) (Fin.init c) with hz' | hz'
        · exact Or.inl hz'
        · right
          have := mx i (by rw [← Bool.not_eq_true, zeroV_iff htol]; exact hz)
          rw [htol] at this
          show _ ≤ (sval (es m).w).mag2 + _
          push_cast
          have q := mul_le_mul_of_nonneg_left (mul_self_le_mul_self (mag_nonneg _) (hes m).bd) hτ
          rw [mag_sq] at q
          linarith
    · set i := rc (r (Fin.last l)) (c (Fin.last l)) with hi
      have hn : n.1.nampM J (l + 1) (some n.2) (fun j => rc (r j) (c j)) =
          n.1.ct.cval J.C (((n.1.tab .m).tab.mem n.2).e i).w * n.1.nampM J l (((n.1.tab .m).tab.mem n.2).e i).p
            (fun j => rc (Fin.init r j) (Fin.init c j)) := rfl
      obtain ⟨p1, p2⟩ := n5 i
      show mag (sval (es m).w * n.1.nampM J (l + 1) (some n.2) (fun j => rc (r j) (c j)) - _) ≤ _
      rw [hn, p1]
      obtain ⟨_, q2, q3, q4⟩ := k3 i
      have bm := (hes m).bd
      have hmM := mag_nonneg (sval (es m).w)
      have hME : 0 ≤ M * E := mul_nonneg (by linarith) hE
      have hMb : 0 ≤ M * b := mul_nonneg (by linarith) hb
      have hMτ : τ ≤ M * τ := le_mul_of_one_le_left hτ hM
      have step : ∀ (hz : ¬ NearZero τ (sval (es i).w)) (c' : Cx R), mag (sval (es m).w * c' - sval (es i).w) ≤ 17 / 2 * M * τ →
          mag (sval (es m).w * (c' * n.1.nampM J l (es i).p (fun j => rc (Fin.init r j) (Fin.init c j))) -
            A i (Fin.init r) (Fin.init c)) ≤ (1 + 10 * M) * E + 30 * M * (τ + b) := by
        intro hz c' hc'
        have acc := (hes i).acc (Fin.init r) (Fin.init c)
        rw [← g.nampM hJ hτ h _ _ _ (fun a ha => ((hes i).node a ha).1)] at acc
        have near := mag_near hτ hb (by linarith) hE hlb hEl ((hes i).big hz (Fin.init r) (Fin.init c))
        have := kidM_err hτ (not_nearZero hz) (K := 51 / 50 * b + 3 / 20 * E + 2 * τ) (by linarith) hE (D := 17 / 2 * M) (by linarith)
          (by linarith) acc hc'
        refine this.trans ?_
        have hMτ' : 0 ≤ M * τ := mul_nonneg (by linarith) hτ
        linarith
      by_cases him : i = m
      · have e := q2 him
        rw [e] at p2 ⊢
        have hi1 : mag (n.1.ct.cval J.C (((n.1.tab .m).tab.mem n.2).e i).w - 1) ≤ 2 * τ := p2
        refine step (by rw [him]; exact nzm) _ ?_
        have e2 : ∀ x : Cx R, sval (es m).w * x - sval (es i).w = sval (es m).w * (x - 1) := by intro x; rw [him]; ring
        rw [e2]
        refine (mag_mono_mul bm hi1).trans ?_
        nlinarith
      · by_cases hz : NearZero τ (sval (es i).w)
        · have e := q3 him ((zeroV_iff htol).2 hz)
          rw [e] at p2 ⊢
          have hi1 : mag (n.1.ct.cval J.C (((n.1.tab .m).tab.mem n.2).e i).w) ≤ 2 * τ := by
            have := p2
            rw [cval_zero, sub_zero] at this
            exact this
          have one : n.1.nampM J l none (fun j => rc (Fin.init r j) (Fin.init c j)) = 1 := by cases l <;> rfl
          show mag (_ * (_ * n.1.nampM J l none _) - _) ≤ _
          rw [one, mul_one]
          refine (mag_sub_le _ _).trans ?_
          have a1 := mag_mono_mul bm hi1
          have a2 := (((hes i).zero hz).2 (Fin.init r) (Fin.init c)).mag hτ
          nlinarith
        · obtain ⟨q5, q6⟩ := q4 him (by rw [← Bool.not_eq_true, zeroV_iff htol]; exact hz)
          rw [q5]
          refine step hz _ ?_
          have hne : sval (es m).w ≠ 0 := by
            rintro h0
            exact nzm (by rw [h0]; exact ⟨by show |(0 : R)| ≤ τ; simpa using hτ, by show |(0 : R)| ≤ τ; simpa using hτ⟩)
          set v := (if s.ct.oneV (sval (es i).w) = true then (⟨1, 0⟩ : Cx R) else sval (es i).w) with hv
          have vb : mag v ≤ M ∧ mag (v - sval (es i).w) ≤ 3 / 2 * τ := by
            rw [hv]
            split_ifs with ho
            · have := oneV_mag' (by rw [htol]; exact hτ) ho
              rw [htol, mag_sub_comm] at this
              exact ⟨by show mag (1 : Cx R) ≤ M; rw [mag_one]; exact hM, this⟩
            · refine ⟨(hes i).bd, ?_⟩
              rw [sub_self, mag_zero]; linarith
          have vlo : s.ct.tol ≤ mag v ∨ 1 ≤ mag v := by
            rw [hv]
            split_ifs with ho
            · right; show 1 ≤ mag (1 : Cx R); rw [mag_one]
            · left; rw [htol]; exact (not_nearZero hz).le
          have d := divV_gen (t := s.ct) (h.ok hJ hτ) vlo (by rw [htol]; exact (not_nearZero nzm).le) hne
          rw [htol] at d
          set c2 := k.1.ct.cval J.C (k.2 i).w
          set c3 := n.1.ct.cval J.C (((n.1.tab .m).tab.mem n.2).e i).w
          set u := s.ct.divV J.fl v (sval (es m).w)
          have e : sval (es m).w * c3 - sval (es i).w = sval (es m).w * (c3 - c2) + sval (es m).w * (c2 - u) +
              (sval (es m).w * u - v) + (v - sval (es i).w) := by ring
          rw [e]
          have a1 := mag_mono_mul bm p2
          have a2 := mag_mono_mul bm q6
          have b1 := mag_add (sval (es m).w * (c3 - c2) + sval (es m).w * (c2 - u) + (sval (es m).w * u - v)) (v - sval (es i).w)
          have b2 := mag_add (sval (es m).w * (c3 - c2) + sval (es m).w * (c2 - u)) (sval (es m).w * u - v)
          have b3 := mag_add (sval (es m).w * (c3 - c2)) (sval (es m).w * (c2 - u))
          have d2 : 8 / 5 * τ * (1 + mag v) ≤ 8 / 5 * τ * (1 + M) := mul_le_mul_of_nonneg_left (by linarith [vb.1]) (by linarith)
          have d3 := mul_le_mul_of_nonneg_left bm hτ
          have := vb.2
          linarith

/-- The entries of a quadrant. -/
def sub2 (M : Nat → Nat → Cx R) (l r0 c0 : Nat) (r c : Fin l → Fin 2) : Cx R := M (r0 + bitIdx r) (c0 + bitIdx c)

/-- Error of a matrix over `l` qubits. -/
def matE (M τ b : R) (l : Nat) : R := 3 * ((1 + 10 * M) ^ l - 1) * (τ + b)

theorem matrixF_acc (hJ : J.Good) (hτ : 0 ≤ τ) {B b : R} (hB : 1 ≤ B) (hb : 0 ≤ b) (M : Nat → Nat → Cx R) :
    ∀ (l r0 c0 : Nat) (s : JState R), TInv J τ s → l ≤ (s.tab .m).tab.nvars → l * τ ≤ b * b →
    (∀ r c, r < r0 + 2 ^ l → c < c0 + 2 ^ l → mag (M r c) ≤ B) →
    let q := JState.matrixF J M l r0 (r0 + 2 ^ l) c0 (c0 + 2 ^ l) s
    TInv J τ q.1 ∧ Grow J s q.1 ∧ MatRes J τ B (matE B τ b l) q.1 l (sub2 M l r0 c0) q.2 := by
  intro l
  induction l with
  | zero =>
    intro r0 c0 s h _ _ hM
    have e : ∀ d : Fin 0 → Fin 2, bitIdx d = 0 := fun d => by simp [bitIdx]
    have e2 : ∀ r c, sub2 M 0 r0 c0 r c = M r0 c0 := fun r c => by simp [sub2, e]
    refine ⟨h, .refl _, fun a ha => by simp [JState.matrixF] at ha, fun _ => Or.inl rfl, hM r0 c0 (by simp) (by simp),
      fun hz => ⟨Or.inl rfl, fun r c => by rw [e2]; exact hz⟩, fun _ r c => Or.inr (by rw [e2]; simp [JState.matrixF, sval]), fun r c => ?_⟩
    rw [e2]
    show mag (M r0 c0 * 1 - M r0 c0) ≤ _
    rw [mul_one, sub_self, mag_zero]
    simp [matE]
  | succ l ih =>
    intro r0 c0 s h hn hlb hM
    have hpos := Nat.two_pow_pos l
    have hmid : ∀ x, (x + (x + 2 ^ (l + 1))) / 2 = x + 2 ^ l := by intro x; rw [pow_succ]; omega
    have hend : ∀ x, x + 2 ^ (l + 1) = (x + 2 ^ l) + 2 ^ l := by intro x; rw [pow_succ]; ring
    have hlb' : (l : R) * τ ≤ b * b := by push_cast at hlb; nlinarith
    have sub : ∀ r' c', r' ≤ r0 + 2 ^ l → c' ≤ c0 + 2 ^ l → ∀ r c, r < r' + 2 ^ l → c < c' + 2 ^ l → mag (M r c) ≤ B := by
      intro r' c' h1 h2 r c h3 h4
      have := hend r0; have := hend c0
      exact hM r c (by omega) (by omega)
    obtain ⟨i0, g0, m0⟩ := ih r0 c0 s h (by omega) hlb' (sub _ _ (by omega) (by omega))
    obtain ⟨i1, g1, m1⟩ := ih r0 (c0 + 2 ^ l) _ i0 (by rw [g0.nvars .m]; omega) hlb' (sub _ _ (by omega) (by omega))
    obtain ⟨i2, g2, m2⟩ := ih (r0 + 2 ^ l) c0 _ i1 (by rw [g1.nvars .m, g0.nvars .m]; omega) hlb' (sub _ _ (by omega) (by omega))
    obtain ⟨i3, g3, m3⟩ := ih (r0 + 2 ^ l) (c0 + 2 ^ l) _ i2 (by rw [g2.nvars .m, g1.nvars .m, g0.nvars .m]; omega) hlb'
      (sub _ _ (by omega) (by omega))
    rw [JState.matrixF]
    dsimp only
    rw [hmid, hmid, hend, hend c0]
    set e0 := JState.matrixF J M l r0 (r0 + 2 ^ l) c0 (c0 + 2 ^ l) s
    set e1 := JState.matrixF J M l r0 (r0 + 2 ^ l) (c0 + 2 ^ l) (c0 + 2 ^ l + 2 ^ l) e0.1
    set e2 := JState.matrixF J M l (r0 + 2 ^ l) (r0 + 2 ^ l + 2 ^ l) c0 (c0 + 2 ^ l) e1.1
    set e3 := JState.matrixF J M l (r0 + 2 ^ l) (r0 + 2 ^ l + 2 ^ l) (c0 + 2 ^ l) (c0 + 2 ^ l + 2 ^ l) e2.1
    have E0 : 0 ≤ matE B τ b l := by
      unfold matE
      have : 1 ≤ (1 + 10 * B) ^ l := one_le_pow₀ (by linarith)
      have : 0 ≤ (1 + 10 * B) ^ l - 1 := by linarith
      positivity
    have EL : l ≠ 0 → B * b ≤ matE B τ b l := by
      intro h0
      unfold matE
      have h1 : 1 + 10 * B ≤ (1 + 10 * B) ^ l := le_self_pow₀ (by linarith) h0
      have h2 := mul_le_mul_of_nonneg_right (by linarith : 30 * B ≤ 3 * ((1 + 10 * B) ^ l - 1)) (by linarith : 0 ≤ τ + b)
      have h3 := mul_nonneg (by linarith : 0 ≤ B) hb
      have h4 := mul_nonneg (by linarith : 0 ≤ B) hτ
      linarith
    have mk := makeM_acc hJ hτ (transposeF_grow hJ hτ l) i3 (by rw [g3.nvars .m, g2.nvars .m, g1.nvars .m, g0.nvars .m]; omega) hB E0 hb
      hlb' EL (A := ![sub2 M l r0 c0, sub2 M l r0 (c0 + 2 ^ l), sub2 M l (r0 + 2 ^ l) c0, sub2 M l (r0 + 2 ^ l) (c0 + 2 ^ l)])
      (es := ![e0.2, e1.2, e2.2, e3.2]) (by
        intro i
        fin_cases i
        · exact (g1.trans (g2.trans g3)).matRes hJ hτ i0 m0
        · exact (g2.trans g3).matRes hJ hτ i1 m1
        · exact g3.matRes hJ hτ i2 m2
        · exact m3)
    obtain ⟨k1, k2, k3⟩ := mk
    refine ⟨k1, (((g0.trans g1).trans g2).trans g3).trans k2, ?_⟩
    have hEq : (1 + 10 * B) * matE B τ b l + 30 * B * (τ + b) = matE B τ b (l + 1) := by unfold matE; ring
    rw [hEq] at k3
    convert k3 using 1
    funext r c
    have br := bitIdx_snoc r
    have bc := bitIdx_snoc c
    unfold sub2
    rw [br, bc]
    generalize r (Fin.last l) = x
    generalize c (Fin.last l) = y
    fin_cases x <;> fin_cases y <;> simp [rc, Nat.add_comm, Nat.add_left_comm]

omit [HasSqrt R] [LawfulSqrt R] in
theorem Grow.validM (g : Grow J s s') {l : Nat} {e : PtrEdge} (h : s.ValidM J l e) : s'.ValidM J l e := by
  obtain ⟨h1, h2, h3⟩ := h
  refine ⟨g.live _ h1, g.live _ h2, ?_⟩
  cases hp : e.p with
  | none => rw [hp] at h3; exact h3
  | some a =>
    rw [hp] at h3
    have := g.rel.node .m a h3.1 (g.all .m a h3.1)
    exact ⟨g.all .m a h3.1, by rw [this.2]; exact h3.2⟩

omit [HasSqrt R] [LawfulSqrt R] in
theorem validM_kn {l : Nat} {e : PtrEdge} (h : s.ValidM J l e) : s.KnM J τ l e := by
  obtain ⟨h1, h2, h3⟩ := h
  refine ⟨⟨h1, h2⟩, fun b hb => ?_, fun hb _ => ?_⟩
  · rw [hb] at h3
    exact h3
  · rw [hb] at h3
    exact h3

omit [LawfulSqrt R] in
theorem Grow.matJ (hJ : J.Good) (hτ : 0 ≤ τ) (h : TInv J τ s) (g : Grow J s s') {l : Nat} {e : PtrEdge} (he : s.ValidM J l e) :
    s'.matJ J l e = s.matJ J l e := by
  ext1 r c
  have k := validM_kn (τ := τ) he
  rw [matJ_eq, matJ_eq, g.cval k.1, g.nampM hJ hτ h _ _ _ (fun a ha => (k.2.1 a ha).1)]

theorem entries_bounded (M : Nat → Nat → Cx R) (N : Nat) : ∃ B : R, 1 ≤ B ∧ ∀ r c, r < N → c < N → mag (M r c) ≤ B := by
  have h0 : ∀ r, 0 ≤ ∑ c ∈ Finset.range N, mag (M r c) := fun r => Finset.sum_nonneg (fun c _ => mag_nonneg _)
  refine ⟨1 + ∑ r ∈ Finset.range N, ∑ c ∈ Finset.range N, mag (M r c), ?_, fun r c hr hc => ?_⟩
  · have := Finset.sum_nonneg (fun r (_ : r ∈ Finset.range N) => h0 r)
    linarith
  · have a1 : mag (M r c) ≤ ∑ c ∈ Finset.range N, mag (M r c) :=
      Finset.single_le_sum (f := fun c => mag (M r c)) (fun c _ => mag_nonneg _) (Finset.mem_range.2 hc)
    have a2 : ∑ c ∈ Finset.range N, mag (M r c) ≤ ∑ r ∈ Finset.range N, ∑ c ∈ Finset.range N, mag (M r c) :=
      Finset.single_le_sum (f := fun r => ∑ c ∈ Finset.range N, mag (M r c)) (fun r _ => h0 r) (Finset.mem_range.2 hr)
    linarith

/-- The number is looked up. -/
theorem finishM_acc (hJ : J.Good) (hτ : 0 ≤ τ) (h : TInv J τ s) {B E b : R} (hB : 0 ≤ B) (hE : 0 ≤ E) (hb : 0 ≤ b) {l : Nat}
    (hl : l ≠ 0) (hlb : l * τ ≤ b * b) (hEl : B * b ≤ E) {A : (Fin l → Fin 2) → (Fin l → Fin 2) → Cx R} {e : SEdge R}
    (he : MatRes J τ B E s l A e) :
    TInv J τ (finishV J (s, e)).1 ∧ Grow J s (finishV J (s, e)).1 ∧ (finishV J (s, e)).1.ValidM J l (finishV J (s, e)).2 ∧
    ∀ r c, mag ((finishV J (s, e)).1.matJ J l (finishV J (s, e)).2 r c - A r c) ≤ 3 * E + 6 * τ + 2 * b := by
  by_cases hz : NearZero τ (sval e.w)
  · obtain ⟨h1, h2⟩ := he.zero hz
    have h3 : e = ⟨none, none⟩ := h1.resolve_left hl
    subst h3
    refine ⟨h, .refl _, ⟨trivial, trivial, Or.inr rfl⟩, fun r c => ?_⟩
    rw [matJ_eq]
    show mag (s.ct.cval J.C CNum.zero * _ - _) ≤ _
    rw [cval_zero, zero_mul, zero_sub, mag_neg]
    have := (h2 r c).mag hτ
    linarith
  · cases hw : e.w with
    | none =>
      rw [hw] at hz
      exact absurd ⟨by show |(0 : R)| ≤ τ; simpa using hτ, by show |(0 : R)| ≤ τ; simpa using hτ⟩ hz
    | some z =>
      obtain ⟨l1, l2, l3, l4⟩ := lookupC_grow hJ hτ h z
      have hf : finishV J (s, e) = ((s.lookupC J z).1, ⟨e.p, (s.lookupC J z).2⟩) := by
        unfold finishV; dsimp only; rw [hw]
      rw [hf]
      have he' := l2.matRes hJ hτ h he
      refine ⟨l1, l2, ⟨l3.1, l3.2, ?_⟩, fun r c => ?_⟩
      · cases hp : e.p with
        | none => rcases he.term hp with h0 | h0
                  · exact absurd h0 hl
                  · rw [hw] at h0; simp at h0
        | some a => exact he'.node a hp
      · rw [matJ_eq]
        have acc := he'.acc r c
        have near := mag_near hτ hb hB hE hlb (fun _ => hEl) (he.big hz r c)
        have hs : sval e.w = z := by rw [hw]; rfl
        rw [hs] at acc hz near
        dsimp only
        set n := JState.nampM J (s.lookupC J z).1 l e.p (fun i => rc (r i) (c i))
        set w := (s.lookupC J z).1.ct.cval J.C (s.lookupC J z).2
        have := kidM_err hτ (t := 1) (c := w) (not_nearZero hz) (K := 51 / 50 * b + 3 / 20 * E + 2 * τ) (by linarith) hE (D := 3 / 2) (by norm_num) (by linarith) acc
          (by rw [one_mul]; exact l4)
        rw [one_mul] at this
        refine this.trans ?_
        linarith

/-- The size of the recursion for matrices. -/
theorem makeMatrix_acc (hJ : J.Good) (hτ : 0 ≤ τ) (h : TInv J τ s) {M : List (List (Cx R))}
    (hx : M.length ≤ 2 ^ (s.tab .m).tab.nvars) {e : PtrEdge} (he : s.makeDDFromMatrix J M = some (s', e)) :
    TInv J τ s' ∧ Grow J s s' ∧ ∀ n, M.length = 2 ^ n → s'.ValidM J n e ∧
      ∀ B, 1 ≤ B → (∀ i j, i < 2 ^ n → j < 2 ^ n → mag ((M.getD i []).getD j 0) ≤ B) → ∀ r c : Fin n → Fin 2,
        mag (s'.matJ J n e r c - (M.getD (bitIdx r) []).getD (bitIdx c) 0) ≤
          9 * (1 + 10 * B) ^ n * (τ + HasSqrt.sqrt (n * τ)) := by
  unfold JState.makeDDFromMatrix at he
  split_ifs at he with h1 h2 h3 h4
  · simp only [Option.some.injEq, Prod.mk.injEq] at he
    obtain ⟨rfl, rfl⟩ := he
    refine ⟨h, .refl s, fun n hn => ?_⟩
    rw [h1] at hn
    have := Nat.two_pow_pos n
    simp at hn
    omega
  · simp only [Option.some.injEq, Prod.mk.injEq] at he
    obtain ⟨e1, e2⟩ := he
    obtain ⟨a1, a2, a3, a4⟩ := lookupC_grow hJ hτ h ((M.getD 0 []).getD 0 0)
    subst e1 e2
    refine ⟨a1, a2, fun n hn => ?_⟩
    have hn0 : n = 0 := by
      by_contra hc
      have : 2 ^ 1 ≤ 2 ^ n := Nat.pow_le_pow_right (by omega) (by omega)
      omega
    subst hn0
    refine ⟨⟨a3.1, a3.2, Or.inl rfl⟩, fun B hB hM r c => ?_⟩
    rw [matJ_eq]
    have hb : ∀ d : Fin 0 → Fin 2, bitIdx d = 0 := fun d => by simp [bitIdx]
    rw [hb, hb]
    show mag (_ * (1 : Cx R) - _) ≤ _
    rw [mul_one]
    have hs : 0 ≤ HasSqrt.sqrt (((0 : Nat) : R) * τ) := LawfulSqrt.nonneg _
    refine a4.trans ?_
    rw [pow_zero]
    generalize HasSqrt.sqrt (((0 : Nat) : R) * τ) = w at hs ⊢
    linarith
  · have hpow := two_pow_of_and (by intro h0; exact h1 (List.length_eq_zero_iff.1 h0)) (by simpa using h2)
    simp only [Option.some.injEq] at he
    set n := Nat.log2 M.length with hn
    have hn0 : n ≠ 0 := by
      intro h0
      rw [h0] at hpow
      exact h4 hpow
    have hnv : n ≤ (s.tab .m).tab.nvars := by
      rw [hpow] at hx
      exact (Nat.pow_le_pow_iff_right (by omega : 1 < 2)).1 hx
    have hnτ : 0 ≤ (n : R) * τ := by positivity
    have hb0 : 0 ≤ HasSqrt.sqrt ((n : R) * τ) := LawfulSqrt.nonneg _
    have hbb : (n : R) * τ ≤ HasSqrt.sqrt ((n : R) * τ) * HasSqrt.sqrt ((n : R) * τ) := by rw [LawfulSqrt.mul_self _ hnτ]
    have hlen : M.length = 0 + 2 ^ n := by rw [zero_add]; exact hpow
    have main : ∀ B, 1 ≤ B → (∀ i j, i < 2 ^ n → j < 2 ^ n → mag ((M.getD i []).getD j 0) ≤ B) →
        TInv J τ s' ∧ Grow J s s' ∧ s'.ValidM J n e ∧ ∀ r c : Fin n → Fin 2,
        mag (s'.matJ J n e r c - (M.getD (bitIdx r) []).getD (bitIdx c) 0) ≤
          9 * (1 + 10 * B) ^ n * (τ + HasSqrt.sqrt (n * τ)) := by
      intro B hB hM
      obtain ⟨b1, b2, b3⟩ := matrixF_acc hJ hτ hB hb0 (fun i j => (M.getD i []).getD j 0) n 0 0 s h hnv hbb
        (by rw [zero_add]; exact hM)
      have q1 : 1 ≤ (1 + 10 * B) ^ n := one_le_pow₀ (by linarith)
      have hE : 0 ≤ matE B τ (HasSqrt.sqrt ((n : R) * τ)) n := by
        unfold matE
        have : 0 ≤ (1 + 10 * B) ^ n - 1 := by linarith
        positivity
      have EL : B * HasSqrt.sqrt ((n : R) * τ) ≤ matE B τ (HasSqrt.sqrt ((n : R) * τ)) n := by
        unfold matE
        set b := HasSqrt.sqrt ((n : R) * τ)
        have h1 : 1 + 10 * B ≤ (1 + 10 * B) ^ n := le_self_pow₀ (by linarith) hn0
        have h2 := mul_le_mul_of_nonneg_right (by linarith : 30 * B ≤ 3 * ((1 + 10 * B) ^ n - 1)) (by linarith : 0 ≤ τ + b)
        have h3 := mul_nonneg (by linarith : 0 ≤ B) hb0
        have h4 := mul_nonneg (by linarith : 0 ≤ B) hτ
        linarith
      rw [← hlen] at b1 b2 b3
      obtain ⟨c1, c2, c3, c4⟩ := finishM_acc hJ hτ b1 (by linarith) hE hb0 hn0 hbb EL b3
      rw [he] at c1 c2 c3 c4
      refine ⟨c1, b2.trans c2, c3, fun r c => ?_⟩
      have := c4 r c
      simp only [sub2, zero_add] at this
      refine this.trans ?_
      unfold matE
      nlinarith
    obtain ⟨B, hB, hM⟩ := entries_bounded (fun i j => (M.getD i []).getD j 0) (2 ^ n)
    obtain ⟨m1, m2, m3, -⟩ := main B hB hM
    refine ⟨m1, m2, fun k hk => ?_⟩
    obtain rfl : k = n := by
      rw [hpow] at hk
      exact (Nat.pow_right_injective (le_refl 2) hk).symm
    exact ⟨m3, fun B hB hM => (main B hB hM).2.2.2⟩

theorem makeMatrix_isSome (s : JState R) (M : List (List (Cx R))) :
    (∃ r, s.makeDDFromMatrix J M = some r) ↔ M = [] ∨ (∃ n, M.length = 2 ^ n) ∧ (M.getD 0 []).length = M.length := by
  unfold JState.makeDDFromMatrix
  by_cases h1 : M = []
  · simp [h1]
  rw [if_neg h1]
  have h0 : M.length ≠ 0 := fun h0 => h1 (List.length_eq_zero_iff.1 h0)
  by_cases h2 : M.length &&& (M.length - 1) ≠ 0
  · rw [if_pos h2]
    refine ⟨fun ⟨_, h⟩ => by simp at h, ?_⟩
    rintro (h | ⟨h, _⟩)
    · exact absurd h h1
    · exact absurd ((Nat.and_sub_one_eq_zero_iff_isPowerOfTwo h0).2 h) h2
  rw [if_neg h2]
  by_cases h3 : M.length ≠ (M.getD 0 []).length
  · rw [if_pos h3]
    refine ⟨fun ⟨_, h⟩ => by simp at h, ?_⟩
    rintro (h | ⟨_, h⟩)
    · exact absurd h h1
    · exact absurd h.symm h3
  rw [if_neg h3]
  dsimp only
  push Not at h2 h3
  refine ⟨fun _ => Or.inr ⟨(Nat.and_sub_one_eq_zero_iff_isPowerOfTwo h0).1 h2, h3.symm⟩, fun _ => ?_⟩
  split_ifs <;> exact ⟨_, rfl⟩

theorem transpose_acc (hJ : J.Good) (hτ : 0 ≤ τ) (h : TInv J τ s) {l : Nat} {e : PtrEdge} (he : s.ValidM J l e) :
    TInv J τ (s.transpose J e).1 ∧ Grow J s (s.transpose J e).1 := by
  have k := validM_kn (τ := τ) he
  have k' : s.KnM J τ (s.lvlM e.p) e := by
    refine ⟨k.1, fun b hb => ⟨(k.2.1 b hb).1, ?_⟩, fun hb _ => Or.inl ?_⟩
    · unfold JState.lvlM UTable.lvl
      rw [hb]
    · unfold JState.lvlM UTable.lvl
      rw [hb]
  have := transposeF_grow hJ hτ (s.lvlM e.p) s _ e (le_refl _) h k'
  exact ⟨this.1, this.2.1⟩

end DD
