import Verif.Proofs.ApproxReach

/-! # Accuracy of making matrix nodes out of table edges -/

namespace DD

open Pkg UTable JState

variable {R : Type} [Field R] [LinearOrder R] [IsStrictOrderedRing R] [FloorRing R] {J : JCfg R} {τ : R}
variable {s s' s'' : JState R} [HasSqrt R] [LawfulSqrt R]

/-- What the node made of the edges `es` looks like; `m` is the position of the largest weight. -/
structure NodeRes (J : JCfg R) (τ M : R) (s s' : JState R) (v : Nat) (es : Fin 4 → PtrEdge) (m : Fin 4) (q : Nat) : Prop where
  nz : ¬ NearZero τ (s.ct.cval J.C (es m).w)
  max : ∀ i, ¬ NearZero τ (s.ct.cval J.C (es i).w) → (s.ct.cval J.C (es i).w).mag2 ≤
    (s.ct.cval J.C (es m).w).mag2 + τ * (26 / 25 + 1 / 50 * (s.ct.cval J.C (es m).w).mag2)
  all : q ∈ (s'.tab .m).tab.all
  lvl : ((s'.tab .m).tab.mem q).v = v
  top : (((s'.tab .m).tab.mem q).e m).p = (es m).p ∧ mag (s'.ct.cval J.C (((s'.tab .m).tab.mem q).e m).w - 1) ≤ 2 * τ
  zero : ∀ i, i ≠ m → NearZero τ (s.ct.cval J.C (es i).w) →
    (((s'.tab .m).tab.mem q).e i).p = none ∧ mag (s'.ct.cval J.C (((s'.tab .m).tab.mem q).e i).w) ≤ 2 * τ
  rest : ∀ i, i ≠ m → ¬ NearZero τ (s.ct.cval J.C (es i).w) → (((s'.tab .m).tab.mem q).e i).p = (es i).p ∧
    mag (s.ct.cval J.C (es m).w * s'.ct.cval J.C (((s'.tab .m).tab.mem q).e i).w - s.ct.cval J.C (es i).w) ≤ 17 / 2 * M * τ ∧
    (s.ct.cval J.C (es i).w = s.ct.cval J.C (es m).w → s.ct.oneV (s.ct.cval J.C (es i).w) = false →
      mag (s'.ct.cval J.C (((s'.tab .m).tab.mem q).e i).w - 1) ≤ 7 / 2 * τ)

theorem makeN_node (hJ : J.Good) (hτ : 0 ≤ τ) {tr : JState R → PtrEdge → JState R × PtrEdge} {v : Nat} (ht : TrJ J τ tr v)
    (h : TInv J τ s) (hl : v < (s.tab .m).tab.nvars) {es : Fin 4 → PtrEdge} (hv : ∀ i, s.KnM J τ v (es i)) {M : R} (hM : 1 ≤ M)
    (hb : ∀ i, mag (s.ct.cval J.C (es i).w) ≤ M) :
    TInv J τ (s.makeN J tr v es).1 ∧ Grow J s (s.makeN J tr v es).1 ∧
    (((s.makeN J tr v es).2 = zeroP ∧ ∀ i, NearZero τ (s.ct.cval J.C (es i).w)) ∨
      ∃ m q, (s.makeN J tr v es).2 = ⟨some q, (es m).w⟩ ∧ NodeRes J τ M s (s.makeN J tr v es).1 v es m q) := by
  have htol := h.tol hJ hτ
  unfold JState.makeN
  obtain ⟨am1, am2⟩ := argmax_spec s.ct (h.ok hJ hτ) (fun i => s.ct.cval J.C (es i).w)
  cases ha : s.ct.argmax J.fl (fun i => s.ct.cval J.C (es i).w) with
  | none =>
    obtain ⟨a1, a2⟩ := takeBackM_grow hJ hτ h
    exact ⟨a1, a2, Or.inl ⟨rfl, fun i => (zeroV_iff htol).1 (am1 ha i)⟩⟩
  | some m =>
    dsimp only
    obtain ⟨nz, mx⟩ := am2 m ha
    have nzm : ¬ NearZero τ (s.ct.cval J.C (es m).w) := by rw [← zeroV_iff htol, nz]; simp
    obtain ⟨k1, k2, k3⟩ := kids_grow hJ hτ h (v := v) (m := m) (z := fun i => s.ct.cval J.C (es i).w) (p := fun i => (es i).p)
      (fun i => (hv i).2.1) (fun i hp ht => by
        rcases (hv i).2.2 hp ht with h0 | h0
        · exact Or.inl h0
        · right
          rw [h0, cval_zero]
          exact zeroV_zero (by rw [htol]; exact hτ)) nz
    obtain ⟨n1, n2, n3, n4, n5⟩ := nodeM_grow hJ hτ ht k1 (by rw [k2.nvars .m]; exact hl) (fun i => (k3 i).1)
    set k := seqFin 4 (fun i => kidM J m (s.ct.cval J.C (es m).w) i (es i).p (s.ct.cval J.C (es i).w)) s
    set n := k.1.nodeM J tr v k.2
    refine ⟨n1, k2.trans n2, Or.inr ⟨m, n.2, rfl, nzm, fun i hz => ?_, n3, n4, ?_, fun i him hz => ?_, fun i him hz => ?_⟩⟩
    · have := mx i (by rw [← Bool.not_eq_true, zeroV_iff htol]; exact hz)
      rwa [htol] at this
    · obtain ⟨p1, p2⟩ := n5 m
      have e := (k3 m).2.1 rfl
      rw [e] at p1 p2
      exact ⟨p1, p2⟩
    · obtain ⟨p1, p2⟩ := n5 i
      have e := (k3 i).2.2.1 him ((zeroV_iff htol).2 hz)
      rw [e] at p1 p2
      rw [cval_zero, sub_zero] at p2
      exact ⟨p1, p2⟩
    · obtain ⟨p1, p2⟩ := n5 i
      obtain ⟨q5, q6⟩ := (k3 i).2.2.2 him (by rw [← Bool.not_eq_true, zeroV_iff htol]; exact hz)
      have bm := hb m
      have hMτ : τ ≤ M * τ := le_mul_of_one_le_left hτ hM
      refine ⟨p1.trans q5, ?_, fun he ho => ?_⟩
      · have hne : s.ct.cval J.C (es m).w ≠ 0 := by
          rintro h0
          exact nzm (by rw [h0]; exact ⟨by show |(0 : R)| ≤ τ; simpa using hτ, by show |(0 : R)| ≤ τ; simpa using hτ⟩)
        set zm := s.ct.cval J.C (es m).w
        set zi := s.ct.cval J.C (es i).w with hzi
        set w := (if s.ct.oneV zi = true then (⟨1, 0⟩ : Cx R) else zi) with hw
        have vb : mag w ≤ M ∧ mag (w - zi) ≤ 3 / 2 * τ := by
          rw [hw]
          split_ifs with ho
          · have := oneV_mag' (by rw [htol]; exact hτ) ho
            rw [htol, mag_sub_comm] at this
            exact ⟨by show mag (1 : Cx R) ≤ M; rw [mag_one]; exact hM, this⟩
          · refine ⟨hb i, ?_⟩
            rw [sub_self, mag_zero]; linarith
        have vlo : s.ct.tol ≤ mag w ∨ 1 ≤ mag w := by
          rw [hw]
          split_ifs with ho
          · right; show 1 ≤ mag (1 : Cx R); rw [mag_one]
          · left; rw [htol]; exact (not_nearZero hz).le
        have d := divV_gen (t := s.ct) (h.ok hJ hτ) vlo (by rw [htol]; exact (not_nearZero nzm).le) hne
        rw [htol] at d
        set c2 := k.1.ct.cval J.C (k.2 i).w
        set c3 := n.1.ct.cval J.C (((n.1.tab .m).tab.mem n.2).e i).w
        set u := s.ct.divV J.fl w zm
        have e : zm * c3 - zi = zm * (c3 - c2) + zm * (c2 - u) + (zm * u - w) + (w - zi) := by ring
        rw [e]
        have a1 := mag_mono_mul bm p2
        have a2 := mag_mono_mul bm q6
        have b1 := mag_add (zm * (c3 - c2) + zm * (c2 - u) + (zm * u - w)) (w - zi)
        have b2 := mag_add (zm * (c3 - c2) + zm * (c2 - u)) (zm * u - w)
        have b3 := mag_add (zm * (c3 - c2)) (zm * (c2 - u))
        have d2 : 8 / 5 * τ * (1 + mag w) ≤ 8 / 5 * τ * (1 + M) := mul_le_mul_of_nonneg_left (by linarith [vb.1]) (by linarith)
        have d3 := mul_le_mul_of_nonneg_left bm hτ
        have := vb.2
        linarith
      · dsimp only at q6
        rw [ho, he] at q6
        have e1 : s.ct.divV J.fl (s.ct.cval J.C (es m).w) (s.ct.cval J.C (es m).w) = 1 := by
          unfold CTab.divV
          rw [if_pos (by
            unfold CTab.eqV
            rw [Bool.and_eq_true]
            have h0 : 0 ≤ s.ct.tol := by rw [htol]; exact hτ
            exact ⟨(CTab.approxEq_iff h0).2 (by simpa using h0), (CTab.approxEq_iff h0).2 (by simpa using h0)⟩)]
          rfl
        simp only [Bool.false_eq_true, if_false] at q6
        rw [e1] at q6
        have := mag_tri (n.1.ct.cval J.C (((n.1.tab .m).tab.mem n.2).e i).w) (k.1.ct.cval J.C (k.2 i).w) 1
        have p2' : mag (n.1.ct.cval J.C (((n.1.tab .m).tab.mem n.2).e i).w - k.1.ct.cval J.C (k.2 i).w) ≤ 2 * τ := p2
        linarith

/-- Row sums of the entries below a node. -/
theorem nampM_row (hτ1 : τ < 1) (h : TInv J τ s) {K : Nat → R} (hK : ∀ j, 1 ≤ K j) : ∀ (l : Nat) (p : Option Nat), s.NodeM l p →
    (p = none → l = 0) → s.RowCol J K l p → ∀ r : Fin l → Fin 2,
    ∑ c : Fin l → Fin 2, mag (s.nampM J l p (fun i => rc (r i) (c i))) ≤ kappa K l := by
  intro l
  induction l with
  | zero =>
    intro p _ _ _ r
    show ∑ c : Fin 0 → Fin 2, mag (1 : Cx R) ≤ _
    unfold kappa
    simp [mag_one]
  | succ l ih =>
    intro p np hp hr r
    cases p with
    | none => exact absurd (hp rfl) (by omega)
    | some a =>
      have hav : ((s.tab .m).tab.mem a).v = l := by have := np.2; omega
      have km : ∀ i : Fin 4, s.KnM J τ l (((s.tab .m).tab.mem a).e i) := fun i => by have := h.kidsM a np.1 i; rwa [hav] at this
      have k0 : 0 ≤ kappa K l := by linarith [kappa_one hK l]
      have e := sum_split (fun (k : Fin 2) (c : Fin l → Fin 2) => mag (s.ct.cval J.C (((s.tab .m).tab.mem a).e (rc (r (Fin.last l)) k)).w *
        s.nampM J l (((s.tab .m).tab.mem a).e (rc (r (Fin.last l)) k)).p (fun i => rc (Fin.init r i) (c i))))
      refine (le_of_eq e).trans ?_
      have kid : ∀ k : Fin 2, ∑ c : Fin l → Fin 2, mag (s.ct.cval J.C (((s.tab .m).tab.mem a).e (rc (r (Fin.last l)) k)).w *
          s.nampM J l (((s.tab .m).tab.mem a).e (rc (r (Fin.last l)) k)).p (fun i => rc (Fin.init r i) (c i))) ≤
          mag (s.ct.cval J.C (((s.tab .m).tab.mem a).e (rc (r (Fin.last l)) k)).w) * kappa K l := by
        intro k
        simp only [mag_mul]
        rw [← Finset.mul_sum]
        by_cases h1 : (((s.tab .m).tab.mem a).e (rc (r (Fin.last l)) k)).p = none → l = 0
        · exact mul_le_mul_of_nonneg_left (ih _ (km _).node h1 (hr.2 _) _) (mag_nonneg _)
        · push Not at h1
          have : s.ct.cval J.C (((s.tab .m).tab.mem a).e (rc (r (Fin.last l)) k)).w = 0 := by
            rcases (km (rc (r (Fin.last l)) k)).2.2 h1.1 hτ1 with h0 | h0
            · exact absurd h0 h1.2
            · rw [h0, cval_zero]
          rw [this, mag_zero, zero_mul, zero_mul]
      rw [Fin.sum_univ_two, kappa_succ]
      have := mul_le_mul_of_nonneg_right ((hr.1 (r (Fin.last l))).1) k0
      linarith [kid 0, kid 1]

/-- A matrix diagram for the matrix `D`, up to the error `E` in each row. -/
structure GRes (J : JCfg R) (τ : R) (s : JState R) (K : Nat → R) (l : Nat) (D : (Fin l → Fin 4) → Cx R) (E : R) (e : PtrEdge) : Prop where
  kn : s.KnM J τ l e
  rc : s.RowCol J K l e.p
  err : ∀ r : Fin l → Fin 2, ∑ c : Fin l → Fin 2,
    mag (s.ct.cval J.C e.w * s.nampM J l e.p (fun i => DD.rc (r i) (c i)) - D (fun i => DD.rc (r i) (c i))) ≤ E

theorem GRes.nonneg {K : Nat → R} {l : Nat} {D : (Fin l → Fin 4) → Cx R} {E : R} {e : PtrEdge} (h : GRes J τ s K l D E e) : 0 ≤ E :=
  (Finset.sum_nonneg (fun _ _ => mag_nonneg _)).trans (h.err (fun _ => 0))

theorem GRes.mono {K : Nat → R} {l : Nat} {D : (Fin l → Fin 4) → Cx R} {E E' : R} {e : PtrEdge} (h : GRes J τ s K l D E e) (hE : E ≤ E') :
    GRes J τ s K l D E' e := ⟨h.kn, h.rc, fun r => (h.err r).trans hE⟩

theorem Grow.gres (h : TInv J τ s) (h' : TInv J τ s') (g : Grow J s s') {K : Nat → R} {l : Nat} {D : (Fin l → Fin 4) → Cx R} {E : R}
    {e : PtrEdge} (hr : GRes J τ s K l D E e) : GRes J τ s' K l D E e := by
  refine ⟨g.knM hr.kn, g.rowCol h h' hr.kn.node hr.rc, fun r => ?_⟩
  refine (Finset.sum_congr rfl (fun c _ => ?_)).trans_le (hr.err r)
  rw [g.cval hr.kn.1, nampM_agree h.kidsM h'.kidsM g.rel l _ _ hr.kn.node (g.nodeM hr.kn.node)]

theorem GRes.row (hτ1 : τ < 1) (h : TInv J τ s) {K : Nat → R} (hK : ∀ j, 1 ≤ K j) {l : Nat} {D : (Fin l → Fin 4) → Cx R} {E : R} {e : PtrEdge}
    (hr : GRes J τ s K l D E e) (r : Fin l → Fin 2) :
    ∑ c : Fin l → Fin 2, mag (s.ct.cval J.C e.w * s.nampM J l e.p (fun i => DD.rc (r i) (c i))) ≤ mag (s.ct.cval J.C e.w) * kappa K l := by
  simp only [mag_mul]
  rw [← Finset.mul_sum]
  by_cases h1 : e.p = none → l = 0
  · exact mul_le_mul_of_nonneg_left (nampM_row hτ1 h hK l _ hr.kn.node h1 hr.rc r) (mag_nonneg _)
  · push Not at h1
    have : s.ct.cval J.C e.w = 0 := by
      rcases hr.kn.2.2 h1.1 hτ1 with h0 | h0
      · exact absurd h0 h1.2
      · rw [h0, cval_zero]
    rw [this, mag_zero, zero_mul, zero_mul]

/-- Row sums of the matrix itself. -/
theorem GRes.rowD (hτ1 : τ < 1) (h : TInv J τ s) {K : Nat → R} (hK : ∀ j, 1 ≤ K j) {l : Nat} {D : (Fin l → Fin 4) → Cx R} {E : R} {e : PtrEdge}
    (hr : GRes J τ s K l D E e) (r : Fin l → Fin 2) :
    ∑ c : Fin l → Fin 2, mag (D (fun i => DD.rc (r i) (c i))) ≤ E + mag (s.ct.cval J.C e.w) * kappa K l := by
  refine le_trans (Finset.sum_le_sum (fun c _ => ?_)) ((Finset.sum_add_distrib (f := fun c : Fin l → Fin 2 =>
    mag (s.ct.cval J.C e.w * s.nampM J l e.p (fun i => DD.rc (r i) (c i)) - D (fun i => DD.rc (r i) (c i))))
    (g := fun c => mag (s.ct.cval J.C e.w * s.nampM J l e.p (fun i => DD.rc (r i) (c i))))).trans_le (add_le_add (hr.err r)
    (hr.row hτ1 h hK r)))
  have := mag_le_add (D (fun i => DD.rc (r i) (c i))) (s.ct.cval J.C e.w * s.nampM J l e.p (fun i => DD.rc (r i) (c i)))
  rw [mag_sub_comm] at this
  linarith

/-- The weights of a node are at most about one. -/
theorem NodeRes.bound (hτ : 0 ≤ τ) (hτ1 : 1000 * τ ≤ 1) (h : TInv J τ s) (hJ : J.Good) {M : R} (hM : M ≤ 51 / 50) {v : Nat}
    {es : Fin 4 → PtrEdge} {m : Fin 4} {q : Nat} (n : NodeRes J τ M s s' v es m q)
    (hsh : (∃ i, 1 / 2 ≤ mag (s.ct.cval J.C (es i).w)) ∨
      ∃ w, ∀ i, (es i).w = CNum.zero ∨ s.ct.cval J.C (es i).w = w) (i : Fin 4) :
    mag (s'.ct.cval J.C (((s'.tab .m).tab.mem q).e i).w) ≤ 1 + 28 * τ := by
  have htol := h.tol hJ hτ
  by_cases him : i = m
  · subst him
    have := mag_le_add (s'.ct.cval J.C (((s'.tab .m).tab.mem q).e i).w) 1
    have h2 := n.top.2
    rw [mag_one] at this
    linarith
  by_cases hz : NearZero τ (s.ct.cval J.C (es i).w)
  · have := (n.zero i him hz).2
    linarith
  obtain ⟨_, r1, r2⟩ := n.rest i him hz
  set zm := s.ct.cval J.C (es m).w with hzm
  set zi := s.ct.cval J.C (es i).w with hzi
  set c := s'.ct.cval J.C (((s'.tab .m).tab.mem q).e i).w
  have zm0 := mag_nonneg zm
  have key : 49 / 100 ≤ mag zm → mag c ≤ 1 + 28 * τ := by
    intro hm
    have a1 := n.max i hz
    rw [← hzm, ← hzi, ← mag_sq, ← mag_sq] at a1
    have zmzm : 24 / 100 ≤ mag zm * mag zm := by nlinarith
    have a2 : mag zi ≤ mag zm * (1 + 5 / 2 * τ) := by
      refine le_of_sq (by positivity) ?_
      have : mag zm * (1 + 5 / 2 * τ) * (mag zm * (1 + 5 / 2 * τ)) = mag zm * mag zm * (1 + 5 * τ + 25 / 4 * (τ * τ)) := by ring
      rw [this]
      have t1 := mul_le_mul_of_nonneg_left zmzm hτ
      have t2 : 0 ≤ mag zm * mag zm * (τ * τ) := by positivity
      linarith
    have a3 : mag (zm * c) ≤ mag zi + 17 / 2 * M * τ := by
      have := mag_le_add (zm * c) zi
      linarith
    rw [mag_mul] at a3
    have a4 := mul_le_mul_of_nonneg_right hM hτ
    have a5 : mag zm * mag c ≤ mag zm * (1 + 5 / 2 * τ) + 9 * τ := by linarith
    by_contra hn
    push Not at hn
    have a6 := mul_le_mul_of_nonneg_left hn.le zm0
    have a7 := mul_le_mul_of_nonneg_right hm hτ
    have : τ ≤ 0 := by linarith
    have t0 : τ = 0 := le_antisymm this hτ
    subst t0
    have hm' : 0 < mag zm := by linarith
    have a8 : mag zm * mag c ≤ mag zm * 1 := by linarith
    have := le_of_mul_le_mul_left a8 hm'
    linarith
  have key2 : (∃ i, 1 / 2 ≤ mag (s.ct.cval J.C (es i).w)) → mag c ≤ 1 + 28 * τ := by
    rintro ⟨j, hj⟩
    apply key
    have nzj : ¬ NearZero τ (s.ct.cval J.C (es j).w) := by
      intro hn
      have := hn.mag hτ
      linarith
    have a1 := n.max j nzj
    rw [← hzm, ← mag_sq, ← mag_sq] at a1
    have b1 := mul_self_le_mul_self (by norm_num : (0 : R) ≤ 1 / 2) hj
    by_contra hn
    push Not at hn
    have b2 := mul_self_le_mul_self zm0 hn.le
    have b3 : τ * (26 / 25 + 1 / 50 * (mag zm * mag zm)) ≤ 1 / 1000 * (26 / 25 + 1 / 50 * (mag zm * mag zm)) :=
      mul_le_mul_of_nonneg_right (by linarith) (by positivity)
    nlinarith
  rcases hsh with hbig | ⟨w, hw⟩
  · exact key2 hbig
  · have ei : zi = w := by
      rcases hw i with h0 | h0
      · exfalso; apply hz; rw [hzi, h0, cval_zero]
        exact ⟨by show |(0 : R)| ≤ τ; simpa using hτ, by show |(0 : R)| ≤ τ; simpa using hτ⟩
      · exact h0
    have em : zm = w := by
      rcases hw m with h0 | h0
      · exfalso; apply n.nz; rw [h0, cval_zero]
        exact ⟨by show |(0 : R)| ≤ τ; simpa using hτ, by show |(0 : R)| ≤ τ; simpa using hτ⟩
      · exact h0
    by_cases ho : s.ct.oneV zi = true
    · refine key2 ⟨i, ?_⟩
      have := oneV_mag' (by rw [htol]; exact hτ) ho
      rw [htol] at this
      have h1 := mag_le_add 1 zi
      rw [mag_one, mag_sub_comm] at h1
      linarith
    · have := r2 (ei.trans em.symm) (by simpa using ho)
      have h1 := mag_le_add c 1
      rw [mag_one] at h1
      linarith

omit [LawfulSqrt R] in
theorem RowCol.none {K : Nat → R} (l : Nat) : s.RowCol J K l none := by
  cases l <;> trivial

omit [FloorRing R] [LawfulSqrt R] [IsStrictOrderedRing R] [HasSqrt R] [LinearOrder R] [Field R] in
theorem rc_cases (i k : Fin 2) : rc i k = 0 ∧ i = 0 ∧ k = 0 ∨ rc i k = 1 ∧ i = 0 ∧ k = 1 ∨ rc i k = 2 ∧ i = 1 ∧ k = 0 ∨ rc i k = 3 ∧ i = 1 ∧ k = 1 := by
  fin_cases i <;> fin_cases k <;> simp [rc]

/-- Making a node out of table edges; the weights of the node are at most `Bd`. -/
theorem makeN_accB (hJ : J.Good) (hτ : 0 ≤ τ) (hτ1 : 1000 * τ ≤ 1) {tr : JState R → PtrEdge → JState R × PtrEdge} {v : Nat}
    (ht : TrJ J τ tr v) (h : TInv J τ s) (hl : v < (s.tab .m).tab.nvars) {es : Fin 4 → PtrEdge} {K : Nat → R} (hK : ∀ j, 1 ≤ K j)
    {D : Fin 4 → (Fin v → Fin 4) → Cx R} {E : Fin 4 → R} (hv : ∀ i, GRes J τ s K v (D i) (E i) (es i)) {M : R} (hM : 1 ≤ M)
    (hb : ∀ i, mag (s.ct.cval J.C (es i).w) ≤ M)
    {Bd : R} (hbd : ∀ m q, NodeRes J τ M s (s.makeN J tr v es).1 v es m q →
      ∀ i : Fin 4, mag ((s.makeN J tr v es).1.ct.cval J.C ((((s.makeN J tr v es).1.tab .m).tab.mem q).e i).w) ≤ Bd)
    (hKv : 2 * Bd ≤ K v ∨ ((es 1).w = CNum.zero ∧ (es 2).w = CNum.zero ∧ Bd + 2 * τ ≤ K v))
    {E' : R} (hE : ∀ a : Fin 2, E (rc a 0) + E (rc a 1) + 17 * M * kappa K v * τ ≤ E') :
    TInv J τ (s.makeN J tr v es).1 ∧ Grow J s (s.makeN J tr v es).1 ∧
    GRes J τ (s.makeN J tr v es).1 K (v + 1) (fun d => D (d (Fin.last v)) (Fin.init d)) E' (s.makeN J tr v es).2 ∧
    (((s.makeN J tr v es).2.w = CNum.zero ∧ ∀ i, NearZero τ (s.ct.cval J.C (es i).w)) ∨
      ∃ m, (s.makeN J tr v es).2.w = (es m).w ∧ ¬ NearZero τ (s.ct.cval J.C (es m).w)) := by
  have hlt : τ < 1 := by linarith
  have k1 := kappa_one hK v
  have k0 : 0 ≤ kappa K v := by linarith
  have z00 : NearZero τ (0 : Cx R) := ⟨by show |(0 : R)| ≤ τ; simpa using hτ, by show |(0 : R)| ≤ τ; simpa using hτ⟩
  obtain ⟨n1, n2, n3⟩ := makeN_node hJ hτ ht h hl (fun i => (hv i).kn) hM hb
  have kn := (makeN_grow hJ hτ ht h hl (fun i => (hv i).kn)).2.2
  generalize s.makeN J tr v es = x at n1 n2 n3 kn hbd
  obtain ⟨s', e⟩ := x
  dsimp only at n1 n2 n3 kn hbd ⊢
  have hMk : τ ≤ M * kappa K v * τ := le_mul_of_one_le_left hτ (one_le_mul_of_one_le_of_one_le hM k1)
  have hMκ : kappa K v * τ ≤ M * kappa K v * τ := by
    rw [mul_assoc]; exact le_mul_of_one_le_left (mul_nonneg k0 hτ) hM
  have hMM : M * τ ≤ M * kappa K v * τ := by
    rw [mul_assoc]; exact mul_le_mul_of_nonneg_left (le_mul_of_one_le_left hτ k1) (by linarith)
  rcases n3 with ⟨rfl, hz⟩ | ⟨m, q, rfl, nr⟩
  · refine ⟨n1, n2, ⟨kn, RowCol.none _, fun r => ?_⟩, Or.inl ⟨rfl, hz⟩⟩
    have e := sum_split (fun (k : Fin 2) (c : Fin v → Fin 2) => mag (D (rc (r (Fin.last v)) k) (fun i => rc (Fin.init r i) (c i))))
    have e2 : ∀ c : Fin (v + 1) → Fin 2, mag (s'.ct.cval J.C zeroP.w * s'.nampM J (v + 1) zeroP.p (fun i => rc (r i) (c i)) -
        D (rc (r (Fin.last v)) (c (Fin.last v))) (Fin.init fun i => rc (r i) (c i))) =
        mag (D (rc (r (Fin.last v)) (c (Fin.last v))) (fun i => rc (Fin.init r i) (Fin.init c i))) := by
      intro c
      show mag (s'.ct.cval J.C CNum.zero * _ - _) = _
      rw [cval_zero, zero_mul, zero_sub, mag_neg]
      rfl
    rw [Finset.sum_congr rfl (fun c _ => e2 c), e, Fin.sum_univ_two]
    have a := fun k => (hv (rc (r (Fin.last v)) k)).rowD hlt h hK (Fin.init r)
    have b := fun k => mul_le_mul_of_nonneg_right ((hz (rc (r (Fin.last v)) k)).mag hτ) k0
    linarith [a 0, a 1, b 0, b 1, hE (r (Fin.last v))]
  · have kk : ∀ i : Fin 4, s'.KnM J τ v (((s'.tab .m).tab.mem q).e i) := fun i => by
      have := n1.kidsM q nr.all i; rwa [nr.lvl] at this
    refine ⟨n1, n2, ⟨kn, ⟨fun i => ?_, fun i => ?_⟩, fun r => ?_⟩, Or.inr ⟨m, rfl, nr.nz⟩⟩
    · have bd := hbd m q nr
      rcases hKv with hKv | ⟨h1, h2, hKv⟩
      · constructor
        · linarith [bd (rc i 0), bd (rc i 1)]
        · linarith [bd (rc 0 i), bd (rc 1 i)]
      · have z1 : mag (s'.ct.cval J.C (((s'.tab .m).tab.mem q).e (1 : Fin 4)).w) ≤ 2 * τ := by
          have : NearZero τ (s.ct.cval J.C (es 1).w) := by rw [h1, cval_zero]; exact z00
          refine (nr.zero 1 ?_ this).2
          rintro rfl; exact nr.nz this
        have z2 : mag (s'.ct.cval J.C (((s'.tab .m).tab.mem q).e (2 : Fin 4)).w) ≤ 2 * τ := by
          have : NearZero τ (s.ct.cval J.C (es 2).w) := by rw [h2, cval_zero]; exact z00
          refine (nr.zero 2 ?_ this).2
          rintro rfl; exact nr.nz this
        have b0 := bd 0
        have b3 := bd 3
        fin_cases i
        · exact ⟨(add_le_add b0 z1).trans (by linarith), (add_le_add b0 z2).trans (by linarith)⟩
        · exact ⟨(add_le_add z2 b3).trans (by linarith), (add_le_add z1 b3).trans (by linarith)⟩
    · have hp : (((s'.tab .m).tab.mem q).e i).p = (es i).p ∨ (((s'.tab .m).tab.mem q).e i).p = none := by
        by_cases him : i = m
        · left; rw [him]; exact nr.top.1
        · by_cases hz : NearZero τ (s.ct.cval J.C (es i).w)
          · right; exact (nr.zero i him hz).1
          · left; exact (nr.rest i him hz).1
      rcases hp with hp | hp
      · rw [hp]; exact n2.rowCol h n1 (hv i).kn.node (hv i).rc
      · rw [hp]; exact RowCol.none _
    · set zm := s.ct.cval J.C (es m).w with hzm
      have ezm : s'.ct.cval J.C (es m).w = zm := n2.cval (hv m).kn.1
      have kid : ∀ i : Fin 4, ∑ c : Fin v → Fin 2, mag (zm * (s'.ct.cval J.C (((s'.tab .m).tab.mem q).e i).w *
          s'.nampM J v (((s'.tab .m).tab.mem q).e i).p (fun j => rc (Fin.init r j) (c j))) - D i (fun j => rc (Fin.init r j) (c j))) ≤
          E i + 17 / 2 * (M * kappa K v * τ) := by
        intro i
        set c3 := s'.ct.cval J.C (((s'.tab .m).tab.mem q).e i).w with hc3
        set zi := s.ct.cval J.C (es i).w with hzi
        have main : (((s'.tab .m).tab.mem q).e i).p = (es i).p → ¬ NearZero τ zi → mag (zm * c3 - zi) ≤ 17 / 2 * M * τ →
            ∑ c : Fin v → Fin 2, mag (zm * (c3 * s'.nampM J v (((s'.tab .m).tab.mem q).e i).p (fun j => rc (Fin.init r j) (c j))) -
              D i (fun j => rc (Fin.init r j) (c j))) ≤ E i + 17 / 2 * (M * kappa K v * τ) := by
          intro hp hnz hd
          have nm : ∀ c : Fin v → Fin 2, s'.nampM J v (((s'.tab .m).tab.mem q).e i).p (fun j => rc (Fin.init r j) (c j)) =
              s.nampM J v (es i).p (fun j => rc (Fin.init r j) (c j)) := by
            intro c
            have e : (((s'.tab .m).tab.mem q).e i).p = (es i).p := hp
            exact (congrArg (fun p => s'.nampM J v p (fun j => rc (Fin.init r j) (c j))) e).trans
              (nampM_agree h.kidsM n1.kidsM n2.rel v _ _ (hv i).kn.node (n2.nodeM (hv i).kn.node))
          have hpn : (es i).p = none → v = 0 := by
            intro h0
            rcases (hv i).kn.2.2 h0 hlt with h1 | h1
            · exact h1
            · exfalso; apply hnz; rw [hzi, h1, cval_zero]; exact z00
          have row := nampM_row hlt h hK v _ (hv i).kn.node hpn (hv i).rc (Fin.init r)
          have step : ∀ c : Fin v → Fin 2, mag (zm * (c3 * s'.nampM J v (((s'.tab .m).tab.mem q).e i).p (fun j => rc (Fin.init r j) (c j))) -
              D i (fun j => rc (Fin.init r j) (c j))) ≤
              mag (zi * s.nampM J v (es i).p (fun j => rc (Fin.init r j) (c j)) - D i (fun j => rc (Fin.init r j) (c j))) +
              17 / 2 * M * τ * mag (s.nampM J v (es i).p (fun j => rc (Fin.init r j) (c j))) := by
            intro c
            rw [nm c]
            set N := s.nampM J v (es i).p (fun j => rc (Fin.init r j) (c j))
            have e : zm * (c3 * N) - D i (fun j => rc (Fin.init r j) (c j)) =
              (zi * N - D i (fun j => rc (Fin.init r j) (c j))) + (zm * c3 - zi) * N := by ring
            rw [e]
            exact (mag_add _ _).trans (add_le_add le_rfl (mag_mono_mul hd le_rfl))
          refine (Finset.sum_le_sum (fun c _ => step c)).trans ?_
          rw [Finset.sum_add_distrib, ← Finset.mul_sum]
          have a := (hv i).err (Fin.init r)
          have b := mul_le_mul_of_nonneg_left row (by positivity : 0 ≤ 17 / 2 * M * τ)
          have : 17 / 2 * M * τ * kappa K v = 17 / 2 * (M * kappa K v * τ) := by ring
          rw [this] at b
          exact add_le_add a b
        by_cases him : i = m
        · refine main (by rw [him]; exact nr.top.1) (by rw [hzi, him]; exact nr.nz) ?_
          have e : zm * c3 - zi = zm * (c3 - 1) := by rw [hzi, him, ← hzm]; ring
          rw [e]
          have h2 : mag (c3 - 1) ≤ 2 * τ := by rw [hc3, him]; exact nr.top.2
          have := mag_mono_mul (hb m) h2
          have hMτ := mul_nonneg (by linarith : 0 ≤ M) hτ
          have h3 : mag (zm * (c3 - 1)) ≤ M * (2 * τ) := this
          linarith
        · by_cases hz : NearZero τ zi
          · obtain ⟨p1, p2⟩ := nr.zero i him hz
            have a1 : ∑ c : Fin v → Fin 2, mag (zm * (c3 * s'.nampM J v (((s'.tab .m).tab.mem q).e i).p
                (fun j => rc (Fin.init r j) (c j)))) ≤ 2 * (M * τ) := by
              by_cases hv0 : v = 0
              · subst hv0
                show ∑ c : Fin 0 → Fin 2, mag (zm * (c3 * 1)) ≤ _
                rw [mul_one]
                have := mag_mono_mul (hb m) p2
                simp only [Finset.univ_unique, Finset.sum_const, Finset.card_singleton, one_smul]
                have h3 : mag (zm * c3) ≤ M * (2 * τ) := this
                linarith
              · have : c3 = 0 := by
                  rcases (kk i).2.2 p1 hlt with h0 | h0
                  · exact absurd h0 hv0
                  · rw [hc3, h0, cval_zero]
                rw [this]
                simp only [zero_mul, mul_zero, mag_zero, Finset.sum_const_zero]
                positivity
            have a2 := (hv i).rowD hlt h hK (Fin.init r)
            have a3 : mag zi * kappa K v ≤ 2 * τ * kappa K v := mul_le_mul_of_nonneg_right (hz.mag hτ) k0
            refine (Finset.sum_le_sum (fun c _ => mag_sub_le _ _)).trans ?_
            rw [Finset.sum_add_distrib]
            have hκτ := mul_nonneg k0 hτ
            linarith
          · obtain ⟨p1, p2, _⟩ := nr.rest i him hz
            exact main p1 hz p2
      have e := sum_split (fun (k : Fin 2) (c : Fin v → Fin 2) => mag (zm * (s'.ct.cval J.C (((s'.tab .m).tab.mem q).e (rc (r (Fin.last v)) k)).w *
          s'.nampM J v (((s'.tab .m).tab.mem q).e (rc (r (Fin.last v)) k)).p (fun j => rc (Fin.init r j) (c j))) -
          D (rc (r (Fin.last v)) k) (fun j => rc (Fin.init r j) (c j))))
      dsimp only
      rw [ezm]
      refine (le_of_eq e).trans ?_
      rw [Fin.sum_univ_two]
      linarith [kid (rc (r (Fin.last v)) 0), kid (rc (r (Fin.last v)) 1), hE (r (Fin.last v))]

/-- Making a node out of table edges. -/
theorem makeN_acc (hJ : J.Good) (hτ : 0 ≤ τ) (hτ1 : 1000 * τ ≤ 1) {tr : JState R → PtrEdge → JState R × PtrEdge} {v : Nat}
    (ht : TrJ J τ tr v) (h : TInv J τ s) (hl : v < (s.tab .m).tab.nvars) {es : Fin 4 → PtrEdge} {K : Nat → R} (hK : ∀ j, 1 ≤ K j)
    {D : Fin 4 → (Fin v → Fin 4) → Cx R} {E : Fin 4 → R} (hv : ∀ i, GRes J τ s K v (D i) (E i) (es i)) {M : R} (hM : 1 ≤ M)
    (hM' : M ≤ 51 / 50) (hb : ∀ i, mag (s.ct.cval J.C (es i).w) ≤ M)
    (hsh : (∃ i, 1 / 2 ≤ mag (s.ct.cval J.C (es i).w)) ∨
      ∃ w, ∀ i, (es i).w = CNum.zero ∨ s.ct.cval J.C (es i).w = w)
    (hKv : 2 + 56 * τ ≤ K v ∨ ((es 1).w = CNum.zero ∧ (es 2).w = CNum.zero ∧ 1 + 30 * τ ≤ K v))
    {E' : R} (hE : ∀ a : Fin 2, E (rc a 0) + E (rc a 1) + 17 * M * kappa K v * τ ≤ E') :
    TInv J τ (s.makeN J tr v es).1 ∧ Grow J s (s.makeN J tr v es).1 ∧
    GRes J τ (s.makeN J tr v es).1 K (v + 1) (fun d => D (d (Fin.last v)) (Fin.init d)) E' (s.makeN J tr v es).2 ∧
    (((s.makeN J tr v es).2.w = CNum.zero ∧ ∀ i, NearZero τ (s.ct.cval J.C (es i).w)) ∨
      ∃ m, (s.makeN J tr v es).2.w = (es m).w ∧ ¬ NearZero τ (s.ct.cval J.C (es m).w)) := by
  refine makeN_accB hJ hτ hτ1 ht h hl hK hv hM hb (Bd := 1 + 28 * τ) (fun m q nr => nr.bound hτ hτ1 h hJ hM' hsh) ?_ hE
  rcases hKv with h1 | ⟨h1, h2, h3⟩
  · left; linarith
  · right; exact ⟨h1, h2, by linarith⟩

end DD
