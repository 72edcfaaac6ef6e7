import Verif.Model.Package

/-! # Normalisation of nodes: proofs -/

namespace DD

variable {R : Type} [Field R] [LinearOrder R] [IsStrictOrderedRing R]

/-- Normal form of the two weights of a vector node: one of them is 0 and the other 1, or the squared magnitudes add up to
one and the first weight of largest magnitude is real and positive. -/
def IsNormV (w : Fin 2 → Cx R) : Prop :=
  (w 0 = 0 ∧ w 1 = 1) ∨ (w 0 = 1 ∧ w 1 = 0) ∨
  (w 0 ≠ 0 ∧ w 1 ≠ 0 ∧ (w 0).mag2 + (w 1).mag2 = 1 ∧
    (((w 1).mag2 ≤ (w 0).mag2 ∧ (w 0).im = 0 ∧ 0 < (w 0).re) ∨
     ((w 0).mag2 < (w 1).mag2 ∧ (w 1).im = 0 ∧ 0 < (w 1).re)))

/-- Normal form of the four weights of a matrix node: no weight is larger than 1 in magnitude, and the first one of
magnitude 1 is the number 1. -/
def IsNormM (w : Fin 4 → Cx R) : Prop :=
  ∃ j, w j = 1 ∧ (∀ i, (w i).mag2 ≤ 1) ∧ ∀ i, i < j → (w i).mag2 < 1

/-- Normal form by kind. -/
def IsNorm (k : Kind) (w : Fin (ar k) → Cx R) : Prop :=
  match k with
  | .v => IsNormV w
  | .m => IsNormM w

theorem mag2_one_real {u : Cx R} (h : u.mag2 = 1) (hi : u.im = 0) (hr : 0 < u.re) : u = 1 := by
  have h1 : u.re * u.re = 1 := by
    have := h; unfold Cx.mag2 at this; rw [hi] at this; linarith
  have h2 : u.re = 1 := by nlinarith
  ext
  · simp [h2]
  · simp [hi]

theorem IsNorm.unique_v {w : Fin 2 → Cx R} {u : Cx R} (h : IsNormV w) (h' : IsNormV (fun i => u * w i)) : u = 1 := by
  rcases h with ⟨a, b⟩ | ⟨a, b⟩ | ⟨a, b, c, d⟩
  · rcases h' with ⟨a', b'⟩ | ⟨a', b'⟩ | ⟨a', b', c', d'⟩ <;> simp_all
  · rcases h' with ⟨a', b'⟩ | ⟨a', b'⟩ | ⟨a', b', c', d'⟩ <;> simp_all
  · rcases h' with ⟨a', b'⟩ | ⟨a', b'⟩ | ⟨a', b', c', d'⟩
    · exfalso
      rcases mul_eq_zero.1 a' with h | h
      · rw [h] at b'; simp at b'
      · exact a h
    · exfalso
      rcases mul_eq_zero.1 b' with h | h
      · rw [h] at a'; simp at a'
      · exact b h
    · simp only [Cx.mag2_mul] at c' d'
      have hu : u.mag2 = 1 := by
        have : u.mag2 * ((w 0).mag2 + (w 1).mag2) = 1 := by linarith
        rw [c] at this; linarith
      rw [hu] at d'
      simp only [one_mul] at d'
      have key : ∀ z : Cx R, z.im = 0 → 0 < z.re → (u * z).im = 0 → 0 < (u * z).re → u = 1 := by
        intro z h1 h2 h3 h4
        simp only [Cx.mul_im, Cx.mul_re, h1, mul_zero, zero_add, sub_zero] at h3 h4
        have h5 : u.im = 0 := by
          rcases mul_eq_zero.1 h3 with h | h
          · exact h
          · exact absurd h h2.ne'
        exact mag2_one_real hu h5 (pos_of_mul_pos_left h4 h2.le)
      rcases d with ⟨d1, d2, d3⟩ | ⟨d1, d2, d3⟩
      · rcases d' with ⟨d1', d2', d3'⟩ | ⟨d1', d2', d3'⟩
        · exact key _ d2 d3 d2' d3'
        · exact absurd d1' (not_lt.2 d1)
      · rcases d' with ⟨d1', d2', d3'⟩ | ⟨d1', d2', d3'⟩
        · exact absurd d1 (not_lt.2 d1')
        · exact key _ d2 d3 d2' d3'

theorem IsNorm.unique_m {w : Fin 4 → Cx R} {u : Cx R} (h : IsNormM w) (h' : IsNormM (fun i => u * w i)) : u = 1 := by
  obtain ⟨j, hj, hle, hlt⟩ := h
  obtain ⟨j', hj', hle', hlt'⟩ := h'
  simp only [Cx.mag2_mul] at hle' hlt'
  have h1 : u.mag2 ≤ 1 := by have := hle' j; rw [hj] at this; simpa using this
  change u * w j' = 1 at hj'
  have h2 : u.mag2 * (w j').mag2 = 1 := by rw [← Cx.mag2_mul, hj']; simp
  have h3 := hle j'
  have hu0 := Cx.mag2_nonneg u
  have hw0 := Cx.mag2_nonneg (w j')
  have hu : u.mag2 = 1 := by nlinarith
  have hw : (w j').mag2 = 1 := by rw [hu] at h2; linarith
  have hjj : j = j' := by
    rcases lt_trichotomy j j' with h | h | h
    · have := hlt' j h; rw [hu, hj] at this; simp at this
    · exact h
    · have := hlt j' h; rw [hw] at this; simp at this
  subst hjj
  rw [hj, mul_one] at hj'
  exact hj'

/-- Two normal forms that are proportional are equal. -/
theorem IsNorm.unique {k : Kind} {w : Fin (ar k) → Cx R} {u : Cx R} (h : IsNorm k w) (h' : IsNorm k (fun i => u * w i)) :
    u = 1 := by
  cases k with
  | v => exact IsNorm.unique_v h h'
  | m => exact IsNorm.unique_m h h'

/-- A normal form is not zero. -/
theorem IsNorm.ne_zero {k : Kind} {w : Fin (ar k) → Cx R} (h : IsNorm k w) : ∃ i, w i ≠ 0 := by
  cases k with
  | v =>
    rcases h with ⟨_, b⟩ | ⟨a, _⟩ | ⟨a, _⟩
    · exact ⟨1, by rw [b]; simp⟩
    · exact ⟨0, by rw [a]; simp⟩
    · exact ⟨0, a⟩
  | m =>
    obtain ⟨j, hj, _⟩ := h
    exact ⟨j, by rw [hj]; simp⟩

/-- What a normalisation of the edges `es` to `w` times `es'` has to satisfy. -/
structure NormSpec (k : Kind) (es : Fin (ar k) → PEdge R) (w : Cx R) (es' : Fin (ar k) → PEdge R) : Prop where
  ne : w ≠ 0
  value : ∀ i, w * (es' i).w = (es i).w
  ptr : ∀ i, (es i).w ≠ 0 → (es' i).p = (es i).p
  norm : IsNorm k (fun i => (es' i).w)

section argmax

/-- Invariant of the search for the largest weight after the indices of `L`. -/
private def AInv (es : Fin 4 → PEdge R) (L : List (Fin 4)) : Option (Fin 4) → Prop
  | none => ∀ i ∈ L, (es i).w = 0
  | some j => j ∈ L ∧ (es j).w ≠ 0 ∧ (∀ i ∈ L, (es i).w.mag2 ≤ (es j).w.mag2) ∧
      ∀ i ∈ L, i < j → (es i).w.mag2 < (es j).w.mag2

private theorem argMax_aux (es : Fin 4 → PEdge R) : ∀ (L2 L1 : List (Fin 4)) (acc : Option (Fin 4)),
    (L1 ++ L2).Pairwise (· < ·) → AInv es L1 acc →
    AInv es (L1 ++ L2) (L2.foldl (fun (acc : Option (Fin 4)) i =>
      if (es i).w = 0 then acc
      else match acc with
        | none => some i
        | some j => if (es i).w.mag2 - (es j).w.mag2 > 0 then some i else some j) acc) := by
  intro L2
  induction L2 with
  | nil => intro L1 acc _ h; simpa using h
  | cons x L2 ih =>
    intro L1 acc hp h
    have hrw : L1 ++ x :: L2 = (L1 ++ [x]) ++ L2 := by simp
    rw [hrw] at hp ⊢
    rw [List.foldl_cons]
    refine ih (L1 ++ [x]) _ hp ?_
    have hlt : ∀ i ∈ L1, i < x := by
      intro i hi
      have := (List.pairwise_append.1 hp).1
      exact (List.pairwise_append.1 this).2.2 i hi x (by simp)
    by_cases hx : (es x).w = 0
    · rw [if_pos hx]
      cases acc with
      | none =>
        intro i hi
        rcases List.mem_append.1 hi with hi | hi
        · exact h i hi
        · rw [List.mem_singleton.1 hi]; exact hx
      | some j =>
        obtain ⟨h1, h2, h3, h4⟩ := h
        refine ⟨List.mem_append_left _ h1, h2, ?_, ?_⟩
        · intro i hi
          rcases List.mem_append.1 hi with hi | hi
          · exact h3 i hi
          · rw [List.mem_singleton.1 hi, hx, Cx.mag2_zero]; exact Cx.mag2_nonneg _
        · intro i hi hij
          rcases List.mem_append.1 hi with hi | hi
          · exact h4 i hi hij
          · rw [List.mem_singleton.1 hi, hx, Cx.mag2_zero]; exact Cx.mag2_pos h2
    · rw [if_neg hx]
      cases acc with
      | none =>
        refine ⟨by simp, hx, ?_, ?_⟩
        · intro i hi
          rcases List.mem_append.1 hi with hi | hi
          · rw [h i hi, Cx.mag2_zero]; exact Cx.mag2_nonneg _
          · rw [List.mem_singleton.1 hi]
        · intro i hi hij
          rcases List.mem_append.1 hi with hi | hi
          · rw [h i hi, Cx.mag2_zero]; exact Cx.mag2_pos hx
          · exact absurd (List.mem_singleton.1 hi) hij.ne
      | some j =>
        obtain ⟨h1, h2, h3, h4⟩ := h
        dsimp only
        by_cases hg : (es x).w.mag2 - (es j).w.mag2 > 0
        · rw [if_pos hg]
          have hg' : (es j).w.mag2 < (es x).w.mag2 := by linarith
          refine ⟨by simp, hx, ?_, ?_⟩
          · intro i hi
            rcases List.mem_append.1 hi with hi | hi
            · exact ((h3 i hi).trans_lt hg').le
            · rw [List.mem_singleton.1 hi]
          · intro i hi hij
            rcases List.mem_append.1 hi with hi | hi
            · exact (h3 i hi).trans_lt hg'
            · exact absurd (List.mem_singleton.1 hi) hij.ne
        · rw [if_neg hg]
          have hg' : (es x).w.mag2 ≤ (es j).w.mag2 := by linarith [not_lt.1 hg]
          refine ⟨List.mem_append_left _ h1, h2, ?_, ?_⟩
          · intro i hi
            rcases List.mem_append.1 hi with hi | hi
            · exact h3 i hi
            · rw [List.mem_singleton.1 hi]; exact hg'
          · intro i hi hij
            rcases List.mem_append.1 hi with hi | hi
            · exact h4 i hi hij
            · rw [List.mem_singleton.1 hi] at hij
              exact absurd hij (lt_asymm (hlt j h1))

theorem argMaxM_none {es : Fin 4 → PEdge R} (h : Pkg.argMaxM es = none) : ∀ i, (es i).w = 0 := by
  have := argMax_aux es (List.finRange 4) [] none (by decide) (by intro i hi; simp at hi)
  rw [List.nil_append] at this
  have h' : AInv es (List.finRange 4) (Pkg.argMaxM es) := this
  rw [h] at h'
  intro i; exact h' i (List.mem_finRange i)

theorem argMaxM_some {es : Fin 4 → PEdge R} {j : Fin 4} (h : Pkg.argMaxM es = some j) :
    (es j).w ≠ 0 ∧ (∀ i, (es i).w.mag2 ≤ (es j).w.mag2) ∧ ∀ i, i < j → (es i).w.mag2 < (es j).w.mag2 := by
  have := argMax_aux es (List.finRange 4) [] none (by decide) (by intro i hi; simp at hi)
  rw [List.nil_append] at this
  have h' : AInv es (List.finRange 4) (Pkg.argMaxM es) := this
  rw [h] at h'
  exact ⟨h'.2.1, fun i => h'.2.2.1 i (List.mem_finRange i), fun i => h'.2.2.2 i (List.mem_finRange i)⟩

end argmax

theorem normM_none {es : Fin 4 → PEdge R} : Pkg.normM es = none ↔ ∀ i, (es i).w = 0 := by
  unfold Pkg.normM
  cases h : Pkg.argMaxM es with
  | none => simp only [true_iff]; exact argMaxM_none h
  | some j => simp only [reduceCtorEq, false_iff]; intro h'; exact (argMaxM_some h).1 (h' j)

theorem normM_spec {es : Fin 4 → PEdge R} {w : Cx R} {es' : Fin 4 → PEdge R} (h : Pkg.normM es = some (w, es')) :
    NormSpec .m es w es' ∧ ∀ i, (es i).w = 0 → es' i = zeroE := by
  unfold Pkg.normM at h
  cases hj : Pkg.argMaxM es with
  | none => rw [hj] at h; simp at h
  | some j =>
    rw [hj] at h
    obtain ⟨h1, h2, h3⟩ := argMaxM_some hj
    simp only [Option.some.injEq, Prod.mk.injEq] at h
    obtain ⟨rfl, rfl⟩ := h
    have hm := Cx.mag2_pos h1
    have hdiv : ∀ i, ((es i).w / (es j).w).mag2 * (es j).w.mag2 = (es i).w.mag2 := by
      intro i
      rw [← Cx.mag2_mul, div_mul_cancel₀ _ h1]
    refine ⟨⟨h1, ?_, ?_, ?_⟩, ?_⟩
    · intro i
      by_cases hi : i = j
      · subst hi; simp
      · by_cases hz : (es i).w = 0
        · simp [hi, hz, zeroE]
        · simp only [hi, hz, if_false]
          rw [mul_div_cancel₀ _ h1]
    · intro i hz
      by_cases hi : i = j
      · subst hi; simp
      · simp [hi, hz]
    · refine ⟨j, by simp, ?_, ?_⟩
      · intro i
        by_cases hi : i = j
        · simp [hi]
        · by_cases hz : (es i).w = 0
          · simp [hi, hz, zeroE]
          · simp only [hi, hz, if_false]
            by_contra hc
            push Not at hc
            have := hdiv i
            have := h2 i
            nlinarith
      · intro i hij
        by_cases hz : (es i).w = 0
        · simp [hij.ne, hz, zeroE]
        · simp only [hij.ne, hz, if_false]
          by_contra hc
          push Not at hc
          have := hdiv i
          have := h3 i hij
          nlinarith
    · intro i hz
      have hi : i ≠ j := fun e => h1 (e ▸ hz)
      simp [hi, hz]

section sqrt
variable [HasSqrt R] [LawfulSqrt R]

theorem sqrt_pos {x : R} (h : 0 < x) : 0 < HasSqrt.sqrt x := by
  have h1 := LawfulSqrt.nonneg x
  have h2 := LawfulSqrt.mul_self x h.le
  rcases h1.lt_or_eq with h3 | h3
  · exact h3
  · rw [← h3] at h2; simp at h2; exact absurd h2 h.ne

omit [HasSqrt R] [LawfulSqrt R] in
theorem dropZeros_w (cached : Bool) (es : Fin 2 → PEdge R) (i : Fin 2) : (Pkg.dropZeros cached es i).w = (es i).w := by
  unfold Pkg.dropZeros
  split
  · rename_i h
    simp only [Bool.and_eq_true, decide_eq_true_eq] at h
    rw [h.2]; rfl
  · rfl

omit [HasSqrt R] [LawfulSqrt R] in
theorem dropZeros_ne (cached : Bool) (es : Fin 2 → PEdge R) (i : Fin 2) (h : (es i).w ≠ 0) :
    Pkg.dropZeros cached es i = es i := by
  unfold Pkg.dropZeros
  simp [h]

omit [LawfulSqrt R] in
theorem normV1_none {es : Fin 2 → PEdge R} : Pkg.normV1 es = none ↔ ∀ i, (es i).w = 0 := by
  unfold Pkg.normV1
  rw [Fin.forall_fin_two]
  split_ifs <;> simp_all

theorem normV1_spec {es : Fin 2 → PEdge R} {w : Cx R} {es' : Fin 2 → PEdge R}
    (h : Pkg.normV1 es = some (w, es')) :
    NormSpec .v es w es' ∧ ∀ i, (es i).w = 0 → es' i = es i := by
  unfold Pkg.normV1 at h
  by_cases h0 : (es 0).w = 0
  · rw [if_pos h0] at h
    by_cases h1 : (es 1).w = 0
    · rw [if_pos h1] at h; simp at h
    · rw [if_neg h1] at h
      simp only [Option.some.injEq, Prod.mk.injEq] at h
      obtain ⟨rfl, rfl⟩ := h
      refine ⟨⟨h1, ?_, ?_, ?_⟩, ?_⟩
      · rw [Fin.forall_fin_two]
        constructor
        · simp [h0]
        · simp
      · rw [Fin.forall_fin_two]
        constructor
        · intro hc; exact absurd h0 hc
        · intro hc; simp
      · left
        exact ⟨by simp [h0], by simp⟩
      · rw [Fin.forall_fin_two]
        constructor
        · intro hc; simp
        · intro hc; exact absurd hc h1
  · rw [if_neg h0] at h
    by_cases h1 : (es 1).w = 0
    · rw [if_pos h1] at h
      simp only [Option.some.injEq, Prod.mk.injEq] at h
      obtain ⟨rfl, rfl⟩ := h
      refine ⟨⟨h0, ?_, ?_, ?_⟩, ?_⟩
      · rw [Fin.forall_fin_two]
        constructor
        · simp
        · simp [h1]
      · rw [Fin.forall_fin_two]
        constructor
        · intro hc; simp
        · intro hc; exact absurd h1 hc
      · right; left
        exact ⟨by simp, by simp [h1]⟩
      · rw [Fin.forall_fin_two]
        constructor
        · intro hc; exact absurd hc h0
        · intro hc; simp
    · rw [if_neg h1] at h
      simp only [Option.some.injEq, Prod.mk.injEq] at h
      obtain ⟨hw, hes⟩ := h
      have m0 := Cx.mag2_pos h0
      have m1 := Cx.mag2_pos h1
      set n2 := (es 0).w.mag2 + (es 1).w.mag2 with hn2
      have hn2p : 0 < n2 := by linarith
      have sn := sqrt_pos hn2p
      have snn := LawfulSqrt.mul_self n2 hn2p.le
      -- common argument for both positions of the largest weight
      have key : ∀ a b : Cx R, a ≠ 0 → b ≠ 0 → a.mag2 + b.mag2 = n2 → ∀ r : Cx R,
          (⟨a.re * (HasSqrt.sqrt n2 / HasSqrt.sqrt a.mag2), a.im * (HasSqrt.sqrt n2 / HasSqrt.sqrt a.mag2)⟩ : Cx R) = r →
          r ≠ 0 ∧ r * ⟨HasSqrt.sqrt a.mag2 / HasSqrt.sqrt n2, 0⟩ = a ∧ r * (b / r) = b ∧
          (⟨HasSqrt.sqrt a.mag2 / HasSqrt.sqrt n2, 0⟩ : Cx R) ≠ 0 ∧ b / r ≠ 0 ∧
          (⟨HasSqrt.sqrt a.mag2 / HasSqrt.sqrt n2, 0⟩ : Cx R).mag2 = a.mag2 / n2 ∧ (b / r).mag2 = b.mag2 / n2 ∧
          0 < HasSqrt.sqrt a.mag2 / HasSqrt.sqrt n2 := by
        intro a b ha hb hab r hr
        have ma := Cx.mag2_pos ha
        have sa := sqrt_pos ma
        have saa := LawfulSqrt.mul_self a.mag2 ma.le
        have hra : r = a * Cx.ofReal (HasSqrt.sqrt n2 / HasSqrt.sqrt a.mag2) := by
          rw [← hr]; ext <;> simp
        have hr0 : r ≠ 0 := by
          rw [hra]
          refine mul_ne_zero ha ?_
          intro hc
          have := congrArg Cx.re hc
          simp only [Cx.ofReal_re, Cx.zero_re] at this
          exact (div_pos sn sa).ne' this
        have hrm : r.mag2 = n2 := by
          rw [hra, Cx.mag2_mul, Cx.mag2_ofReal, div_mul_div_comm, snn, saa]
          field_simp
        refine ⟨hr0, ?_, mul_div_cancel₀ _ hr0, ?_, div_ne_zero hb hr0, ?_, ?_, div_pos sa sn⟩
        · rw [hra, mul_assoc]
          have : Cx.ofReal (HasSqrt.sqrt n2 / HasSqrt.sqrt a.mag2) * (⟨HasSqrt.sqrt a.mag2 / HasSqrt.sqrt n2, 0⟩ : Cx R)
              = 1 := by
            ext
            · simp; field_simp
            · simp
          rw [this, mul_one]
        · intro hc
          have := congrArg Cx.re hc
          simp only [Cx.zero_re] at this
          exact (div_pos sa sn).ne' this
        · change HasSqrt.sqrt a.mag2 / HasSqrt.sqrt n2 * (HasSqrt.sqrt a.mag2 / HasSqrt.sqrt n2) + 0 * 0 = _
          rw [mul_zero, add_zero, div_mul_div_comm, snn, saa]
        · have : (b / r).mag2 * r.mag2 = b.mag2 := by rw [← Cx.mag2_mul, div_mul_cancel₀ _ hr0]
          rw [hrm] at this
          rw [← this]; field_simp
      have hq : ∀ x y : R, x + y = n2 → x / n2 + y / n2 = 1 := by
        intro x y hxy; rw [← add_div, hxy, div_self hn2p.ne']
      by_cases hmax : (es 0).w.mag2 ≥ (es 1).w.mag2
      · simp only [if_pos hmax] at hw hes
        rw [hw] at hes
        obtain ⟨k1, k2, k3, k4, k5, k6, k7, k8⟩ := key (es 0).w (es 1).w h0 h1 rfl w hw
        have u0 : es' 0 = ⟨(es 0).p, ⟨HasSqrt.sqrt (es 0).w.mag2 / HasSqrt.sqrt n2, 0⟩⟩ := by
          rw [← hes]; simp
        have u1 : es' 1 = ⟨(es 1).p, (es 1).w / w⟩ := by
          rw [← hes]; simp
        refine ⟨⟨k1, ?_, ?_, ?_⟩, ?_⟩
        · rw [Fin.forall_fin_two, u0, u1]; exact ⟨k2, k3⟩
        · rw [Fin.forall_fin_two, u0, u1]; exact ⟨fun _ => rfl, fun _ => rfl⟩
        · right; right
          beta_reduce
          rw [u0, u1]
          refine ⟨k4, k5, ?_, Or.inl ⟨?_, rfl, k8⟩⟩
          · rw [k6, k7]; exact hq _ _ rfl
          · rw [k6, k7]; exact div_le_div_of_nonneg_right hmax hn2p.le
        · rw [Fin.forall_fin_two]
          exact ⟨fun hc => absurd hc h0, fun hc => absurd hc h1⟩
      · simp only [if_neg hmax] at hw hes
        rw [hw] at hes
        have hlt := not_le.1 hmax
        obtain ⟨k1, k2, k3, k4, k5, k6, k7, k8⟩ := key (es 1).w (es 0).w h1 h0 (by rw [hn2]; ring) w hw
        have h11 : (1 + 1 : Fin 2) = 0 := rfl
        rw [h11] at hes
        have u1 : es' 1 = ⟨(es 1).p, ⟨HasSqrt.sqrt (es 1).w.mag2 / HasSqrt.sqrt n2, 0⟩⟩ := by
          rw [← hes]; simp
        have u0 : es' 0 = ⟨(es 0).p, (es 0).w / w⟩ := by
          rw [← hes]; simp
        refine ⟨⟨k1, ?_, ?_, ?_⟩, ?_⟩
        · rw [Fin.forall_fin_two, u0, u1]; exact ⟨k3, k2⟩
        · rw [Fin.forall_fin_two, u0, u1]; exact ⟨fun _ => rfl, fun _ => rfl⟩
        · right; right
          beta_reduce
          rw [u0, u1]
          refine ⟨k5, k4, ?_, Or.inr ⟨?_, rfl, k8⟩⟩
          · rw [k6, k7]; exact hq _ _ (by rw [hn2])
          · rw [k6, k7]; exact div_lt_div_of_pos_right hlt hn2p
        · rw [Fin.forall_fin_two]
          exact ⟨fun hc => absurd hc h0, fun hc => absurd hc h1⟩

omit [LawfulSqrt R] in
theorem normV_none {cached : Bool} {es : Fin 2 → PEdge R} : Pkg.normV cached es = none ↔ ∀ i, (es i).w = 0 := by
  unfold Pkg.normV
  rw [normV1_none]
  simp only [dropZeros_w]

theorem normV_spec {cached : Bool} {es : Fin 2 → PEdge R} {w : Cx R} {es' : Fin 2 → PEdge R}
    (h : Pkg.normV cached es = some (w, es')) :
    NormSpec .v es w es' ∧ ∀ i, (es i).w = 0 → es' i = if cached then zeroE else es i := by
  obtain ⟨h1, h2⟩ := normV1_spec h
  refine ⟨⟨h1.ne, ?_, ?_, h1.norm⟩, ?_⟩
  · intro i; rw [h1.value i]; exact dropZeros_w cached es i
  · intro i hi
    rw [h1.ptr i (by rw [dropZeros_w]; exact hi), dropZeros_ne _ _ _ hi]
  · intro i hi
    rw [h2 i (by rw [dropZeros_w]; exact hi)]
    unfold Pkg.dropZeros
    simp [hi]

omit [LawfulSqrt R] in
theorem norm_none {k : Kind} {cached : Bool} {es : Fin (ar k) → PEdge R} :
    Pkg.norm k cached es = none ↔ ∀ i, (es i).w = 0 := by
  cases k with
  | v => exact normV_none
  | m => exact normM_none

theorem norm_spec {k : Kind} {cached : Bool} {es : Fin (ar k) → PEdge R} {w : Cx R} {es' : Fin (ar k) → PEdge R}
    (h : Pkg.norm k cached es = some (w, es')) : NormSpec k es w es' := by
  cases k with
  | v => exact (normV_spec h).1
  | m => exact (normM_spec h).1

/-- Edges of weight zero: they become the zero edge, except for vector nodes in computations that are not cached. -/
theorem norm_zero {k : Kind} {cached : Bool} {es : Fin (ar k) → PEdge R} {w : Cx R} {es' : Fin (ar k) → PEdge R}
    (h : Pkg.norm k cached es = some (w, es')) (i : Fin (ar k)) (hi : (es i).w = 0) :
    es' i = zeroE ∨ es' i = es i := by
  cases k with
  | v =>
    have := (normV_spec h).2 i hi
    rw [this]; cases cached <;> simp
  | m => exact Or.inl ((normM_spec h).2 i hi)

end sqrt

end DD
