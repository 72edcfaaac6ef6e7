import Verif.Proofs.State

/-! # Reading diagrams: `getValueByPath`, `getVector`, `getMatrix` -/

namespace DD

variable {R : Type} [Field R] [DecidableEq R]

theorem pathLoop_spec {n : Nat} {t : UTable (Cx R) n} (hc : Children t) (el : Nat → Fin n) : ∀ (l : Nat) (e : PEdge R)
    (c : Cx R), Valid t l e → Pkg.pathLoop t el l e c = c * amp t l e (fun q => el q) := by
  intro l
  induction l with
  | zero => intro e c _; rfl
  | succ l ih =>
    intro e c hv
    unfold Pkg.pathLoop
    cases hp : e.p with
    | none => rw [amp_none hp]
    | some a =>
      obtain ⟨v1, v2, v3⟩ := (valid_some hp).1 hv
      have hva : (t.mem a).v = l := by omega
      dsimp only
      rw [ih _ _ (by have := hc a v1 (el (t.mem a).v); rw [hva] at this ⊢; exact this), amp_some hp, hva, mul_assoc]
      rfl

/-- `getValueByPath` for strings of digits. -/
theorem valueByPath_spec {n : Nat} {t : UTable (Cx R) n} (hc : Children t) {l : Nat} {e : PEdge R} (hv : Valid t l e)
    (el : Nat → Fin n) : Pkg.valueByPath t e el = amp t l e (fun q => el q) := by
  unfold Pkg.valueByPath
  cases hp : e.p with
  | none => rw [amp_none hp]
  | some a =>
    dsimp only
    have hw : e.w ≠ 0 := ((valid_some hp).1 hv).2.2
    rw [hv.lvl hw, pathLoop_spec hc el l e 1 hv, one_mul]

theorem valueVF_spec {t : UTable (Cx R) 2} (hc : Children t) (i : Nat) : ∀ (l : Nat) (e : PEdge R) (c : Cx R),
    Valid t l e → Pkg.valueVF t l e c i = c * amp t l e (bitsOf l i) := by
  intro l
  induction l with
  | zero => intro e c _; show e.w * c = c * e.w; ring
  | succ l ih =>
    intro e c hv
    unfold Pkg.valueVF
    cases hp : e.p with
    | none => rw [amp_none hp]; exact mul_comm _ _
    | some a =>
      obtain ⟨v1, v2, v3⟩ := (valid_some hp).1 hv
      have hva : (t.mem a).v = l := by omega
      have hch : ∀ j, Valid t l ((t.mem a).e j) := fun j => by have := hc a v1 j; rwa [hva] at this
      have hin : (Fin.init (bitsOf (l + 1) i) : Fin l → Fin 2) = bitsOf l i := rfl
      have hlast : bitsOf (l + 1) i (Fin.last l) = if i.testBit l then 1 else 0 := rfl
      rw [amp_some hp, hin, hlast]
      dsimp only
      rw [hva]
      cases hb : i.testBit l with
      | false =>
        simp only [Bool.not_false, Bool.true_and, Bool.false_eq_true, if_false, Bool.false_and]
        by_cases hz : ((t.mem a).e 0).w = 0
        · simp [hz, amp_w_zero hz]
        · simp only [hz, decide_false, Bool.not_false, if_true]
          rw [ih _ _ (hch 0)]; ring
      | true =>
        simp only [Bool.not_true, Bool.false_and, Bool.false_eq_true, if_false, if_true, Bool.true_and]
        by_cases hz : ((t.mem a).e 1).w = 0
        · simp [hz, amp_w_zero hz]
        · simp only [hz, decide_false, Bool.not_false, if_true]
          rw [ih _ _ (hch 1)]; ring

theorem valueV_spec {t : UTable (Cx R) 2} (hc : Children t) {l : Nat} {e : PEdge R} (hv : Valid t l e) (i : Nat) :
    Pkg.valueV t e i = amp t l e (bitsOf l i) := by
  unfold Pkg.valueV
  cases hp : e.p with
  | none => rw [amp_none hp]
  | some a =>
    dsimp only
    have hw : e.w ≠ 0 := ((valid_some hp).1 hv).2.2
    rw [hv.lvl hw, valueVF_spec hc i l e 1 hv, one_mul]

theorem valueMF_spec {t : UTable (Cx R) 4} (hc : Children t) (i j : Nat) : ∀ (l : Nat) (e : PEdge R) (c : Cx R),
    Valid t l e → Pkg.valueMF t l e c i j = c * mat t l e (bitsOf l i) (bitsOf l j) := by
  intro l
  induction l with
  | zero => intro e c _; show e.w * c = c * e.w; ring
  | succ l ih =>
    intro e c hv
    unfold Pkg.valueMF mat
    cases hp : e.p with
    | none => rw [amp_none hp]; exact mul_comm _ _
    | some a =>
      obtain ⟨v1, v2, v3⟩ := (valid_some hp).1 hv
      have hva : (t.mem a).v = l := by omega
      have hch : ∀ q, Valid t l ((t.mem a).e q) := fun q => by have := hc a v1 q; rwa [hva] at this
      have hin : (Fin.init (fun q : Fin (l + 1) => rc (bitsOf (l + 1) i q) (bitsOf (l + 1) j q)) : Fin l → Fin 4) =
        fun q => rc (bitsOf l i q) (bitsOf l j q) := rfl
      have hlast : rc (bitsOf (l + 1) i (Fin.last l)) (bitsOf (l + 1) j (Fin.last l)) =
        rc (if i.testBit l then 1 else 0) (if j.testBit l then 1 else 0) := rfl
      rw [amp_some hp, hin, hlast]
      have ih' : ∀ q c, Pkg.valueMF t l ((t.mem a).e q) c i j =
          c * amp t l ((t.mem a).e q) (fun q => rc (bitsOf l i q) (bitsOf l j q)) := fun q c => ih _ c (hch q)
      dsimp only
      rw [hva]
      cases hb : i.testBit l <;> cases hb' : j.testBit l <;>
        simp only [Bool.not_false, Bool.not_true, Bool.true_and, Bool.and_true, Bool.false_eq_true, if_false, if_true,
          Bool.false_and, Bool.and_false]
      · rw [show rc 0 0 = 0 from rfl]
        by_cases hz : ((t.mem a).e 0).w = 0
        · simp [hz, amp_w_zero hz]
        · simp only [hz, decide_false, Bool.not_false, if_true]
          rw [ih']; ring
      · rw [show rc 0 1 = 1 from rfl]
        by_cases hz : ((t.mem a).e 1).w = 0
        · simp [hz, amp_w_zero hz]
        · simp only [hz, decide_false, Bool.not_false, if_true]
          rw [ih']; ring
      · rw [show rc 1 0 = 2 from rfl]
        by_cases hz : ((t.mem a).e 2).w = 0
        · simp [hz, amp_w_zero hz]
        · simp only [hz, decide_false, Bool.not_false, if_true]
          rw [ih']; ring
      · rw [show rc 1 1 = 3 from rfl]
        by_cases hz : ((t.mem a).e 3).w = 0
        · simp [hz, amp_w_zero hz]
        · simp only [hz, decide_false, Bool.not_false, if_true]
          rw [ih']; ring

theorem valueM_spec {t : UTable (Cx R) 4} (hc : Children t) {l : Nat} {e : PEdge R} (hv : Valid t l e) (i j : Nat) :
    Pkg.valueM t e i j = mat t l e (bitsOf l i) (bitsOf l j) := by
  unfold Pkg.valueM
  cases hp : e.p with
  | none => unfold mat; rw [amp_none hp]
  | some a =>
    dsimp only
    have hw : e.w ≠ 0 := ((valid_some hp).1 hv).2.2
    rw [hv.lvl hw, valueMF_spec hc i j l e 1 hv, one_mul]

/-- Setting a bit above the used ones adds its value. -/
theorem or_pow {l b : Nat} : (b * 2 ^ (l + 1)) ||| 2 ^ l = b * 2 ^ (l + 1) + 2 ^ l := by
  have := Nat.two_pow_add_eq_or_of_lt (i := l + 1) (b := 2 ^ l) (by rw [pow_succ]; have := Nat.two_pow_pos l; omega) b
  rw [mul_comm b]
  exact this.symm

/-- What the recursive `getVector` writes: the block of `2 ^ l` entries starting with `b * 2 ^ l`. -/
theorem getVectorF_spec {t : UTable (Cx R) 2} (hc : Children t) : ∀ (l : Nat) (e : PEdge R) (c : Cx R) (b : Nat)
    (vec : Nat → Cx R), Valid t l e → e.w ≠ 0 → (∀ d : Fin l → Fin 2, vec (b * 2 ^ l + bitIdx d) = 0) → ∀ j,
    Pkg.getVectorF t l e c (b * 2 ^ l) vec j =
      if j / 2 ^ l = b then c * amp t l e (bitsOf l (j % 2 ^ l)) else vec j := by
  intro l
  induction l with
  | zero =>
    intro e c b vec _ _ hz j
    unfold Pkg.getVectorF
    simp only [pow_zero, mul_one, Nat.div_one, Function.update_apply]
    split_ifs with h
    · rw [amp_zero]; ring
    · rfl
  | succ l ih =>
    intro e c b vec hv hw hz j
    unfold Pkg.getVectorF
    obtain ⟨a, hp, -, -⟩ := hv.exists_node hw
    obtain ⟨v1, v2, v3⟩ := (valid_some hp).1 hv
    have hva : (t.mem a).v = l := by omega
    have hch : ∀ q, Valid t l ((t.mem a).e q) := fun q => by have := hc a v1 q; rwa [hva] at this
    rw [hp]
    dsimp only
    rw [hva, or_pow]
    have b0 : b * 2 ^ (l + 1) = (2 * b) * 2 ^ l := by rw [pow_succ]; ring
    have b1 : b * 2 ^ (l + 1) + 2 ^ l = (2 * b + 1) * 2 ^ l := by rw [pow_succ]; ring
    rw [b1]
    rw [show b * 2 ^ (l + 1) = (2 * b) * 2 ^ l from b0]
    -- entries of the block that are zero in the beginning
    have hz' : ∀ (x : Nat), x < 2 → ∀ d : Fin l → Fin 2, vec ((2 * b + x) * 2 ^ l + bitIdx d) = 0 := by
      intro x hx d
      have := hz (Fin.snoc d ⟨x, hx⟩)
      rw [bitIdx_snoc, Fin.init_snoc, Fin.snoc_last, b0] at this
      rw [← this]; congr 1; simp only []; ring
    set v0 := (if ((t.mem a).e 0).w = 0 then vec else Pkg.getVectorF t l ((t.mem a).e 0) (e.w * c) (2 * b * 2 ^ l) vec) with hv0
    have hv0' : ∀ j, v0 j = if j / 2 ^ l = 2 * b then (e.w * c) * amp t l ((t.mem a).e 0) (bitsOf l (j % 2 ^ l)) else vec j := by
      intro j
      rw [hv0]
      by_cases h0 : ((t.mem a).e 0).w = 0
      · rw [if_pos h0]
        by_cases hj : j / 2 ^ l = 2 * b
        · rw [if_pos hj, amp_w_zero h0, mul_zero]
          have := hz' 0 (by omega) (bitsOf l (j % 2 ^ l))
          rw [bitIdx_bitsOf (Nat.mod_lt _ (Nat.two_pow_pos l)), Nat.add_zero, ← hj, mul_comm, Nat.div_add_mod] at this
          exact this
        · rw [if_neg hj]
      · rw [if_neg h0]
        exact ih _ _ _ _ (hch 0) h0 (hz' 0 (by omega)) j
    have hres : ∀ j, (if ((t.mem a).e 1).w = 0 then v0 else Pkg.getVectorF t l ((t.mem a).e 1) (e.w * c) ((2 * b + 1) * 2 ^ l) v0) j
        = if j / 2 ^ l = 2 * b + 1 then (e.w * c) * amp t l ((t.mem a).e 1) (bitsOf l (j % 2 ^ l)) else v0 j := by
      intro j
      by_cases h1 : ((t.mem a).e 1).w = 0
      · rw [if_pos h1]
        by_cases hj : j / 2 ^ l = 2 * b + 1
        · rw [if_pos hj, amp_w_zero h1, mul_zero, hv0', if_neg (by omega)]
          have := hz' 1 (by omega) (bitsOf l (j % 2 ^ l))
          rw [bitIdx_bitsOf (Nat.mod_lt _ (Nat.two_pow_pos l)), ← hj, mul_comm, Nat.div_add_mod] at this
          exact this
        · rw [if_neg hj]
      · rw [if_neg h1]
        refine ih _ _ _ _ (hch 1) h1 (fun d => ?_) j
        have hlt := bitIdx_lt d
        rw [hv0', if_neg, hz' 1 (by omega) d]
        rw [Nat.add_comm, Nat.add_mul_div_right _ _ (Nat.two_pow_pos l), Nat.div_eq_of_lt hlt]; omega
    rw [hres, hv0']
    have hdiv : j / 2 ^ (l + 1) = j / 2 ^ l / 2 := by rw [pow_succ, Nat.div_div_eq_div_mul]
    have hbits : ∀ x : Fin 2, j / 2 ^ l = 2 * b + x →
        amp t (l + 1) e (bitsOf (l + 1) (j % 2 ^ (l + 1))) = e.w * amp t l ((t.mem a).e x) (bitsOf l (j % 2 ^ l)) := by
      intro x hx
      rw [amp_some hp]
      have e1 : bitsOf (l + 1) (j % 2 ^ (l + 1)) (Fin.last l) = x := by
        simp only [bitsOf, Fin.val_last, Nat.testBit_mod_two_pow]
        rw [Nat.testBit_eq_decide_div_mod_eq, hx]
        fin_cases x
        · simp [Nat.add_mod]
        · simp [Nat.add_mod]
      have e2 : (Fin.init (bitsOf (l + 1) (j % 2 ^ (l + 1))) : Fin l → Fin 2) = bitsOf l (j % 2 ^ l) := by
        funext q
        simp only [Fin.init, bitsOf, Nat.testBit_mod_two_pow, Fin.val_castSucc]
        have : (q : Nat) < l := q.isLt
        simp [this, Nat.lt_succ_of_lt this]
      rw [e1, e2]
    rw [hdiv]
    by_cases h1 : j / 2 ^ l = 2 * b + 1
    · rw [if_pos h1, if_pos (by omega), hbits 1 h1]; ring
    · rw [if_neg h1]
      by_cases h0 : j / 2 ^ l = 2 * b
      · rw [if_pos h0, if_pos (by omega), hbits 0 (by simpa using h0)]; ring
      · rw [if_neg h0, if_neg (by omega)]

/-- `getVector` returns the entries of the vector in the order of their indices. -/
theorem getVector_spec {t : UTable (Cx R) 2} (hc : Children t) {l : Nat} {e : PEdge R} (hv : Valid t (l + 1) e)
    (hw : e.w ≠ 0) :
    Pkg.getVector t e = some ((List.range (2 ^ (l + 1))).map fun i => amp t (l + 1) e (bitsOf (l + 1) i)) := by
  unfold Pkg.getVector
  obtain ⟨a, hp, -, -⟩ := hv.exists_node hw
  obtain ⟨v1, v2, v3⟩ := (valid_some hp).1 hv
  have hva : (t.mem a).v = l := by omega
  rw [hp]
  dsimp only
  rw [hva, Nat.shiftLeft_eq, mul_comm, ← pow_succ]
  congr 1
  apply List.map_congr_left
  intro i hi
  rw [List.mem_range] at hi
  have := getVectorF_spec hc (l + 1) e 1 0 (fun _ => 0) hv hw (fun _ => rfl) i
  rw [Nat.zero_mul] at this
  rw [hv.lvl hw, this, if_pos (Nat.div_eq_of_lt hi), one_mul, Nat.mod_eq_of_lt hi]

/-- One of the four recursive calls of `getMatrix`. -/
theorem getMatrix_block {t : UTable (Cx R) 4} {l : Nat} {e : PEdge R} {c : Cx R} {p q : Nat} {M : Nat → Nat → Cx R}
    (hM : ∀ i j, i / 2 ^ l = p → j / 2 ^ l = q → M i j = 0)
    (ih : e.w ≠ 0 → ∀ i j, Pkg.getMatrixF t l e c (p * 2 ^ l) (q * 2 ^ l) M i j =
      if i / 2 ^ l = p ∧ j / 2 ^ l = q then c * mat t l e (bitsOf l (i % 2 ^ l)) (bitsOf l (j % 2 ^ l)) else M i j) :
    ∀ i j, (if e.w = 0 then M else Pkg.getMatrixF t l e c (p * 2 ^ l) (q * 2 ^ l) M) i j =
      if i / 2 ^ l = p ∧ j / 2 ^ l = q then c * mat t l e (bitsOf l (i % 2 ^ l)) (bitsOf l (j % 2 ^ l)) else M i j := by
  intro i j
  by_cases h : e.w = 0
  · rw [if_pos h]
    by_cases hij : i / 2 ^ l = p ∧ j / 2 ^ l = q
    · rw [if_pos hij, hM i j hij.1 hij.2]; unfold mat; rw [amp_w_zero h, mul_zero]
    · rw [if_neg hij]
  · rw [if_neg h]; exact ih h i j

/-- What the recursive `getMatrix` writes. -/
theorem getMatrixF_spec {t : UTable (Cx R) 4} (hc : Children t) : ∀ (l : Nat) (e : PEdge R) (c : Cx R) (p q : Nat)
    (M : Nat → Nat → Cx R), Valid t l e → e.w ≠ 0 → (∀ i j, i / 2 ^ l = p → j / 2 ^ l = q → M i j = 0) → ∀ i j,
    Pkg.getMatrixF t l e c (p * 2 ^ l) (q * 2 ^ l) M i j =
      if i / 2 ^ l = p ∧ j / 2 ^ l = q then c * mat t l e (bitsOf l (i % 2 ^ l)) (bitsOf l (j % 2 ^ l)) else M i j := by
  intro l
  induction l with
  | zero =>
    intro e c p q M _ _ hz i j
    unfold Pkg.getMatrixF mat
    simp only [pow_zero, mul_one, Nat.div_one, Function.update_apply]
    by_cases h : i = p
    · subst h
      by_cases h2 : j = q
      · subst h2; simp [amp_zero, mul_comm]
      · simp [h2]
    · simp [h]
  | succ l ih =>
    intro e c p q M hv hw hz i j
    unfold Pkg.getMatrixF
    obtain ⟨a, hp, -, -⟩ := hv.exists_node hw
    obtain ⟨v1, v2, v3⟩ := (valid_some hp).1 hv
    have hva : (t.mem a).v = l := by omega
    have hch : ∀ q, Valid t l ((t.mem a).e q) := fun q => by have := hc a v1 q; rwa [hva] at this
    rw [hp]
    dsimp only
    rw [hva, or_pow, or_pow]
    have b0 : ∀ b, b * 2 ^ (l + 1) = (2 * b) * 2 ^ l := fun b => by rw [pow_succ]; ring
    have b1 : ∀ b, (2 * b) * 2 ^ l + 2 ^ l = (2 * b + 1) * 2 ^ l := fun b => by ring
    rw [b0, b0, b1, b1]
    have hdiv : ∀ j, j / 2 ^ (l + 1) = j / 2 ^ l / 2 := fun j => by rw [pow_succ, Nat.div_div_eq_div_mul]
    have z0 : ∀ i j, i / 2 ^ l / 2 = p → j / 2 ^ l / 2 = q → M i j = 0 :=
      fun i j h1 h2 => hz i j (by rw [hdiv]; exact h1) (by rw [hdiv]; exact h2)
    have k0 := getMatrix_block (e := (t.mem a).e 0) (c := e.w * c) (p := 2 * p) (q := 2 * q) (M := M)
      (fun i j h1 h2 => z0 i j (by omega) (by omega))
      (fun h => ih _ _ _ _ _ (hch 0) h (fun i j h1 h2 => z0 i j (by omega) (by omega)))
    generalize (if ((t.mem a).e 0).w = 0 then M else
      Pkg.getMatrixF t l ((t.mem a).e 0) (e.w * c) (2 * p * 2 ^ l) (2 * q * 2 ^ l) M) = M0 at k0
    have z1 : ∀ i j, i / 2 ^ l = 2 * p → j / 2 ^ l = 2 * q + 1 → M0 i j = 0 := fun i j h1 h2 => by
      rw [k0, if_neg (by omega)]; exact z0 i j (by omega) (by omega)
    have k1 := getMatrix_block (e := (t.mem a).e 1) (c := e.w * c) (p := 2 * p) (q := 2 * q + 1) (M := M0) z1
      (fun h => ih _ _ _ _ _ (hch 1) h z1)
    generalize (if ((t.mem a).e 1).w = 0 then M0 else
      Pkg.getMatrixF t l ((t.mem a).e 1) (e.w * c) (2 * p * 2 ^ l) ((2 * q + 1) * 2 ^ l) M0) = M1 at k1
    have z2 : ∀ i j, i / 2 ^ l = 2 * p + 1 → j / 2 ^ l = 2 * q → M1 i j = 0 := fun i j h1 h2 => by
      rw [k1, if_neg (by omega), k0, if_neg (by omega)]; exact z0 i j (by omega) (by omega)
    have k2 := getMatrix_block (e := (t.mem a).e 2) (c := e.w * c) (p := 2 * p + 1) (q := 2 * q) (M := M1) z2
      (fun h => ih _ _ _ _ _ (hch 2) h z2)
    generalize (if ((t.mem a).e 2).w = 0 then M1 else
      Pkg.getMatrixF t l ((t.mem a).e 2) (e.w * c) ((2 * p + 1) * 2 ^ l) (2 * q * 2 ^ l) M1) = M2 at k2
    have z3 : ∀ i j, i / 2 ^ l = 2 * p + 1 → j / 2 ^ l = 2 * q + 1 → M2 i j = 0 := fun i j h1 h2 => by
      rw [k2, if_neg (by omega), k1, if_neg (by omega), k0, if_neg (by omega)]; exact z0 i j (by omega) (by omega)
    have k3 := getMatrix_block (e := (t.mem a).e 3) (c := e.w * c) (p := 2 * p + 1) (q := 2 * q + 1) (M := M2) z3
      (fun h => ih _ _ _ _ _ (hch 3) h z3)
    rw [k3, k2, k1, k0]
    have hbits : ∀ j (b : Nat) (x : Fin 2), j / 2 ^ l = 2 * b + x → bitsOf (l + 1) (j % 2 ^ (l + 1)) (Fin.last l) = x := by
      intro j b x hx
      simp only [bitsOf, Fin.val_last, Nat.testBit_mod_two_pow]
      rw [Nat.testBit_eq_decide_div_mod_eq, hx]
      fin_cases x
      · simp [Nat.add_mod]
      · simp [Nat.add_mod]
    have hinit : ∀ j, (Fin.init (bitsOf (l + 1) (j % 2 ^ (l + 1))) : Fin l → Fin 2) = bitsOf l (j % 2 ^ l) := by
      intro j
      funext q
      simp only [Fin.init, bitsOf, Nat.testBit_mod_two_pow, Fin.val_castSucc]
      have : (q : Nat) < l := q.isLt
      simp [this, Nat.lt_succ_of_lt this]
    have hmat : ∀ x y : Fin 2, i / 2 ^ l = 2 * p + x → j / 2 ^ l = 2 * q + y →
        mat t (l + 1) e (bitsOf (l + 1) (i % 2 ^ (l + 1))) (bitsOf (l + 1) (j % 2 ^ (l + 1))) =
          e.w * mat t l ((t.mem a).e (rc x y)) (bitsOf l (i % 2 ^ l)) (bitsOf l (j % 2 ^ l)) := by
      intro x y hx hy
      unfold mat
      rw [amp_some hp]
      rw [hbits i p x hx, hbits j q y hy, ← hinit i, ← hinit j]
      rfl
    rw [hdiv, hdiv]
    have e3 := hmat 1 1
    have e2 := hmat 1 0
    have e1 := hmat 0 1
    have e0 := hmat 0 0
    simp only [Fin.val_one, Fin.val_zero, Nat.add_zero, show rc 1 1 = 3 from rfl, show rc 1 0 = 2 from rfl,
      show rc 0 1 = 1 from rfl, show rc 0 0 = 0 from rfl] at e0 e1 e2 e3
    by_cases h3 : i / 2 ^ l = 2 * p + 1 ∧ j / 2 ^ l = 2 * q + 1
    · rw [if_pos h3, if_pos (by omega), e3 h3.1 h3.2]; ring
    · rw [if_neg h3]
      by_cases h2 : i / 2 ^ l = 2 * p + 1 ∧ j / 2 ^ l = 2 * q
      · rw [if_pos h2, if_pos (by omega), e2 h2.1 h2.2]; ring
      · rw [if_neg h2]
        by_cases h1 : i / 2 ^ l = 2 * p ∧ j / 2 ^ l = 2 * q + 1
        · rw [if_pos h1, if_pos (by omega), e1 h1.1 h1.2]; ring
        · rw [if_neg h1]
          by_cases h0 : i / 2 ^ l = 2 * p ∧ j / 2 ^ l = 2 * q
          · rw [if_pos h0, if_pos (by omega), e0 h0.1 h0.2]; ring
          · rw [if_neg h0, if_neg (by omega)]

/-- `getMatrix` returns the entries of the matrix in the order of their indices. -/
theorem getMatrix_spec {t : UTable (Cx R) 4} (hc : Children t) {l : Nat} {e : PEdge R} (hv : Valid t (l + 1) e)
    (hw : e.w ≠ 0) :
    Pkg.getMatrix t e = some ((List.range (2 ^ (l + 1))).map fun i => (List.range (2 ^ (l + 1))).map fun j =>
      mat t (l + 1) e (bitsOf (l + 1) i) (bitsOf (l + 1) j)) := by
  unfold Pkg.getMatrix
  obtain ⟨a, hp, -, -⟩ := hv.exists_node hw
  obtain ⟨v1, v2, v3⟩ := (valid_some hp).1 hv
  have hva : (t.mem a).v = l := by omega
  rw [hp]
  dsimp only
  rw [hva, Nat.shiftLeft_eq, mul_comm, ← pow_succ]
  congr 1
  apply List.map_congr_left
  intro i hi
  apply List.map_congr_left
  intro j hj
  rw [List.mem_range] at hi hj
  have := getMatrixF_spec hc (l + 1) e 1 0 0 (fun _ _ => 0) hv hw (fun _ _ _ _ => rfl) i j
  rw [Nat.zero_mul] at this
  rw [hv.lvl hw, this, if_pos ⟨Nat.div_eq_of_lt hi, Nat.div_eq_of_lt hj⟩, one_mul, Nat.mod_eq_of_lt hi, Nat.mod_eq_of_lt hj]

end DD
