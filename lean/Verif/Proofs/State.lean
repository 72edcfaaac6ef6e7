import Verif.PkgSpec
import Verif.Proofs.Ident

/-! # Basis states, vectors and matrices: construction and extraction -/

namespace DD

theorem bitIdx_snoc {l : Nat} (d : Fin (l + 1) → Fin 2) :
    bitIdx d = bitIdx (Fin.init d) + (d (Fin.last l) : Nat) * 2 ^ l := by
  unfold bitIdx
  rw [Fin.sum_univ_castSucc]
  rfl

theorem bitIdx_lt {l : Nat} (d : Fin l → Fin 2) : bitIdx d < 2 ^ l := by
  induction l with
  | zero => simp [bitIdx]
  | succ l ih =>
    rw [bitIdx_snoc]
    have h1 := ih (Fin.init d)
    have h2 : (d (Fin.last l) : Nat) ≤ 1 := by omega
    have h3 : (d (Fin.last l) : Nat) * 2 ^ l ≤ 2 ^ l := by
      calc _ ≤ 1 * 2 ^ l := Nat.mul_le_mul_right _ h2
        _ = _ := by ring
    rw [pow_succ]; omega

/-- The binary digits of a number. -/
def bitsOf (l i : Nat) : Fin l → Fin 2 := fun q => if i.testBit q then 1 else 0

theorem bitIdx_bitsOf {l i : Nat} (h : i < 2 ^ l) : bitIdx (bitsOf l i) = i := by
  induction l generalizing i with
  | zero => simp only [pow_zero, Nat.lt_one_iff] at h; subst h; simp [bitIdx]
  | succ l ih =>
    rw [bitIdx_snoc]
    by_cases hb : i.testBit l
    · have hge : 2 ^ l ≤ i := Nat.ge_two_pow_of_testBit hb
      have h1 : (bitsOf (l + 1) i (Fin.last l) : Nat) = 1 := by simp [bitsOf, hb]
      have h2 : (Fin.init (bitsOf (l + 1) i) : Fin l → Fin 2) = bitsOf l (i - 2 ^ l) := by
        funext q
        simp only [Fin.init, bitsOf, Fin.val_castSucc]
        have : i.testBit q = (i - 2 ^ l).testBit q := by
          conv_lhs => rw [show i = 2 ^ l + (i - 2 ^ l) by omega]
          rw [Nat.testBit_two_pow_add_gt q.isLt]
        simp only [this]
      rw [h1, h2, ih (by rw [pow_succ] at h; omega)]
      omega
    · have hlt : i < 2 ^ l := by
        by_contra hge
        apply hb
        rw [Nat.testBit_eq_decide_div_mod_eq]
        have : i / 2 ^ l = 1 := by
          rw [Nat.div_eq_iff (by positivity)]
          rw [pow_succ] at h
          omega
        rw [this]; rfl
      have h1 : (bitsOf (l + 1) i (Fin.last l) : Nat) = 0 := by simp [bitsOf, hb]
      have h2 : (Fin.init (bitsOf (l + 1) i) : Fin l → Fin 2) = bitsOf l i := rfl
      rw [h1, h2, ih hlt]; omega

theorem bitIdx_inj {l : Nat} {d d' : Fin l → Fin 2} (h : bitIdx d = bitIdx d') : d = d' := by
  induction l with
  | zero => funext q; exact q.elim0
  | succ l ih =>
    rw [bitIdx_snoc, bitIdx_snoc] at h
    have h1 := bitIdx_lt (Fin.init d)
    have h2 := bitIdx_lt (Fin.init d')
    have h3 : d (Fin.last l) = d' (Fin.last l) := by
      have a : (d (Fin.last l) : Nat) = 0 ∨ (d (Fin.last l) : Nat) = 1 := by omega
      have b : (d' (Fin.last l) : Nat) = 0 ∨ (d' (Fin.last l) : Nat) = 1 := by omega
      apply Fin.ext
      rcases a with a | a <;> rcases b with b | b <;> rw [a, b] at h ⊢ <;> omega
    rw [h3] at h
    have h4 := ih (by omega : bitIdx (Fin.init d) = bitIdx (Fin.init d'))
    rw [← Fin.snoc_init_self d, ← Fin.snoc_init_self d', h3, h4]

theorem bitsOf_bitIdx {l : Nat} (d : Fin l → Fin 2) : bitsOf l (bitIdx d) = d :=
  bitIdx_inj (bitIdx_bitsOf (bitIdx_lt d))

variable {R : Type} [Field R] [LinearOrder R] [IsStrictOrderedRing R] [HasSqrt R] [LawfulSqrt R]

/-- If the weights are in normal form the new edge has weight one. -/
theorem makeDDNode_weight {P : PCfg R} {k : Kind} {s : Pkg R} {v : Nat} {es : Fin (ar k) → PEdge R} {cached : Bool}
    (h : IsNorm k (fun i => (es i).w)) : (Pkg.makeDDNode P k s v es cached).2.w = 1 := by
  unfold Pkg.makeDDNode Pkg.makeNodeWith
  dsimp only
  cases hn : Pkg.norm k cached es with
  | none =>
    rw [norm_none] at hn
    obtain ⟨i, hi⟩ := h.ne_zero
    exact absurd (hn i) hi
  | some we =>
    obtain ⟨w, es'⟩ := we
    have hns := norm_spec hn
    dsimp only
    have h2 : IsNorm k (fun i => w * (es' i).w) := by
      have : (fun i => w * (es' i).w) = fun i => (es i).w := by funext i; exact hns.value i
      rw [this]; exact h
    exact hns.norm.unique h2

omit [IsStrictOrderedRing R] in
theorem sqrt12_pos [IsStrictOrderedRing R] : 0 < (Pkg.sqrt12 : R) := sqrt_pos (by positivity)

omit [IsStrictOrderedRing R] in
theorem sqrt12_sq [IsStrictOrderedRing R] : (Pkg.sqrt12 : R) * Pkg.sqrt12 = 1 / 2 :=
  LawfulSqrt.mul_self _ (by positivity)

theorem basisAmp_norm (b : Basis) : IsNormV (basisAmp b : Fin 2 → Cx R) := by
  have h1 := sqrt12_pos (R := R)
  have h2 := sqrt12_sq (R := R)
  have half : (1 / 2 : R) + 1 / 2 = 1 := by norm_num
  cases b
  · exact Or.inr (Or.inl ⟨rfl, rfl⟩)
  · exact Or.inl ⟨rfl, rfl⟩
  all_goals
    refine Or.inr (Or.inr ⟨?_, ?_, ?_, Or.inl ⟨?_, ?_, ?_⟩⟩)
    · intro h; have := congrArg Cx.re h; simp [basisAmp] at this; rw [this] at h1; exact lt_irrefl _ h1
    · intro h
      have ha := congrArg Cx.re h; have hb := congrArg Cx.im h
      simp [basisAmp] at ha hb
      first
      | (rw [ha] at h1; exact lt_irrefl _ h1)
      | (rw [hb] at h1; exact lt_irrefl _ h1)
    · simp only [basisAmp, Cx.mag2, Matrix.cons_val_zero, Matrix.cons_val_one]
      nlinarith [h2]
    · simp only [basisAmp, Cx.mag2, Matrix.cons_val_zero, Matrix.cons_val_one]
      nlinarith [h2]
    · rfl
    · exact h1

/-- The edges `basisStep` passes to `makeDDNode`. -/
theorem basisStep_eq (P : PCfg R) (b : Basis) (p : Nat) (s : Pkg R) (f : PEdge R) (hf : f.w = 1) :
    Pkg.basisStep P b p s f = Pkg.makeDDNode P .v s p
      (fun i : Fin 2 => if basisAmp b i = (0 : Cx R) then zeroE else ⟨f.p, basisAmp b i⟩) false := by
  have h1 := sqrt12_pos (R := R)
  obtain ⟨fp, fw⟩ := f
  dsimp only at hf; subst hf
  have n1 : (⟨Pkg.sqrt12, 0⟩ : Cx R) ≠ 0 := fun h => by
    have := congrArg Cx.re h; simp at this; rw [this] at h1; exact lt_irrefl _ h1
  have n2 : (⟨-Pkg.sqrt12, 0⟩ : Cx R) ≠ 0 := fun h => by
    have := congrArg Cx.re h; simp at this; rw [this] at h1; exact lt_irrefl _ h1
  have n3 : (⟨0, Pkg.sqrt12⟩ : Cx R) ≠ 0 := fun h => by
    have := congrArg Cx.im h; simp at this; rw [this] at h1; exact lt_irrefl _ h1
  have n4 : (⟨0, -Pkg.sqrt12⟩ : Cx R) ≠ 0 := fun h => by
    have := congrArg Cx.im h; simp at this; rw [this] at h1; exact lt_irrefl _ h1
  cases b <;> unfold Pkg.basisStep <;> dsimp only <;> congr 1 <;> funext i <;> fin_cases i <;>
    simp [basisAmp, n1, n2, n3, n4]

/-- A loop of `makeBasisState`. -/
theorem basisLoop_spec {P : PCfg R} (hC : 0 < P.C.growth) (st : Nat → Basis) : ∀ (n : Nat) (s : Pkg R), PWF P s ∅ →
    n ≤ (s.ut .v).nvars →
    OpSpec P ∅ s .v n (fun d => ∏ i : Fin n, basisAmp (st i) (d i)) (Pkg.basisLoop P st n s) ∧ (Pkg.basisLoop P st n s).2.w = 1 := by
  intro n
  induction n with
  | zero => intro s h _; exact ⟨.pure h (valid_term _ _) (fun d => by simp; rfl), rfl⟩
  | succ n ih =>
    intro s h hn
    obtain ⟨h1, h2⟩ := ih s h (by omega)
    unfold Pkg.basisLoop
    dsimp only
    generalize Pkg.basisLoop P st n s = r at h1 h2
    rw [basisStep_eq P _ _ _ _ h2]
    have hv : ∀ i : Fin 2, HasVal r.1 .v n (if basisAmp (st n) i = (0 : Cx R) then zeroE else ⟨r.2.p, basisAmp (st n) i⟩)
        (fun d => (∏ j : Fin n, basisAmp (st j) (d j)) * basisAmp (st n) i) := by
      intro i
      by_cases hz : basisAmp (st n) i = (0 : Cx R)
      · rw [if_pos hz, hz]; simp only [mul_zero]; exact hasVal_zero _ _ _
      · rw [if_neg hz]
        refine ⟨h1.valid.reweight (by rw [h2]; exact one_ne_zero) hz, fun d => ?_⟩
        rw [amp_eq_smul, mul_comm]
        congr 1
        rw [← h1.val d, amp_eq_smul _ _ r.2, h2, one_mul]
    have h3 := node_spec (k := .v) hC false h1.wf (by rw [(h1.ext .v).nvars]; omega) hv
    refine ⟨⟨h3.wf, h1.ext.trans h3.ext, h3.valid, fun d => ?_⟩, ?_⟩
    · rw [h3.val d, Fin.prod_univ_castSucc]; rfl
    · apply makeDDNode_weight
      have : (fun i : Fin 2 => (if basisAmp (st n) i = (0 : Cx R) then zeroE else (⟨r.2.p, basisAmp (st n) i⟩ : PEdge R)).w)
          = basisAmp (st n) := by
        funext i
        by_cases hz : basisAmp (st n) i = (0 : Cx R)
        · rw [if_pos hz, hz]; rfl
        · rw [if_neg hz]
      have h5 : IsNormV (R := R) (basisAmp (st n)) := basisAmp_norm _
      rw [← this] at h5
      exact h5

/-- `makeStateFromVector`, recursive part. -/
theorem stateF_spec {P : PCfg R} (hC : 0 < P.C.growth) : ∀ (l : Nat) (s : Pkg R) (xs : List (Cx R)), PWF P s ∅ →
    xs.length = 2 ^ (l + 1) → l + 1 ≤ (s.ut .v).nvars →
    OpSpec P ∅ s .v (l + 1) (fun d => xs.getD (bitIdx d) 0) (Pkg.stateF P l s xs) := by
  intro l
  induction l with
  | zero =>
    intro s xs h hl hn
    unfold Pkg.stateF
    refine (node_spec (k := .v) hC true h (by omega)
      (f := fun i _ => xs.getD i 0) ?_).congr (fun d => ?_)
    · intro i
      refine ⟨?_, fun d => ?_⟩
      · change Fin 2 at i; fin_cases i <;> exact valid_term _ _
      · change Fin 2 at i; fin_cases i <;> rfl
    · rw [bitIdx_snoc]; simp [bitIdx]
  | succ l ih =>
    intro s xs h hl hn
    unfold Pkg.stateF
    have hhalf : xs.length / 2 = 2 ^ (l + 1) := by rw [hl, pow_succ]; simp
    dsimp only
    rw [hhalf]
    have h0 := ih s (xs.take (2 ^ (l + 1))) h (by rw [List.length_take, hl, pow_succ 2 (l + 1)]; omega) (by omega)
    generalize Pkg.stateF P l s (xs.take (2 ^ (l + 1))) = r0 at h0
    have h1 := ih r0.1 (xs.drop (2 ^ (l + 1))) h0.wf (by rw [List.length_drop, hl, pow_succ 2 (l + 1)]; omega)
      (by rw [(h0.ext .v).nvars]; omega)
    generalize Pkg.stateF P l r0.1 (xs.drop (2 ^ (l + 1))) = r1 at h1
    have h0' := h0.hasVal.ext h0.wf h1.ext
    have h2 := node_spec (k := .v) hC true h1.wf (v := l + 1) (by rw [(h1.ext .v).nvars, (h0.ext .v).nvars]; omega)
      (es := ![r0.2, r1.2])
      (f := fun i d => xs.getD (bitIdx (l := l + 1) d + (i : Nat) * 2 ^ (l + 1)) 0) (by
        intro i
        change Fin 2 at i
        fin_cases i
        · refine h0'.congr (fun d => ?_)
          have := bitIdx_lt (l := l + 1) d
          simp only [List.getD_eq_getElem?_getD, List.getElem?_take]
          rw [if_pos this]; simp
        · refine h1.hasVal.congr (fun d => ?_)
          simp only [List.getD_eq_getElem?_getD, List.getElem?_drop]
          simp [Nat.add_comm])
    refine ⟨h2.wf, h0.ext.trans (h1.ext.trans h2.ext), h2.valid, fun d => ?_⟩
    rw [h2.val d]
    exact congrArg (fun i => xs.getD i 0) (bitIdx_snoc (l := l + 1) d).symm

/-- Row and column bits of a string of successor positions. -/
def rowD {l : Nat} (d : Fin l → Fin 4) : Fin l → Fin 2 := fun i => Pkg.hi2 (d i)
def colD {l : Nat} (d : Fin l → Fin 4) : Fin l → Fin 2 := fun i => Pkg.lo2 (d i)

/-- `makeDDFromMatrix`, recursive part. -/
theorem matrixF_spec {P : PCfg R} (hC : 0 < P.C.growth) (M : List (List (Cx R))) : ∀ (l : Nat) (s : Pkg R) (r c : Nat),
    PWF P s ∅ → l ≤ (s.ut .m).nvars →
    OpSpec P ∅ s .m l (fun d => (M.getD (r + bitIdx (rowD d)) []).getD (c + bitIdx (colD d)) 0)
      (Pkg.matrixF P M l s r (r + 2 ^ l) c (c + 2 ^ l)) := by
  intro l
  induction l with
  | zero =>
    intro s r c h _
    unfold Pkg.matrixF
    exact .pure h (valid_term _ _) (fun d => by simp [bitIdx]; rfl)
  | succ l ih =>
    intro s r c h hn
    unfold Pkg.matrixF
    have m1 : (r + (r + 2 ^ (l + 1))) / 2 = r + 2 ^ l := by rw [pow_succ]; omega
    have m2 : (c + (c + 2 ^ (l + 1))) / 2 = c + 2 ^ l := by rw [pow_succ]; omega
    have m3 : r + 2 ^ (l + 1) = r + 2 ^ l + 2 ^ l := by rw [pow_succ]; omega
    have m4 : c + 2 ^ (l + 1) = c + 2 ^ l + 2 ^ l := by rw [pow_succ]; omega
    dsimp only
    rw [m1, m2, m3, m4]
    have h0 := ih s r c h (by omega)
    generalize Pkg.matrixF P M l s r (r + 2 ^ l) c (c + 2 ^ l) = e0 at h0
    have h1 := ih e0.1 r (c + 2 ^ l) h0.wf (by rw [(h0.ext .m).nvars]; omega)
    generalize Pkg.matrixF P M l e0.1 r (r + 2 ^ l) (c + 2 ^ l) (c + 2 ^ l + 2 ^ l) = e1 at h1
    have x1 := h0.ext.trans h1.ext
    have h2 := ih e1.1 (r + 2 ^ l) c h1.wf (by rw [(x1 .m).nvars]; omega)
    generalize Pkg.matrixF P M l e1.1 (r + 2 ^ l) (r + 2 ^ l + 2 ^ l) c (c + 2 ^ l) = e2 at h2
    have x2 := x1.trans h2.ext
    have h3 := ih e2.1 (r + 2 ^ l) (c + 2 ^ l) h2.wf (by rw [(x2 .m).nvars]; omega)
    generalize Pkg.matrixF P M l e2.1 (r + 2 ^ l) (r + 2 ^ l + 2 ^ l) (c + 2 ^ l) (c + 2 ^ l + 2 ^ l) = e3 at h3
    have x3 := x2.trans h3.ext
    have h4 := node_spec (k := .m) hC true h3.wf (v := l) (by rw [(x3 .m).nvars]; omega)
      (hasVal4 (h0.hasVal.ext h0.wf (h1.ext.trans (h2.ext.trans h3.ext)))
        (h1.hasVal.ext h1.wf (h2.ext.trans h3.ext)) (h2.hasVal.ext h2.wf h3.ext) h3.hasVal)
    refine ⟨h4.wf, x3.trans h4.ext, h4.valid, fun d => ?_⟩
    rw [h4.val d]
    have b1 : bitIdx (rowD d) = bitIdx (rowD (Fin.init d)) + (Pkg.hi2 (d (Fin.last l)) : Nat) * 2 ^ l := bitIdx_snoc _
    have b2 : bitIdx (colD d) = bitIdx (colD (Fin.init d)) + (Pkg.lo2 (d (Fin.last l)) : Nat) * 2 ^ l := bitIdx_snoc _
    rw [b1, b2]
    generalize (Fin.init d : Fin l → Fin 4) = d'
    generalize d (Fin.last l) = x
    change Fin 4 at x
    fin_cases x <;> simp [Pkg.hi2, Pkg.lo2, Nat.add_assoc, Nat.add_comm (2 ^ l)]

end DD
