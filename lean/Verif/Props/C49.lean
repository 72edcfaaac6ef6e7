import Verif.Model.Export
import Verif.Proofs.RealEx

/-!
# C49: output of amplitudes

Specification: entry `i` of the output belongs to the basis state whose bit `q` is bit `q` of `i`, that is, to the bit
string `d` with `bitIdx d = i`.
-/

namespace DD

variable {R : Type} [Field R]

theorem fill_apply (idx n : Nat) (x : Cx R) (arr : Nat → Cx R) (j : Nat) :
    Pkg.fill idx n x arr j = if idx ≤ j ∧ j < idx + n then x else arr j := by
  unfold Pkg.fill
  induction n with
  | zero => simp
  | succ n ih =>
    rw [List.range_succ, List.foldl_append]
    simp only [List.foldl_cons, List.foldl_nil, Function.update_apply]
    rw [ih]
    by_cases hj : j = idx + n
    · rw [if_pos hj, if_pos (by omega)]
    · rw [if_neg hj]
      have : (idx ≤ j ∧ j < idx + n) ↔ (idx ≤ j ∧ j < idx + (n + 1)) := by omega
      simp only [this]

theorem addFill_apply (idx n : Nat) (x : Cx R) (arr : Nat → Cx R) (j : Nat) :
    Pkg.addFill idx n x arr j = if idx ≤ j ∧ j < idx + n then arr j + x else arr j := by
  unfold Pkg.addFill
  induction n generalizing j with
  | zero => simp
  | succ n ih =>
    rw [List.range_succ, List.foldl_append]
    simp only [List.foldl_cons, List.foldl_nil, Function.update_apply]
    rw [ih, ih]
    by_cases hj : j = idx + n
    · subst hj
      rw [if_pos rfl, if_neg (by omega), if_pos (by omega), add_comm]
    · rw [if_neg hj]
      have : (idx ≤ j ∧ j < idx + n) ↔ (idx ≤ j ∧ j < idx + (n + 1)) := by omega
      simp only [this]

theorem block_iff (idx l j : Nat) : (idx <<< l ≤ j ∧ j < idx <<< l + 2 ^ l) ↔ j / 2 ^ l = idx := by
  rw [Nat.shiftLeft_eq, Nat.div_eq_iff (Nat.two_pow_pos l)]
  have := Nat.two_pow_pos l
  omega

theorem shift_or_one (i : Nat) : i <<< 1 ||| 1 = 2 * i + 1 := by
  have := or_pow (b := i) (l := 0)
  rw [Nat.shiftLeft_eq]
  simpa [mul_comm] using this

/-- The digits of a number split into the highest one and the others. -/
theorem bitsOf_succ (l j : Nat) : bitsOf (l + 1) j = Fin.snoc (bitsOf l j) (if j.testBit l then 1 else 0) := by
  funext q
  refine Fin.lastCases ?_ (fun q => ?_) q
  · simp [bitsOf]
  · simp [bitsOf]

theorem bitsOf_mod (l j m : Nat) (h : l ≤ m) : bitsOf l (j % 2 ^ m) = bitsOf l j := by
  funext q
  unfold bitsOf
  rw [Nat.testBit_mod_two_pow]
  have := q.isLt
  simp [show (q : Nat) < m by omega]

variable {t : UTable (Cx R) 2}

/-- A node's two halves. -/
theorem amp_bits {l : Nat} {e : PEdge R} {a : Nat} (hp : e.p = some a) (j : Nat) :
    amp t (l + 1) e (bitsOf (l + 1) j) = e.w * amp t l ((t.mem a).e (if j.testBit l then 1 else 0)) (bitsOf l j) := by
  rw [bitsOf_succ, amp_snoc hp]

theorem exportStreamF_spec (hc : Children t) : ∀ (l : Nat) (e : PEdge R) (c : Cx R), Valid t l e →
    Pkg.exportStreamF t l e c = (List.range (2 ^ l)).map fun i => c * amp t l e (bitsOf l i) := by
  intro l
  induction l with
  | zero => intro e c _; simp [Pkg.exportStreamF, amp_zero]
  | succ l ih =>
    intro e c hv
    unfold Pkg.exportStreamF
    cases hp : e.p with
    | none =>
      dsimp only
      have hw : e.w = 0 := ((valid_none hp).1 hv).resolve_left (by omega)
      rw [hw, mul_zero]
      apply List.ext_getElem (by simp)
      intro i h1 h2
      simp [amp_w_zero hw]
    | some a =>
      dsimp only
      obtain ⟨v1, v2, v3⟩ := (valid_some hp).1 hv
      have hch : ∀ q, Valid t l ((t.mem a).e q) := fun q => by
        have := hc a v1 q; rwa [show (t.mem a).v = l by omega] at this
      rw [ih _ _ (hch 0), ih _ _ (hch 1), pow_succ, mul_two, List.range_add, List.map_append, List.map_map]
      congr 1
      · apply List.map_congr_left
        intro i hi
        rw [List.mem_range] at hi
        rw [amp_bits hp, Nat.testBit_lt_two_pow hi]
        simp [mul_assoc]
      · apply List.map_congr_left
        intro i hi
        rw [List.mem_range] at hi
        simp only [Function.comp]
        rw [amp_bits hp, Nat.testBit_two_pow_add_eq, Nat.testBit_lt_two_pow hi,
          ← bitsOf_mod l (2 ^ l + i) l le_rfl, Nat.add_mod_left, bitsOf_mod l i l le_rfl]
        simp [mul_assoc]

theorem div_block {l j idx : Nat} : (j / 2 ^ l = 2 * idx ↔ j / 2 ^ (l + 1) = idx ∧ j.testBit l = false) ∧
    (j / 2 ^ l = 2 * idx + 1 ↔ j / 2 ^ (l + 1) = idx ∧ j.testBit l = true) := by
  rw [pow_succ, ← Nat.div_div_eq_div_mul, Nat.testBit_eq_decide_div_mod_eq]
  simp
  omega

theorem exportArrayF_spec (hc : Children t) : ∀ (l : Nat) (e : PEdge R) (c : Cx R) (idx : Nat) (arr : Nat → Cx R),
    Valid t l e → ∀ j, Pkg.exportArrayF t l e c idx arr j =
      if j / 2 ^ l = idx then c * amp t l e (bitsOf l j) else arr j := by
  intro l
  induction l with
  | zero =>
    intro e c idx arr _ j
    unfold Pkg.exportArrayF
    rw [fill_apply]
    simp only [block_iff]
    rw [amp_zero]
  | succ l ih =>
    intro e c idx arr hv j
    unfold Pkg.exportArrayF
    cases hp : e.p with
    | none =>
      dsimp only
      have hw : e.w = 0 := ((valid_none hp).1 hv).resolve_left (by omega)
      rw [fill_apply]
      simp only [block_iff]
      rw [hw, amp_w_zero hw]
    | some a =>
      dsimp only
      obtain ⟨v1, v2, v3⟩ := (valid_some hp).1 hv
      have hch : ∀ q, Valid t l ((t.mem a).e q) := fun q => by
        have := hc a v1 q; rwa [show (t.mem a).v = l by omega] at this
      rw [ih _ _ _ _ (hch 1), ih _ _ _ _ (hch 0), shift_or_one, amp_bits hp]
      rw [show idx <<< 1 = 2 * idx by rw [Nat.shiftLeft_eq]; ring]
      simp only [div_block.1, div_block.2]
      by_cases h1 : j / 2 ^ (l + 1) = idx <;> cases h2 : j.testBit l <;> simp [h1, mul_assoc]

theorem addAmplitudesF_spec (hc : Children t) : ∀ (l : Nat) (e : PEdge R) (c : Cx R) (idx : Nat) (arr : Nat → Cx R),
    Valid t l e → ∀ j, Pkg.addAmplitudesF t l e c idx arr j =
      if j / 2 ^ l = idx then arr j + c * amp t l e (bitsOf l j) else arr j := by
  have hmul : ∀ (e : PEdge R) (c : Cx R),
      (⟨e.w.re * c.re - e.w.im * c.im, e.w.re * c.im + e.w.im * c.re⟩ : Cx R) = c * e.w := by
    intro e c
    ext <;> simp <;> ring
  intro l
  induction l with
  | zero =>
    intro e c idx arr _ j
    unfold Pkg.addAmplitudesF
    rw [addFill_apply]
    simp only [block_iff]
    rw [amp_zero, hmul]
  | succ l ih =>
    intro e c idx arr hv j
    unfold Pkg.addAmplitudesF
    cases hp : e.p with
    | none =>
      dsimp only
      have hw : e.w = 0 := ((valid_none hp).1 hv).resolve_left (by omega)
      rw [addFill_apply]
      simp only [block_iff]
      rw [hmul, hw, amp_w_zero hw]
    | some a =>
      dsimp only
      obtain ⟨v1, v2, v3⟩ := (valid_some hp).1 hv
      have hch : ∀ q, Valid t l ((t.mem a).e q) := fun q => by
        have := hc a v1 q; rwa [show (t.mem a).v = l by omega] at this
      rw [ih _ _ _ _ (hch 1), ih _ _ _ _ (hch 0), shift_or_one, amp_bits hp]
      rw [show idx <<< 1 = 2 * idx by rw [Nat.shiftLeft_eq]; ring]
      simp only [div_block.1, div_block.2, hmul]
      by_cases h1 : j / 2 ^ (l + 1) = idx <;> cases h2 : j.testBit l <;> simp [h1, mul_assoc]

variable [LinearOrder R] [IsStrictOrderedRing R] [HasSqrt R] [LawfulSqrt R] {P : PCfg R} {h : PHist R}

/-- `exportAmplitudes` writes `2 ^ l` numbers, and the number at position `i` is the amplitude of the basis state with
index `i`. -/
theorem C49_stream (hC : P.C.Good) (hr : PReach P h) {l : Nat} {x : PEdge R} (hx : Valid (h.pkg.ut .v) l x)
    (hl : 0 < l) (hw : x.w ≠ 0) :
    (Pkg.exportStream (h.pkg.ut .v) x l).length = 2 ^ l ∧
      ∀ d : Fin l → Fin 2, (Pkg.exportStream (h.pkg.ut .v) x l)[bitIdx d]? = some (vec (h.pkg.ut .v) l x d) := by
  obtain ⟨k, rfl⟩ : ∃ k, l = k + 1 := ⟨l - 1, by omega⟩
  obtain ⟨a, hp, -, -⟩ := hx.exists_node hw
  unfold Pkg.exportStream
  rw [hp]
  dsimp only
  rw [exportStreamF_spec ((hr.inv hC).wf.tab .v).child _ _ _ hx]
  refine ⟨by simp, fun d => ?_⟩
  rw [List.getElem?_map, List.getElem?_range (bitIdx_lt d)]
  simp [bitsOf_bitIdx, vec]

/-- `exportAmplitudes` to an array writes the amplitude of the basis state with index `i` to position `i` for all `i` below
`2 ^ l`, and nothing to other positions. -/
theorem C49_array (hC : P.C.Good) (hr : PReach P h) {l : Nat} {x : PEdge R} (hx : Valid (h.pkg.ut .v) l x)
    (hl : 0 < l) (hw : x.w ≠ 0) (arr : Nat → Cx R) :
    (∀ d : Fin l → Fin 2, Pkg.exportArray (h.pkg.ut .v) x l arr (bitIdx d) = vec (h.pkg.ut .v) l x d) ∧
      ∀ i ≥ 2 ^ l, Pkg.exportArray (h.pkg.ut .v) x l arr i = arr i := by
  obtain ⟨k, rfl⟩ : ∃ k, l = k + 1 := ⟨l - 1, by omega⟩
  obtain ⟨a, hp, -, -⟩ := hx.exists_node hw
  unfold Pkg.exportArray
  rw [hp]
  dsimp only
  refine ⟨fun d => ?_, fun i hi => ?_⟩
  · rw [exportArrayF_spec ((hr.inv hC).wf.tab .v).child _ _ _ _ _ hx, if_pos (Nat.div_eq_of_lt (bitIdx_lt d)),
      bitsOf_bitIdx, one_mul]; rfl
  · rw [exportArrayF_spec ((hr.inv hC).wf.tab .v).child _ _ _ _ _ hx, if_neg]
    have := Nat.div_pos hi (Nat.two_pow_pos (k + 1))
    omega

/-- `addAmplitudes` adds the represented vector to the first `2 ^ l` entries of the array and leaves the other ones alone;
for the zero vector as well. -/
theorem C49_add (hC : P.C.Good) (hr : PReach P h) {l : Nat} {x : PEdge R} (hx : Valid (h.pkg.ut .v) l x)
    (hl : 0 < l) (arr : Nat → Cx R) :
    (∀ d : Fin l → Fin 2, Pkg.addAmplitudes (h.pkg.ut .v) x l arr (bitIdx d) = arr (bitIdx d) + vec (h.pkg.ut .v) l x d) ∧
      ∀ i ≥ 2 ^ l, Pkg.addAmplitudes (h.pkg.ut .v) x l arr i = arr i := by
  unfold Pkg.addAmplitudes
  cases hp : x.p with
  | none =>
    have hw : x.w = 0 := ((valid_none hp).1 hx).resolve_left (by omega)
    exact ⟨fun d => by unfold vec; rw [amp_w_zero hw, add_zero], fun _ _ => rfl⟩
  | some a =>
    dsimp only
    refine ⟨fun d => ?_, fun i hi => ?_⟩
    · rw [addAmplitudesF_spec ((hr.inv hC).wf.tab .v).child _ _ _ _ _ hx, if_pos (Nat.div_eq_of_lt (bitIdx_lt d)),
        bitsOf_bitIdx, one_mul]; rfl
    · rw [addAmplitudesF_spec ((hr.inv hC).wf.tab .v).child _ _ _ _ _ hx, if_neg]
      have := Nat.div_pos hi (Nat.two_pow_pos l)
      omega

omit [LinearOrder R] [IsStrictOrderedRing R] [HasSqrt R] [LawfulSqrt R] in
/-- Nothing is written for the zero vector and for scalars (a "TODO" in the source). -/
theorem C49_terminal {t : UTable (Cx R) 2} {x : PEdge R} (hp : x.p = none) (l : Nat) (arr : Nat → Cx R) :
    Pkg.exportStream t x l = [] ∧ Pkg.exportArray t x l arr = arr ∧ Pkg.addAmplitudes t x l arr = arr := by
  unfold Pkg.exportStream Pkg.exportArray Pkg.addAmplitudes
  rw [hp]
  exact ⟨rfl, rfl, rfl⟩

end DD

namespace DD.Ex

/-- The hypotheses are met. -/
example : ∃ (h : PHist ℝ) (x : PEdge ℝ), PReach (PR ℝ) h ∧ Valid (h.pkg.ut .v) 3 x ∧ x.w ≠ 0 ∧
    vec (h.pkg.ut .v) 3 x = fun d => basisAmp .plus (d 0) * basisAmp .one (d 1) * basisAmp .left (d 2) := by
  obtain ⟨h, x, y, A, B, hr, hn, vx, vy, vA, vB, hx, hA, ax, ay, aA, aB, wx, wy, wA, wB⟩ := setup (R := ℝ)
  exact ⟨h, x, hr, vx, wx, ax⟩

end DD.Ex
