import Verif.Props.C48
import Verif.Props.C54

/-!
# C56: probabilities read from a density matrix
-/

namespace DD

variable {α R : Type} [DecidableEq α] [Field R] [LinearOrder R]

/-- The weights on paths along the diagonal satisfy `Q`. -/
def DiagN (nv : α → R) (m : DMem α) (Q : Cx R → Prop) : Nat → Nat → Prop
  | 0, _ => True
  | l + 1, a => ∀ k, k = 0 ∨ k = 3 → Q (((m a).e k).w.val nv) ∧
    (((m a).e k).w.val nv ≠ 0 → DiagN nv m Q l ((m a).e k).p.addr)

/-- The bit string in which character `j` is the value of qubit `j`. -/
def qubitString {n : Nat} (d : Fin n → Fin 2) : List Char := (List.ofFn d).map fun b => if b = 1 then '1' else '0'

/-- The bits of `c` in reverse order. -/
def revBits (n c : Nat) : Fin n → Fin 2 := fun i => if c.testBit (n - 1 - i) then 1 else 0

theorem revBits_init (n c : Nat) : (Fin.init (revBits (n + 1) c) : Fin n → Fin 2) = revBits n (c >>> 1) := by
  funext i
  simp only [Fin.init, revBits, Fin.val_castSucc, Nat.testBit_shiftRight]
  have : n + 1 - 1 - (i : Nat) = 1 + (n - 1 - i) := by have := i.isLt; omega
  simp only [this]

theorem revBits_last (n c : Nat) : revBits (n + 1) c (Fin.last n) = if c % 2 = 0 then 0 else 1 := by
  simp only [revBits, Fin.val_last]
  simp only [show n + 1 - 1 - n = 0 by omega, Nat.testBit_zero]
  rcases Nat.mod_two_eq_zero_or_one c with h | h <;> simp [h]

theorem intToString_rev (n c : Nat) : intToString c '1' n = qubitString (revBits n c) := by
  apply List.ext_getElem?
  intro j
  unfold qubitString
  by_cases hj : j < n
  · rw [(C54_bits c '1' n).2 j hj]
    simp only [List.getElem?_map, List.getElem?_ofFn, hj, dif_pos, Option.map_some, revBits]
    split_ifs <;> first | rfl | simp_all
  · rw [List.getElem?_eq_none (by rw [(C54_bits _ _ _).1]; omega), List.getElem?_eq_none (by simp; omega)]

/-- Every assignment is the reversal of a number. -/
theorem revBits_surj {n : Nat} (d : Fin n → Fin 2) : ∃ c < 2 ^ n, revBits n c = d := by
  refine ⟨bitIdx (fun i => d i.rev), bitIdx_lt _, ?_⟩
  funext i
  have := congrFun (bitsOf_bitIdx fun i => d i.rev) i.rev
  simp only [Fin.rev_rev] at this
  rw [← this]
  simp only [revBits, bitsOf, Fin.val_rev]
  rw [show n - 1 - (i : Nat) = n - (i + 1) by omega]

omit [DecidableEq α] [LinearOrder R] in
theorem val_re (nv : α → R) (c : CNum α) : (c.val nv).re = c.r.val nv := rfl

variable [IsStrictOrderedRing R]

omit [DecidableEq α] in
theorem probLoop_zero (nv : α → R) (m : DMem α) (thr : R) : ∀ k a c, DMem.probLoop nv m thr k a 0 c = 0 := by
  intro k
  induction k with
  | zero => intros; rfl
  | succ k ih =>
    intro a c
    unfold DMem.probLoop
    split_ifs
    · rfl
    · dsimp only; rw [zero_mul, ih]
    · dsimp only; rw [zero_mul, ih]

omit [DecidableEq α] in
theorem densN_diag (nv : α → R) (m : DMem α) (k a c : Nat) :
    densN nv m (k + 1) a (revBits (k + 1) c) (revBits (k + 1) c) =
      if c % 2 = 0 then ((m a).e 0).w.val nv * densN nv m k ((m a).e 0).p.addr (revBits k (c >>> 1)) (revBits k (c >>> 1))
      else ((m a).e 3).w.val nv * densN nv m k ((m a).e 3).p.addr (revBits k (c >>> 1)) (revBits k (c >>> 1)) := by
  simp only [densN, revBits_last, revBits_init]
  split_ifs <;> first | rfl | simp_all

omit [DecidableEq α] in
theorem probLoop_pos {nv : α → R} {m : DMem α} {thr : R} : ∀ (k a : Nat) (g : R) (c : Nat), DiagN nv m (fun w => w.im = 0) k a →
    0 < DMem.probLoop nv m thr k a g c →
    DMem.probLoop nv m thr k a g c = g * (densN nv m k a (revBits k c) (revBits k c)).re := by
  intro k
  induction k with
  | zero => intro a g c _ _; simp [DMem.probLoop, densN]
  | succ k ih =>
    intro a g c hd h
    rw [densN_diag]
    have step : ∀ i : Fin 4, i = 0 ∨ i = 3 → (0 : R) < DMem.probLoop nv m thr k ((m a).e i).p.addr (g * ((m a).e i).w.r.val nv) (c >>> 1) →
        DMem.probLoop nv m thr k ((m a).e i).p.addr (g * ((m a).e i).w.r.val nv) (c >>> 1) =
          g * (((m a).e i).w.val nv * densN nv m k ((m a).e i).p.addr (revBits k (c >>> 1)) (revBits k (c >>> 1))).re := by
      intro i hi h
      obtain ⟨h1, h2⟩ := hd i hi
      have hw : ((m a).e i).w.val nv ≠ 0 := by
        intro h0
        have : ((m a).e i).w.r.val nv = 0 := by rw [← val_re, h0]; rfl
        rw [this, mul_zero, probLoop_zero] at h
        exact lt_irrefl _ h
      rw [ih _ _ _ (h2 hw) h, Cx.mul_re, h1, zero_mul, sub_zero, val_re, mul_assoc]
    unfold DMem.probLoop at h ⊢
    by_cases h0 : (m a).v = -1 ∨ g ≤ thr
    · rw [if_pos h0] at h; exact absurd h (lt_irrefl _)
    · rw [if_neg h0] at h ⊢
      by_cases hc : c % 2 = 0
      · simp only [hc, if_true] at h ⊢
        exact step 0 (Or.inl rfl) h
      · simp only [hc, if_false] at h ⊢
        exact step 3 (Or.inr rfl) h

/-- Every entry listed is correct: the key is the bit string of a basis state, qubit 0 first, and the value is the corresponding entry on
the diagonal of the density matrix, which is positive. No key occurs twice. -/
theorem C56_sound {nv : α → R} {m : DMem α} {e : DEdge α} {l : Nat} (hv : (m e.p.addr).v = (l : Int)) (hw : (e.w.val nv).im = 0)
    (hd : DiagN nv m (fun w => w.im = 0) (l + 1) e.p.addr) (thr : R) :
    (∀ s g, (s, g) ∈ DMem.getProbVector nv m e thr → ∃ d : Fin (l + 1) → Fin 2, s = qubitString d ∧
      e.w.val nv * densN nv m (l + 1) e.p.addr d d = ⟨g, (e.w.val nv * densN nv m (l + 1) e.p.addr d d).im⟩ ∧ 0 < g) ∧
    ((DMem.getProbVector nv m e thr).map Prod.fst).Nodup := by
  unfold DMem.getProbVector
  dsimp only
  rw [show e.p.align.addr = e.p.addr from rfl, hv]
  simp only [Int.toNat_natCast]
  constructor
  · intro s g h
    rw [List.mem_filterMap] at h
    obtain ⟨k, _, hk⟩ := h
    split_ifs at hk with hpos
    simp only [Option.some.injEq, Prod.mk.injEq] at hk
    refine ⟨revBits (l + 1) k, by rw [← hk.1, intToString_rev], ?_, by rw [← hk.2]; exact hpos⟩
    rw [probLoop_pos _ _ _ _ hd hpos] at hk
    ext
    · rw [← hk.2, Cx.mul_re, hw, zero_mul, sub_zero, val_re]
    · rfl
  · have hl : ∀ (L : List Nat) (G : Nat → R) (S : Nat → List Char),
        (L.filterMap fun k => if 0 < G k then some (S k, G k) else none).map Prod.fst = (L.filter fun k => 0 < G k).map S := by
      intro L G S
      induction L with
      | nil => rfl
      | cons k L ih =>
        by_cases hk : 0 < G k
        · rw [List.filterMap_cons_some (by rw [if_pos hk]), List.filter_cons_of_pos (by simpa using hk), List.map_cons, List.map_cons, ih]
        · rw [List.filterMap_cons_none (by rw [if_neg hk]), List.filter_cons_of_neg (by simpa using hk), ih]
    rw [hl]
    refine List.Nodup.map_on ?_ (List.nodup_range.filter _)
    intro x hx y hy he
    rw [List.mem_filter, List.mem_range, Nat.shiftLeft_eq, mul_comm, ← pow_succ] at hx hy
    exact C54_injective (by decide) hx.1 hy.1 he

/-- Nothing above the threshold is missing: if the weights on the diagonal below the root are not negative, and at most 1 unless the threshold
is zero, every basis state whose diagonal entry exceeds the threshold is listed. -/
theorem C56_complete {z : α} {nv : α → R} {m : DMem α} (hq : m.Quiet z nv) {e : DEdge α} {l : Nat} (hv : (m e.p.addr).v = (l : Int))
    (hw : (e.w.val nv).im = 0) {thr : R} (ht : 0 ≤ thr) (hd : DiagN nv m (fun w => w.im = 0 ∧ 0 ≤ w.re ∧ (thr = 0 ∨ w.re ≤ 1)) (l + 1) e.p.addr)
    (d : Fin (l + 1) → Fin 2) (hdd : thr < (e.w.val nv * densN nv m (l + 1) e.p.addr d d).re) :
    (qubitString d, (e.w.val nv * densN nv m (l + 1) e.p.addr d d).re) ∈ DMem.getProbVector nv m e thr := by
  have loop : ∀ (k a : Nat) (g : R) (c : Nat), (m a).v = (k : Int) - 1 →
      DiagN nv m (fun w => w.im = 0 ∧ 0 ≤ w.re ∧ (thr = 0 ∨ w.re ≤ 1)) k a →
      0 ≤ (densN nv m k a (revBits k c) (revBits k c)).re ∧
      (thr = 0 ∨ (densN nv m k a (revBits k c) (revBits k c)).re ≤ 1) ∧
      (thr < g * (densN nv m k a (revBits k c) (revBits k c)).re →
      DMem.probLoop nv m thr k a g c = g * (densN nv m k a (revBits k c) (revBits k c)).re) := by
    intro k
    induction k with
    | zero =>
      intro a g c _ _
      simp [DMem.probLoop, densN]
    | succ k ih =>
      intro a g c hva hd
      have ha : a ≠ 0 := by rintro rfl; rw [hq.term] at hva; push_cast at hva; omega
      have hv1 : ¬ (m a).v = -1 := by push_cast at hva; omega
      rw [densN_diag]
      have step : ∀ i : Fin 4, i = 0 ∨ i = 3 →
          (0 : R) ≤ (((m a).e i).w.val nv * densN nv m k ((m a).e i).p.addr (revBits k (c >>> 1)) (revBits k (c >>> 1))).re ∧
          (thr = 0 ∨ (((m a).e i).w.val nv * densN nv m k ((m a).e i).p.addr (revBits k (c >>> 1)) (revBits k (c >>> 1))).re ≤ 1) ∧
          (thr < g * (((m a).e i).w.val nv * densN nv m k ((m a).e i).p.addr (revBits k (c >>> 1)) (revBits k (c >>> 1))).re →
            ¬ g ≤ thr ∧ DMem.probLoop nv m thr k ((m a).e i).p.addr (g * ((m a).e i).w.r.val nv) (c >>> 1) =
              g * (((m a).e i).w.val nv * densN nv m k ((m a).e i).p.addr (revBits k (c >>> 1)) (revBits k (c >>> 1))).re) := by
        intro i hi
        obtain ⟨⟨h1, h2, h3⟩, h4⟩ := hd i hi
        rw [Cx.mul_re, h1, zero_mul, sub_zero]
        by_cases hw0 : ((m a).e i).w.val nv = 0
        · have : (((m a).e i).w.val nv).re = 0 := by rw [hw0]; rfl
          rw [this]
          refine ⟨by simp, Or.inr (by simp), fun h => ?_⟩
          rw [zero_mul, mul_zero] at h
          exact absurd h (not_lt.2 ht)
        · have hlv : (m ((m a).e i).p.addr).v = (k : Int) - 1 := by
            have := hq.child a ha i hw0
            push_cast at hva; omega
          obtain ⟨i1, i2, i3⟩ := ih ((m a).e i).p.addr (g * ((m a).e i).w.r.val nv) (c >>> 1) hlv (h4 hw0)
          rw [← val_re] at i3 ⊢
          set w := (((m a).e i).w.val nv).re
          set D := (densN nv m k ((m a).e i).p.addr (revBits k (c >>> 1)) (revBits k (c >>> 1))).re
          have hwD : 0 ≤ w * D := mul_nonneg h2 i1
          refine ⟨hwD, ?_, fun h => ⟨?_, ?_⟩⟩
          · rcases h3 with h | h
            · exact Or.inl h
            · rcases i2 with h' | h'
              · exact Or.inl h'
              · exact Or.inr (mul_le_one₀ h i1 h')
          · intro hg
            rcases h3 with h0 | h0
            · rw [h0] at hg h
              exact absurd h (not_lt.2 (mul_nonpos_of_nonpos_of_nonneg hg hwD))
            · rcases i2 with h' | h'
              · rw [h'] at hg h
                exact absurd h (not_lt.2 (mul_nonpos_of_nonpos_of_nonneg hg hwD))
              · have hwD1 : w * D ≤ 1 := mul_le_one₀ h0 i1 h'
                have hg0 : 0 < g := by
                  by_contra hg0
                  exact absurd (lt_of_le_of_lt ht h) (not_lt.2 (mul_nonpos_of_nonpos_of_nonneg (not_lt.1 hg0) hwD))
                have : g * (w * D) ≤ g := mul_le_of_le_one_right hg0.le hwD1
                exact absurd (lt_of_lt_of_le h this) (not_lt.2 hg)
          · rw [i3 (by rw [mul_assoc]; exact h), mul_assoc]
      by_cases hc : c % 2 = 0
      · simp only [hc, if_true]
        obtain ⟨s1, s2, s3⟩ := step 0 (Or.inl rfl)
        refine ⟨s1, s2, fun h => ?_⟩
        obtain ⟨t1, t2⟩ := s3 h
        unfold DMem.probLoop
        rw [if_neg (by rintro (h | h); exacts [hv1 h, t1 h])]
        simp only [hc, if_true]
        exact t2
      · simp only [hc, if_false]
        obtain ⟨s1, s2, s3⟩ := step 3 (Or.inr rfl)
        refine ⟨s1, s2, fun h => ?_⟩
        obtain ⟨t1, t2⟩ := s3 h
        unfold DMem.probLoop
        rw [if_neg (by rintro (h | h); exacts [hv1 h, t1 h])]
        simp only [hc, if_false]
        exact t2
  unfold DMem.getProbVector
  dsimp only
  rw [show e.p.align.addr = e.p.addr from rfl, hv]
  simp only [Int.toNat_natCast]
  obtain ⟨c, hc, rfl⟩ := revBits_surj d
  rw [List.mem_filterMap]
  refine ⟨c, by rw [List.mem_range, Nat.shiftLeft_eq, mul_comm, ← pow_succ]; exact hc, ?_⟩
  have hre : (e.w.val nv * densN nv m (l + 1) e.p.addr (revBits (l + 1) c) (revBits (l + 1) c)).re =
      e.w.r.val nv * (densN nv m (l + 1) e.p.addr (revBits (l + 1) c) (revBits (l + 1) c)).re := by
    rw [Cx.mul_re, hw, zero_mul, sub_zero, val_re]
  rw [hre] at hdd ⊢
  rw [(loop (l + 1) e.p.addr (e.w.r.val nv) c (by rw [hv]; push_cast; omega) hd).2.2 hdd, if_pos (lt_of_le_of_lt ht hdd), intToString_rev]

end DD

namespace DD.Ex

/-- A density matrix of two qubits in the state |01> (qubit 1 is 0, qubit 0 is 1). -/
def mB : DMem ℚ := fun a =>
  if a = 1 then ⟨![⟨⟨.none, 0⟩, wQ 0 0⟩, ⟨⟨.none, 0⟩, wQ 0 0⟩, ⟨⟨.none, 0⟩, wQ 0 0⟩, ⟨⟨.none, 0⟩, wQ 1 0⟩], 0, .none, 8#5⟩
  else if a = 2 then ⟨![⟨⟨.none, 1⟩, wQ 1 0⟩, ⟨⟨.none, 0⟩, wQ 0 0⟩, ⟨⟨.none, 0⟩, wQ 0 0⟩, ⟨⟨.none, 0⟩, wQ 0 0⟩], 1, .none, 8#5⟩
  else if a = 0 then ⟨fun _ => ⟨⟨.none, 0⟩, wQ 0 0⟩, -1, .none, 0#5⟩
  else ⟨fun _ => ⟨⟨.none, 0⟩, wQ 0 0⟩, 0, .none, 0#5⟩

/-- The key has qubit 0 first, whereas the bit strings of `measureAll` have the highest qubit first ("01"). -/
theorem C56_order : DMem.getProbVector nvQ mB ⟨⟨⟨false, false, true⟩, 2⟩, wQ 1 0⟩ 0 = [(['1', '0'], 1)] := by decide +kernel

/-- The hypotheses of both theorems are met by the example of C48. -/
example : DiagN nvQ mQ (fun w => w.im = 0 ∧ 0 ≤ w.re ∧ ((1 / 100 : ℚ) = 0 ∨ w.re ≤ 1)) 2 2 := by
  intro k hk
  rcases hk with rfl | rfl <;> refine ⟨by decide +kernel, fun _ k hk => ?_⟩ <;>
    rcases hk with rfl | rfl <;> exact ⟨by decide +kernel, fun _ => trivial⟩

example : DMem.getProbVector nvQ mQ eQ (1 / 100) =
    [(['0', '0'], 1 / 4), (['0', '1'], 1 / 4), (['1', '0'], 1 / 4), (['1', '1'], 1 / 4)] := by decide +kernel

end DD.Ex
