import Verif.Proofs.ApproxGateDD
import Verif.Proofs.Gate2
import Verif.Proofs.Use

/-! # Accuracy of two-qubit gates -/

namespace DD

open Pkg UTable JState

variable {R : Type} [Field R] [LinearOrder R] [IsStrictOrderedRing R] [FloorRing R] {J : JCfg R} {τ : R}
variable {s s' s'' : JState R} [HasSqrt R] [LawfulSqrt R]

/-- Bounds for the weights: `K0` at the smaller target. -/
def twoK (τ K0 : R) (lo hi : Nat) : Nat → R := fun j => if j = lo then K0 else if j = hi then 2 + 56 * τ else 1 + 30 * τ

theorem twoK_lo (hτ : 0 ≤ τ) {K0 : R} (hK0 : 2 + 56 * τ ≤ K0) (lo hi j : Nat) : 1 + 30 * τ ≤ twoK τ K0 lo hi j := by
  unfold twoK
  split_ifs <;> linarith

theorem twoK_kappa (hτ : 0 ≤ τ) {K0 : R} (hK0 : 2 + 56 * τ ≤ K0) {lo hi : Nat} (hlh : lo < hi) {l : Nat} (hl : 1000 * ((l : R) + 1) * τ ≤ 1) :
    kappa (twoK τ K0 lo hi) l ≤ 26 / 25 * ((if lo < l then K0 else 1) * (if hi < l then 2 + 56 * τ else 1)) := by
  have key : ∀ l : Nat, kappa (twoK τ K0 lo hi) l ≤
      kappa (fun _ => 1 + 30 * τ) l * ((if lo < l then K0 else 1) * (if hi < l then 2 + 56 * τ else 1)) := by
    intro l
    have h1 : ∀ l, 1 ≤ kappa (fun _ => 1 + 30 * τ) l := fun l => kappa_one (fun _ => by linarith) l
    induction l with
    | zero => simp [kappa]
    | succ l ih =>
      rw [kappa_succ, kappa_succ]
      unfold twoK at ih ⊢
      have h2 := h1 l
      have h3 : 0 ≤ kappa (fun _ => 1 + 30 * τ) l := by linarith
      have k0 : 0 ≤ K0 := by linarith
      by_cases e : l = lo
      · subst e
        rw [if_neg (lt_irrefl _), if_neg (by omega), mul_one, mul_one] at ih
        rw [if_pos rfl, if_pos (Nat.lt_succ_self _), if_neg (by omega), mul_one]
        have := mul_le_mul_of_nonneg_right ih k0
        have h4 : 0 ≤ kappa (fun _ => 1 + 30 * τ) l * K0 * (30 * τ) := by positivity
        linarith
      · by_cases e' : l = hi
        · subst e'
          rw [if_pos hlh, if_neg (lt_irrefl _), mul_one] at ih
          rw [if_neg e, if_pos rfl, if_pos (by omega), if_pos (Nat.lt_succ_self _)]
          have := mul_le_mul_of_nonneg_right ih (by linarith : 0 ≤ 2 + 56 * τ)
          have h4 : 0 ≤ kappa (fun _ => 1 + 30 * τ) l * K0 * (2 + 56 * τ) * (30 * τ) := by positivity
          linarith
        · rw [if_neg e, if_neg e']
          have e2 : (lo < l + 1) = (lo < l) := by rw [eq_iff_iff]; omega
          have e3 : (hi < l + 1) = (hi < l) := by rw [eq_iff_iff]; omega
          simp only [e2, e3]
          have := mul_le_mul_of_nonneg_right ih (by linarith : 0 ≤ 1 + 30 * τ)
          linarith
  refine (key l).trans (mul_le_mul_of_nonneg_right (kappa_const hτ hl) ?_)
  have a1 : (0 : R) ≤ if lo < l then K0 else 1 := by split_ifs <;> linarith
  have a2 : (0 : R) ≤ if hi < l then 2 + 56 * τ else 1 := by split_ifs <;> linarith
  exact mul_nonneg a1 a2

theorem two_kap (hτ : 0 ≤ τ) {K0 : R} (hK0 : 2 + 56 * τ ≤ K0) {lo hi : Nat} (hlh : lo < hi) {l : Nat} (hl : 1000 * ((l : R) + 1) * τ ≤ 1) :
    17 * (1 + 3 / 2 * τ) * kappa (twoK τ K0 lo hi) l * τ ≤
      18 * ((if lo < l then K0 else 1) * (if hi < l then 2 + 56 * τ else 1)) * τ := by
  have l0 : (0 : R) ≤ l := Nat.cast_nonneg l
  have hτ1 : 1000 * τ ≤ 1 := by nlinarith
  have k1 := twoK_kappa hτ hK0 hlh hl
  have a1 : (0 : R) ≤ if lo < l then K0 else 1 := by split_ifs <;> linarith
  have a2 : (0 : R) ≤ if hi < l then 2 + 56 * τ else 1 := by split_ifs <;> linarith
  have a3 := mul_nonneg a1 a2
  set X := (if lo < l then K0 else 1) * (if hi < l then 2 + 56 * τ else 1)
  have k0 := kappa_one (K := twoK τ K0 lo hi) (fun j => by linarith [twoK_lo hτ hK0 lo hi j]) l
  have h1 := mul_le_mul (by linarith : 1 + 3 / 2 * τ ≤ 1003 / 1000) k1 (by linarith) (by norm_num)
  have h2 : 17 * (1 + 3 / 2 * τ) * kappa (twoK τ K0 lo hi) l ≤ 18 * X := by linarith
  exact mul_le_mul_of_nonneg_right h2 hτ

/-- A diagram whose weight is at least `g` if `P` holds, and is zero or has the property `Q`. -/
structure WBlk (J : JCfg R) (τ : R) (s : JState R) (K : Nat → R) (z : Nat) (D : (Fin z → Fin 4) → Cx R) (E : R) (P : Prop) (g : R)
    (Q : Cx R → Prop) (e : PtrEdge) : Prop where
  gr : GRes J τ s K z D E e
  le : mag (s.ct.cval J.C e.w) ≤ 1 + 3 / 2 * τ
  ge : P → g ≤ mag (s.ct.cval J.C e.w)
  nr : e.w = CNum.zero ∨ Q (s.ct.cval J.C e.w)

theorem Grow.wblk (h : TInv J τ s) (h' : TInv J τ s') (g : Grow J s s') {K : Nat → R} {z : Nat} {D : (Fin z → Fin 4) → Cx R} {E : R} {P : Prop}
    {b : R} {Q : Cx R → Prop} {e : PtrEdge} (hb : WBlk J τ s K z D E P b Q e) : WBlk J τ s' K z D E P b Q e := by
  refine ⟨g.gres h h' hb.gr, ?_, fun hu => ?_, hb.nr.imp id (fun hq => ?_)⟩
  · rw [g.cval hb.gr.kn.1]; exact hb.le
  · rw [g.cval hb.gr.kn.1]; exact hb.ge hu
  · rw [g.cval hb.gr.kn.1]; exact hq

/-- Looking up an entry. -/
theorem twoEntry_acc (hJ : J.Good) (hτ : 0 ≤ τ) (hτ1 : 1000 * τ ≤ 1) (h : TInv J τ s) (K : Nat → R) {u : Cx R} (hu : mag u ≤ 1 + τ / 20) :
    TInv J τ (s.gateEntry J u).1 ∧ Grow J s (s.gateEntry J u).1 ∧
    WBlk J τ (s.gateEntry J u).1 K 0 (fun _ => u) (19 * τ) (3 / 5 ≤ mag u) (59 / 100) (fun z => u ≠ 0 ∧ mag (z - u) ≤ 3 / 2 * τ)
      (s.gateEntry J u).2 := by
  unfold JState.gateEntry
  split_ifs with h0
  · have hz : u = 0 := by ext; exact h0.1; exact h0.2
    refine ⟨h, .refl _, ⟨((gres_zero _ 0).congr (fun d => ?_)).mono ?_, ?_, fun hu => ?_, Or.inl rfl⟩⟩
    · rw [hz]
    · linarith
    · show mag (s.ct.cval J.C CNum.zero) ≤ _
      rw [cval_zero, mag_zero]; linarith
    · rw [hz, mag_zero] at hu
      norm_num at hu
  · dsimp only
    obtain ⟨l1, l2, l3, l4⟩ := lookupC_grow' hJ hτ h u
    refine ⟨l1, l2, ⟨⟨⟨l3, ⟨fun b hb => (by simp at hb), fun _ _ => Or.inl rfl⟩⟩, trivial, fun r => ?_⟩, ?_, fun hu => ?_,
      Or.inr ⟨?_, by dsimp only; linarith⟩⟩⟩
    · show ∑ c : Fin 0 → Fin 2, mag (_ * 1 - u) ≤ _
      rw [mul_one]
      simp only [Finset.univ_unique, Finset.sum_const, Finset.card_singleton, one_smul]
      linarith
    · have := mag_le_add ((s.lookupC J u).1.ct.cval J.C (s.lookupC J u).2) u
      dsimp only
      linarith
    · have := mag_le_add u ((s.lookupC J u).1.ct.cval J.C (s.lookupC J u).2)
      rw [mag_sub_comm] at this
      dsimp only
      linarith
    · rintro rfl; exact h0 ⟨rfl, rfl⟩

/-- An identity on one line. -/
theorem wrap_acc (hJ : J.Good) (hτ : 0 ≤ τ) (hτ1 : 1000 * τ ≤ 1) (h : TInv J τ s) {K : Nat → R} (hK : ∀ j, 1 + 30 * τ ≤ K j) {z : Nat}
    (hn : z < (s.tab .m).tab.nvars) {D : (Fin z → Fin 4) → Cx R} {E E' : R} {P : Prop} {g : R} {Q : Cx R → Prop} (hg : 1 / 2 ≤ g)
    (hE : E + 17 * (1 + 3 / 2 * τ) * kappa K z * τ ≤ E') {e : PtrEdge} (he : WBlk J τ s K z D E P g Q e) :
    TInv J τ (s.diagN J z e e).1 ∧ Grow J s (s.diagN J z e e).1 ∧
    WBlk J τ (s.diagN J z e e).1 K (z + 1)
      (fun d => if d (Fin.last z) = 0 then D (Fin.init d) else if d (Fin.last z) = 3 then D (Fin.init d) else 0) E' P g Q (s.diagN J z e e).2 := by
  obtain ⟨a1, a2, a3, a4⟩ := diagN_acc hJ hτ hτ1 h hn hK he.gr he.gr (by linarith : 1 ≤ 1 + 3 / 2 * τ) (by linarith) he.le he.le
    (Or.inr (Or.inr (Or.inr (Or.inr rfl)))) hE hE
  have a5 : ((s.diagN J z e e).2.w = CNum.zero ∧ NearZero τ (s.ct.cval J.C e.w)) ∨ (s.diagN J z e e).2.w = e.w := by
    rcases a4 with ⟨h2, h3, _⟩ | ⟨h2, _⟩ | ⟨h2, _⟩
    · exact Or.inl ⟨h2, h3⟩
    · exact Or.inr h2
    · exact Or.inr h2
  refine ⟨a1, a2, ⟨a3, ?_, fun hu => ?_, ?_⟩⟩
  · rcases a5 with ⟨h2, _⟩ | h2
    · rw [h2, cval_zero, mag_zero]; linarith
    · rw [h2, a2.cval he.gr.kn.1]; exact he.le
  · have hg' := he.ge hu
    rcases a5 with ⟨_, h2⟩ | h2
    · have := h2.mag hτ
      linarith
    · rw [h2, a2.cval he.gr.kn.1]; exact hg'
  · rcases a5 with ⟨h2, _⟩ | h2
    · exact Or.inl h2
    · rw [h2, a2.cval he.gr.kn.1]; exact he.nr

/-- Identities on several lines. -/
theorem wrapLoop_acc (hJ : J.Good) (hτ : 0 ≤ τ) (hτ1 : 1000 * τ ≤ 1) {K : Nat → R} (hK : ∀ j, 1 + 30 * τ ≤ K j) {m : Nat} {S : Nat → Prop}
    [DecidablePred S] {z0 : Nat} {X : Fin m → (Nat → Fin 4) → Cx R} {E : Nat → R} {P : Fin m → Prop} {g : R} (hg : 1 / 2 ≤ g)
    {Q : Fin m → Cx R → Prop} {s : JState R} {em : Fin m → PtrEdge} (h : TInv J τ s)
    (hem : ∀ i, WBlk J τ s K z0 (fun d => tw S z0 (X i) (dx d)) (E z0) (P i) g (Q i) (em i)) : ∀ n,
    (∀ j, z0 ≤ j → j < z0 + n → S j ∧ E j + 17 * (1 + 3 / 2 * τ) * kappa K j * τ ≤ E (j + 1)) →
    (∀ i z, z0 ≤ z → ∀ (d : Fin (z + 1) → Fin 4), X i (dx d) = X i (dx (Fin.init d))) →
    z0 + n ≤ (s.tab .m).tab.nvars →
    let r := JState.wrapLoop J z0 n s em
    TInv J τ r.1 ∧ Grow J s r.1 ∧ ∀ i, WBlk J τ r.1 K (z0 + n) (fun d => tw S (z0 + n) (X i) (dx d)) (E (z0 + n)) (P i) g (Q i) (r.2 i) := by
  intro n
  induction n with
  | zero => intro _ _ _; exact ⟨h, .refl _, hem⟩
  | succ n ih =>
    intro hS hX hn
    obtain ⟨h1, h2, h3⟩ := ih (fun j a b => hS j a (by omega)) hX (by omega)
    unfold JState.wrapLoop
    dsimp only
    generalize JState.wrapLoop J z0 n s em = r at h1 h2 h3
    obtain ⟨s1, s2⟩ := hS (z0 + n) (by omega) (by omega)
    unfold JState.wrapAll
    obtain ⟨q1, q2, q3⟩ := seqFin_grow' m (fun i s => diagN J s (z0 + n) (r.2 i) (r.2 i))
      (fun s' i b => WBlk J τ s' K (z0 + n + 1) (fun d => tw S (z0 + n + 1) (X i) (dx d)) (E (z0 + n + 1)) (P i) g (Q i) b) r.1
      (fun i s1' h1' g1 => by
        obtain ⟨w1, w2, w3⟩ := wrap_acc hJ hτ hτ1 h1' hK (by rw [g1.nvars .m, h2.nvars .m]; omega) hg s2 (g1.wblk h1 h1' (h3 i))
        exact ⟨w1, w2, ⟨w3.gr.congr (fun d => tw_line s1 d (hX i (z0 + n) (by omega) d)), w3.le, w3.ge, w3.nr⟩⟩)
      (fun s1 s2 i b h1 h2 g hb => g.wblk h1 h2 hb) r.1 h1 (.refl _)
    exact ⟨q1, h2.trans q2, q3⟩

/-- Weights of a node whose successors have weights of almost the same absolute value. -/
theorem NodeRes.boundNear (hτ : 0 ≤ τ) (hτ1 : 1000 * τ ≤ 1) {M : R} (hM : M ≤ 51 / 50) {v : Nat}
    {es : Fin 4 → PtrEdge} {m : Fin 4} {q : Nat} (n : NodeRes J τ M s s' v es m q) {a : R}
    (hw : ∀ i, (es i).w = CNum.zero ∨ |mag (s.ct.cval J.C (es i).w) - a| ≤ 31 / 20 * τ) (i : Fin 4) :
    mag (s'.ct.cval J.C (((s'.tab .m).tab.mem q).e i).w) ≤ 13 := by
  by_cases him : i = m
  · subst him
    have := mag_le_add (s'.ct.cval J.C (((s'.tab .m).tab.mem q).e i).w) 1
    have h2 := n.top.2
    rw [mag_one] at this
    linarith
  by_cases hz : NearZero τ (s.ct.cval J.C (es i).w)
  · have := (n.zero i him hz).2
    linarith
  obtain ⟨_, r1, _⟩ := n.rest i him hz
  have nz := n.nz
  have near : ∀ j, ¬ NearZero τ (s.ct.cval J.C (es j).w) → |mag (s.ct.cval J.C (es j).w) - a| ≤ 31 / 20 * τ := by
    intro j hj
    rcases hw j with h0 | h0
    · exfalso; apply hj; rw [h0, cval_zero]; exact nearZero_zero hτ
    · exact h0
  have ni := near i hz
  have nm := near m nz
  set zm := s.ct.cval J.C (es m).w
  set zi := s.ct.cval J.C (es i).w
  set c := s'.ct.cval J.C (((s'.tab .m).tab.mem q).e i).w
  have a0 : τ < mag zm := by
    by_contra hn
    push Not at hn
    exact nz ⟨(abs_re_le zm).trans hn, (abs_im_le zm).trans hn⟩
  have a1 : mag zi ≤ mag zm + 31 / 10 * τ := by
    have h1 := (abs_le.1 ni).2
    have h2 := (abs_le.1 nm).1
    linarith
  have a3 : mag (zm * c) ≤ mag zi + 17 / 2 * M * τ := by
    have := mag_le_add (zm * c) zi
    linarith
  rw [mag_mul] at a3
  have a4 := mul_le_mul_of_nonneg_right hM hτ
  have a5 : mag zm * mag c ≤ mag zm * 13 := by linarith
  exact le_of_mul_le_mul_left a5 (by linarith)

omit [LinearOrder R] [IsStrictOrderedRing R] [FloorRing R] [HasSqrt R] [LawfulSqrt R] in
theorem idx2_pair (a b : Fin 2) : Pkg.idx2 a b = pair a b := rfl

theorem rc_hi_lo (i : Fin 4) : rc (hi2 i) (lo2 i) = i := by revert i; decide

/-- The entries of the block for row `hi2 q` and column `lo2 q`. -/
def blkU (t0 t1 : Nat) (U : Fin 4 → Fin 4 → Cx R) (q ij : Fin 4) : Cx R :=
  if t0 > t1 then U (idx2 (hi2 q) (hi2 ij)) (idx2 (lo2 q) (lo2 ij)) else U (idx2 (hi2 ij) (hi2 q)) (idx2 (lo2 ij) (lo2 q))

omit [IsStrictOrderedRing R] [FloorRing R] [LawfulSqrt R] in
theorem blkU_ok {δ c K0 : R} {U : Fin 4 → Fin 4 → Cx R} (hU : TwoGateOk δ c K0 U) (t0 t1 : Nat) (q : Fin 4) :
    (∃ i, c ≤ mag (blkU t0 t1 U q i)) ∨ (∃ k, ∀ i, i ≠ k → blkU t0 t1 U q i = 0) ∨
      (26 ≤ K0 ∧ ∃ a, ∀ i, blkU t0 t1 U q i = 0 ∨ |mag (blkU t0 t1 U q i) - a| ≤ δ) := by
  have key : ∀ u : Fin 2 → Fin 2 → Cx R, BlockOk δ c K0 u → (∃ i : Fin 4, c ≤ mag (u (hi2 i) (lo2 i))) ∨
      (∃ k : Fin 4, ∀ i : Fin 4, i ≠ k → u (hi2 i) (lo2 i) = 0) ∨
      (26 ≤ K0 ∧ ∃ a, ∀ i : Fin 4, u (hi2 i) (lo2 i) = 0 ∨ |mag (u (hi2 i) (lo2 i)) - a| ≤ δ) := by
    rintro u (⟨i, j, h⟩ | ⟨k, l, h⟩ | ⟨hK, w, h⟩)
    · left; refine ⟨rc i j, ?_⟩
      rw [hi2_rc, lo2_rc]; exact h
    · right; left; refine ⟨rc k l, fun i hi => h _ _ fun e => hi ?_⟩
      rw [← rc_hi_lo i]
      obtain ⟨e1, e2⟩ := Prod.mk.inj e
      rw [e1, e2]
    · right; right; exact ⟨hK, w, fun i => h _ _⟩
  unfold blkU
  by_cases hgt : t0 > t1
  · simp only [if_pos hgt]
    exact key (fun i j => U (idx2 (hi2 q) i) (idx2 (lo2 q) j)) (hU.2.2 (hi2 q) (lo2 q)).1
  · simp only [if_neg hgt]
    exact key (fun i j => U (idx2 i (hi2 q)) (idx2 j (lo2 q))) (hU.2.2 (hi2 q) (lo2 q)).2

theorem blkU_all (t0 t1 : Nat) (U : Fin 4 → Fin 4 → Cx R) (i j : Fin 4) : ∃ q ij, blkU t0 t1 U q ij = U i j := by
  have e : ∀ i : Fin 4, idx2 (hi2 i) (lo2 i) = i := by decide
  unfold blkU
  by_cases hgt : t0 > t1
  · refine ⟨rc (hi2 i) (hi2 j), rc (lo2 i) (lo2 j), ?_⟩
    rw [if_pos hgt, hi2_rc, hi2_rc, lo2_rc, lo2_rc, e, e]
  · refine ⟨rc (lo2 i) (lo2 j), rc (hi2 i) (hi2 j), ?_⟩
    rw [if_neg hgt, hi2_rc, hi2_rc, lo2_rc, lo2_rc, e, e]

/-- A node at the smaller target. -/
theorem block_acc (hJ : J.Good) (hτ : 0 ≤ τ) (hτ1 : 1000 * τ ≤ 1) {lo hi : Nat} (hlh : lo < hi) (h : TInv J τ s)
    (hl : lo < (s.tab .m).tab.nvars) (hlz : 1000 * ((lo : R) + 1) * τ ≤ 1) {K0 : R} (hK0 : 2 + 56 * τ ≤ K0)
    {D : Fin 4 → (Fin lo → Fin 4) → Cx R} {u : Fin 4 → Cx R} {es : Fin 4 → PtrEdge}
    (hes : ∀ i, WBlk J τ s (twoK τ K0 lo hi) lo (D i) (19 * τ * ((lo : R) + 1)) (3 / 5 ≤ mag (u i)) (59 / 100)
      (fun z => u i ≠ 0 ∧ mag (z - u i) ≤ 3 / 2 * τ) (es i))
    (hu : (∃ i, 3 / 5 ≤ mag (u i)) ∨ (∃ k, ∀ i, i ≠ k → u i = 0) ∨ (26 ≤ K0 ∧ ∃ a, ∀ i, u i = 0 ∨ |mag (u i) - a| ≤ τ / 20)) :
    let r := s.makeN J (transposeF J lo) lo es
    TInv J τ r.1 ∧ Grow J s r.1 ∧ WBlk J τ r.1 (twoK τ K0 lo hi) (lo + 1) (fun d => D (d (Fin.last lo)) (Fin.init d))
      ((20 + 18 * K0) * τ * ((lo : R) + 1 + 1)) (∃ i, 3 / 5 ≤ mag (u i)) (1 / 2) (fun _ => True) r.2 := by
  have l0 : (0 : R) ≤ lo := Nat.cast_nonneg lo
  have lτ := mul_nonneg hτ l0
  have hK : ∀ j, 1 ≤ twoK τ K0 lo hi j := fun j => by linarith [twoK_lo hτ hK0 lo hi j]
  have hE : ∀ a : Fin 2, (fun _ : Fin 4 => 19 * τ * ((lo : R) + 1)) (rc a 0) + (fun _ : Fin 4 => 19 * τ * ((lo : R) + 1)) (rc a 1) +
      17 * (1 + 3 / 2 * τ) * kappa (twoK τ K0 lo hi) lo * τ ≤ (20 + 18 * K0) * τ * ((lo : R) + 1 + 1) := by
    intro a
    have k1 := two_kap hτ hK0 hlh hlz
    rw [if_neg (lt_irrefl _), if_neg (by omega)] at k1
    have k2 : 56 * (τ * ((lo : R) + 1 + 1)) ≤ (20 + 18 * K0) * (τ * ((lo : R) + 1 + 1)) :=
      mul_le_mul_of_nonneg_right (by linarith) (by positivity)
    dsimp only
    linarith
  have hKlo : twoK τ K0 lo hi lo = K0 := by unfold twoK; rw [if_pos rfl]
  have M1 : 1 ≤ 1 + 3 / 2 * τ := by linarith
  have M2 : 1 + 3 / 2 * τ ≤ 51 / 50 := by linarith
  have nz : ∀ i, u i = 0 → (es i).w = CNum.zero := fun i hi => (hes i).nr.resolve_right (fun h => h.1 hi)
  have node := makeN_node hJ hτ (transposeF_grow hJ hτ lo) h hl (fun i => (hes i).gr.kn) M1 (fun i => (hes i).le)
  have main : TInv J τ (s.makeN J (transposeF J lo) lo es).1 ∧ Grow J s (s.makeN J (transposeF J lo) lo es).1 ∧
      GRes J τ (s.makeN J (transposeF J lo) lo es).1 (twoK τ K0 lo hi) (lo + 1) (fun d => D (d (Fin.last lo)) (Fin.init d))
        ((20 + 18 * K0) * τ * ((lo : R) + 1 + 1)) (s.makeN J (transposeF J lo) lo es).2 := by
    have bounded : ∀ Bd : R, 2 * Bd ≤ K0 → (∀ m q, NodeRes J τ (1 + 3 / 2 * τ) s (s.makeN J (transposeF J lo) lo es).1 lo es m q →
        ∀ i : Fin 4, mag ((s.makeN J (transposeF J lo) lo es).1.ct.cval J.C
          ((((s.makeN J (transposeF J lo) lo es).1.tab .m).tab.mem q).e i).w) ≤ Bd) →
        TInv J τ (s.makeN J (transposeF J lo) lo es).1 ∧ Grow J s (s.makeN J (transposeF J lo) lo es).1 ∧
        GRes J τ (s.makeN J (transposeF J lo) lo es).1 (twoK τ K0 lo hi) (lo + 1) (fun d => D (d (Fin.last lo)) (Fin.init d))
          ((20 + 18 * K0) * τ * ((lo : R) + 1 + 1)) (s.makeN J (transposeF J lo) lo es).2 := by
      intro Bd hB hbd
      obtain ⟨n1, n2, n3, -⟩ := makeN_accB hJ hτ hτ1 (transposeF_grow hJ hτ lo) h hl hK (fun i => (hes i).gr) M1 (fun i => (hes i).le)
        hbd (Or.inl (by rw [hKlo]; exact hB)) hE
      exact ⟨n1, n2, n3⟩
    rcases hu with ⟨i, hi⟩ | ⟨k, hk⟩ | ⟨h26, w, hw⟩
    · refine bounded (1 + 28 * τ) (by linarith) (fun m q nr => nr.bound hτ hτ1 h hJ M2 (Or.inl ⟨i, ?_⟩))
      have := (hes i).ge hi
      linarith
    · refine bounded (1 + 28 * τ) (by linarith) (fun m q nr => nr.bound hτ hτ1 h hJ M2 (Or.inr ⟨s.ct.cval J.C (es k).w, fun i => ?_⟩))
      by_cases hi : i = k
      · right; rw [hi]
      · left; exact nz i (hk i hi)
    · refine bounded 13 (by linarith) (fun m q nr => nr.boundNear hτ hτ1 M2 (a := w) (fun i => ?_))
      rcases (hes i).nr with h1 | ⟨h1, h2⟩
      · exact Or.inl h1
      · rcases hw i with h3 | h3
        · exact absurd h3 h1
        · right
          have h4 := mag_le_add (s.ct.cval J.C (es i).w) (u i)
          have h5 := mag_le_add (u i) (s.ct.cval J.C (es i).w)
          rw [mag_sub_comm] at h5
          have h6 := abs_le.1 h3
          exact abs_le.2 ⟨by linarith, by linarith⟩
  obtain ⟨n1, n2, n3⟩ := main
  refine ⟨n1, n2, ⟨n3, ?_, ?_, Or.inr trivial⟩⟩
  · rcases node.2.2 with ⟨h2, _⟩ | ⟨m, q, h2, nr⟩
    · rw [h2]
      show mag (JState.ct _ |>.cval J.C CNum.zero) ≤ _
      rw [cval_zero, mag_zero]; linarith
    · rw [h2]
      dsimp only
      rw [n2.cval (hes m).gr.kn.1]
      exact (hes m).le
  · rintro ⟨i, hi⟩
    have hg := (hes i).ge hi
    have nzi : ¬ NearZero τ (s.ct.cval J.C (es i).w) := by
      intro hn
      have := hn.mag hτ
      linarith
    rcases node.2.2 with ⟨_, h2⟩ | ⟨m, q, h2, nr⟩
    · exact absurd (h2 i) nzi
    · rw [h2]
      dsimp only
      rw [n2.cval (hes m).gr.kn.1]
      have a1 := nr.max i nzi
      rw [← mag_sq, ← mag_sq] at a1
      have b1 := mul_self_le_mul_self (by norm_num : (0 : R) ≤ 59 / 100) hg
      by_contra hn
      push Not at hn
      have b2 := mul_self_le_mul_self (mag_nonneg _) hn.le
      set y := mag (s.ct.cval J.C (es m).w) * mag (s.ct.cval J.C (es m).w)
      have y0 : 0 ≤ y := mul_self_nonneg _
      have b3 : τ * (26 / 25 + 1 / 50 * y) ≤ 1 / 1000 * (26 / 25 + 1 / 50 * y) := mul_le_mul_of_nonneg_right (by linarith) (by positivity)
      norm_num at b1 b2
      linarith

/-- `makeTwoQubitGateDD`. -/
theorem makeTwo_acc (hJ : J.Good) (hτ : 0 ≤ τ) (h : TInv J τ s) {t0 t1 n : Nat} {U : Fin 4 → Fin 4 → Cx R}
    (ht : t0 ≠ t1) (h0 : t0 < n) (h1 : t1 < n) (hz : 1000 * ((n : R) + 1) * τ ≤ 1) (hn : n ≤ (s.tab .m).tab.nvars)
    {K0 : R} (hK0 : 2 + 56 * τ ≤ K0) (hU : TwoGateOk (τ / 20) (3 / 5) K0 U) :
    ∃ r, s.makeTwoQubitGateDD J U n t0 t1 = some r ∧ TInv J τ r.1 ∧ Grow J s r.1 ∧
      GRes J τ r.1 (twoK τ K0 (min t0 t1) (max t0 t1)) (max t0 t1 + 1 + upperLines n (max t0 t1))
        (fun d => tw (fun j => j ≠ t0 ∧ j ≠ t1) (max t0 t1 + 1 + upperLines n (max t0 t1))
          (fun D => U (idx2 (hi2 (D t0)) (hi2 (D t1))) (idx2 (lo2 (D t0)) (lo2 (D t1)))) (dx d))
        ((40 + 38 * K0) * τ * (((max t0 t1 + 1 + upperLines n (max t0 t1) : Nat) : R) + 1)) r.2 ∧
      mag (r.1.ct.cval J.C r.2.w) ≤ 1 + 3 / 2 * τ := by
  have n0 : (1 : R) ≤ n := by exact_mod_cast (by omega : 1 ≤ n)
  have hτ1 : 1000 * τ ≤ 1 := by nlinarith
  have hzt : ∀ k : Nat, k ≤ n → 1000 * ((k : R) + 1) * τ ≤ 1 := by
    intro k hk
    have : (k : R) ≤ n := by exact_mod_cast hk
    have := mul_le_mul_of_nonneg_right this hτ
    linarith
  unfold JState.makeTwoQubitGateDD
  rw [if_neg (by omega)]
  refine ⟨_, rfl, ?_⟩
  dsimp only
  generalize hlo : min t0 t1 = lo
  generalize hhi : max t0 t1 = hi
  have hS : ∀ j, j ≠ lo → j ≠ hi → (j ≠ t0 ∧ j ≠ t1) := by intro j _ _; omega
  have hSlo : ¬ (lo ≠ t0 ∧ lo ≠ t1) := by omega
  have hShi : ¬ (hi ≠ t0 ∧ hi ≠ t1) := by omega
  have hlohi : lo < hi := by omega
  have hhin : hi < n := by omega
  have hup := upperLines_le n hi (by omega)
  generalize upperLines n hi = u at hup
  set K := twoK τ K0 lo hi with hKdef
  have hK := twoK_lo hτ hK0 lo hi
  have K00 : 0 ≤ K0 := by linarith
  have kap : ∀ j, j < n → 17 * (1 + 3 / 2 * τ) * kappa K j * τ ≤ 18 * ((if lo < j then K0 else 1) * (if hi < j then 2 + 56 * τ else 1)) * τ :=
    fun j hj => two_kap hτ hK0 hlohi (hzt j hj.le)
  -- the entries
  obtain ⟨p1, p2, p3⟩ := seqFin_grow' 16 (fun i s => gateEntry J s (U ⟨i / 4, by omega⟩ ⟨i % 4, by omega⟩))
    (fun s' i b => WBlk J τ s' K 0 (fun _ => U ⟨i / 4, by omega⟩ ⟨i % 4, by omega⟩) (19 * τ) (3 / 5 ≤ mag (U ⟨i / 4, by omega⟩ ⟨i % 4, by omega⟩))
      (59 / 100) (fun z => U ⟨i / 4, by omega⟩ ⟨i % 4, by omega⟩ ≠ 0 ∧ mag (z - U ⟨i / 4, by omega⟩ ⟨i % 4, by omega⟩) ≤ 3 / 2 * τ) b) s
    (fun i s1 h1 _ => twoEntry_acc hJ hτ hτ1 h1 K (hU.1 _ _)) (fun s1 s2 i b h1 h2 g hb => g.wblk h1 h2 hb) s h (.refl _)
  generalize seqFin 16 (fun i s => gateEntry J s (U ⟨i / 4, by omega⟩ ⟨i % 4, by omega⟩)) s = r0 at p1 p2 p3
  -- the lines below
  obtain ⟨a1, a2, a3⟩ := wrapLoop_acc hJ hτ hτ1 hK (m := 16) (S := fun j => j ≠ t0 ∧ j ≠ t1) (z0 := 0)
    (X := fun i _ => U ⟨i / 4, by omega⟩ ⟨i % 4, by omega⟩) (E := fun z => 19 * τ * ((z : R) + 1)) (g := 59 / 100) (by norm_num) p1
    (em := r0.2) (P := fun i => 3 / 5 ≤ mag (U ⟨i / 4, by omega⟩ ⟨i % 4, by omega⟩))
    (Q := fun i z => U ⟨i / 4, by omega⟩ ⟨i % 4, by omega⟩ ≠ 0 ∧ mag (z - U ⟨i / 4, by omega⟩ ⟨i % 4, by omega⟩) ≤ 3 / 2 * τ)
    (fun i => ⟨((p3 i).gr.congr (fun d => by simp [tw])).mono (by simp), (p3 i).le, (p3 i).ge, (p3 i).nr⟩) lo
    (fun j _ hj => ⟨hS j (by omega) (by omega), by
      have := kap j (by omega)
      rw [if_neg (by omega), if_neg (by omega)] at this
      push_cast
      linarith⟩) (fun _ _ _ _ => rfl) (by rw [p2.nvars .m]; omega)
  rw [Nat.zero_add] at a3
  generalize JState.wrapLoop J 0 lo r0.1 r0.2 = r1 at a1 a2 a3
  -- the four blocks of the lower target
  have em (i j : Fin 4) : WBlk J τ r1.1 K lo (fun d => tw (fun j => j ≠ t0 ∧ j ≠ t1) lo (fun _ => U i j) (dx d)) (19 * τ * ((lo : R) + 1))
      (3 / 5 ≤ mag (U i j)) (59 / 100) (fun z => U i j ≠ 0 ∧ mag (z - U i j) ≤ 3 / 2 * τ) (r1.2 ⟨4 * i + j, by omega⟩) := by
    have := a3 ⟨4 * i + j, by omega⟩
    have e1 : (⟨(4 * (i : Nat) + j) / 4, by omega⟩ : Fin 4) = i := by ext; simp only []; omega
    have e2 : (⟨(4 * (i : Nat) + j) % 4, by omega⟩ : Fin 4) = j := by ext; simp only []; omega
    simp only [e1, e2] at this
    exact this
  have kids : ∀ q ij, WBlk J τ r1.1 K lo (fun d => tw (fun j => j ≠ t0 ∧ j ≠ t1) lo (fun _ => blkU t0 t1 U q ij) (dx d))
      (19 * τ * ((lo : R) + 1)) (3 / 5 ≤ mag (blkU t0 t1 U q ij)) (59 / 100)
      (fun z => blkU t0 t1 U q ij ≠ 0 ∧ mag (z - blkU t0 t1 U q ij) ≤ 3 / 2 * τ) (JState.blockKids t0 t1 r1.2 q ij) := by
    intro q ij
    unfold JState.blockKids blkU
    by_cases hgt : t0 > t1
    · simp only [if_pos hgt]; exact em _ _
    · simp only [if_neg hgt]; exact em _ _
  obtain ⟨b1, b2, b3⟩ := seqFin_grow' 4 (fun q s => s.makeN J (transposeF J lo) lo (JState.blockKids t0 t1 r1.2 q))
    (fun s' q b => WBlk J τ s' K (lo + 1) (fun d => tw (fun j => j ≠ t0 ∧ j ≠ t1) (lo + 1) (fun D => blkU t0 t1 U q (D lo)) (dx d))
      ((20 + 18 * K0) * τ * ((lo : R) + 1 + 1)) (∃ i, 3 / 5 ≤ mag (blkU t0 t1 U q i)) (1 / 2) (fun _ => True) b) r1.1
    (fun q s1 h1 g1 => by
      obtain ⟨x1, x2, x3⟩ := block_acc hJ hτ hτ1 hlohi h1 (by rw [g1.nvars .m, a2.nvars .m, p2.nvars .m]; omega) (hzt lo (by omega)) hK0
        (fun ij => g1.wblk a1 h1 (kids q ij)) (blkU_ok hU t0 t1 q)
      refine ⟨x1, x2, ⟨x3.gr.congr (fun d => ?_), x3.le, x3.ge, x3.nr⟩⟩
      exact tw_node (X := fun ij _ => blkU t0 t1 U q ij) hSlo d (by simp only [dx_last]))
    (fun s1 s2 i b h1 h2 g hb => g.wblk h1 h2 hb) r1.1 a1 (.refl _)
  generalize seqFin 4 (fun q s => s.makeN J (transposeF J lo) lo (JState.blockKids t0 t1 r1.2 q)) r1.1 = r2 at b1 b2 b3
  have stab : ∀ (q z : Nat), q < z → ∀ (d : Fin (z + 1) → Fin 4), dx d q = dx (Fin.init d) q := fun q z hq d => dx_lt d hq
  have e2 := p2.trans (a2.trans b2)
  -- the lines between
  obtain ⟨c1, c2, c3⟩ := wrapLoop_acc hJ hτ hτ1 hK (m := 4) (S := fun j => j ≠ t0 ∧ j ≠ t1) (z0 := lo + 1)
    (X := fun q D => blkU t0 t1 U q (D lo)) (E := fun z => (20 + 18 * K0) * τ * ((z : R) + 1)) (g := 1 / 2) le_rfl b1 (em := r2.2)
    (P := fun q => ∃ i, 3 / 5 ≤ mag (blkU t0 t1 U q i)) (Q := fun _ _ => True)
    (fun i => by push_cast; exact b3 i) (hi - lo - 1)
    (fun j hj1 hj => ⟨hS j (by omega) (by omega), by
      have := kap j (by omega)
      rw [if_pos (by omega), if_neg (by omega)] at this
      push_cast
      linarith⟩) (fun i z hz d => by simp only [stab lo z (by omega) d]) (by rw [e2.nvars .m]; omega)
  have hlen : lo + 1 + (hi - lo - 1) = hi := by omega
  rw [hlen] at c3
  generalize JState.wrapLoop J (lo + 1) (hi - lo - 1) r2.1 r2.2 = r3 at c1 c2 c3
  have e3 := e2.trans c2
  -- the larger target
  have h0' : (0 : R) ≤ hi := Nat.cast_nonneg hi
  have hE : ∀ a : Fin 2, (fun _ : Fin 4 => (20 + 18 * K0) * τ * ((hi : R) + 1)) (rc a 0) + (fun _ : Fin 4 => (20 + 18 * K0) * τ * ((hi : R) + 1)) (rc a 1) +
      17 * (1 + 3 / 2 * τ) * kappa K hi * τ ≤ (40 + 38 * K0) * τ * (((hi + 1 : Nat) : R) + 1) := by
    intro a
    have k1 := kap hi hhin
    rw [if_pos hlohi, if_neg (lt_irrefl _)] at k1
    have k2 : 0 ≤ K0 * τ := mul_nonneg K00 hτ
    have k3 : 0 ≤ K0 * τ * hi := mul_nonneg k2 h0'
    dsimp only
    push_cast
    linarith
  obtain ⟨i0, j0, big⟩ := hU.2.1
  obtain ⟨q0, ij0, hq0⟩ := blkU_all t0 t1 U i0 j0
  obtain ⟨m1, m2, m3, m4⟩ := makeN_acc hJ hτ hτ1 (transposeF_grow hJ hτ hi) c1 (by rw [e3.nvars .m]; omega)
    (K := K) (fun j => by linarith [hK j]) (fun i => (c3 i).gr) (by linarith : 1 ≤ 1 + 3 / 2 * τ) (by linarith)
    (fun i => (c3 i).le) (Or.inl ⟨q0, (c3 q0).ge ⟨ij0, by rw [hq0]; exact big⟩⟩)
    (Or.inl (by rw [hKdef]; unfold twoK; rw [if_neg (by omega), if_pos rfl])) hE
  generalize r3.1.makeN J (transposeF J hi) hi r3.2 = e at m1 m2 m3 m4
  have top : WBlk J τ e.1 K (hi + 1) (fun d => tw (fun j => j ≠ t0 ∧ j ≠ t1) (hi + 1)
      (fun D => U (idx2 (hi2 (D t0)) (hi2 (D t1))) (idx2 (lo2 (D t0)) (lo2 (D t1)))) (dx d)) ((40 + 38 * K0) * τ * (((hi + 1 : Nat) : R) + 1))
      False (1 / 2) (fun _ => True) e.2 := by
    refine ⟨m3.congr (fun d => ?_), ?_, False.elim, Or.inr trivial⟩
    · refine tw_node (X := fun q D => blkU t0 t1 U q (D lo)) hShi d ?_
      unfold blkU
      by_cases hgt : t0 > t1
      · have q1 : t1 = lo := by omega
        have q2 : t0 = hi := by omega
        simp only [if_pos hgt]
        rw [q1, q2, dx_last, dx_lt d (by omega)]
      · have q1 : t0 = lo := by omega
        have q2 : t1 = hi := by omega
        simp only [if_neg hgt]
        rw [q1, q2, dx_last, dx_lt d (by omega)]
    · rcases m4 with ⟨h2, _⟩ | ⟨m, h2, _⟩
      · rw [h2, cval_zero, mag_zero]; linarith
      · rw [h2, m2.cval (c3 m).gr.kn.1]; exact (c3 m).le
  have e4 := e3.trans m2
  -- the lines above
  obtain ⟨f1, f2, f3⟩ := wrapLoop_acc hJ hτ hτ1 hK (m := 1) (S := fun j => j ≠ t0 ∧ j ≠ t1) (z0 := hi + 1)
    (X := fun _ D => U (idx2 (hi2 (D t0)) (hi2 (D t1))) (idx2 (lo2 (D t0)) (lo2 (D t1))))
    (E := fun z => (40 + 38 * K0) * τ * ((z : R) + 1)) (g := 1 / 2) le_rfl m1 (em := fun _ => e.2)
    (P := fun _ => False) (Q := fun _ _ => True) (fun _ => top) u
    (fun j hj1 hj => ⟨hS j (by omega) (by omega), by
      have := kap j (by omega)
      rw [if_pos (by omega), if_pos (by omega)] at this
      have k2 : 0 ≤ K0 * τ := mul_nonneg K00 hτ
      have k3 : K0 * τ * (2 + 56 * τ) ≤ K0 * τ * (2056 / 1000) := mul_le_mul_of_nonneg_left (by linarith) k2
      push_cast
      linarith⟩) (fun i z hz d => by simp only [stab t0 z (by omega) d, stab t1 z (by omega) d]) (by rw [e4.nvars .m]; omega)
  exact ⟨f1, e4.trans f2, (f3 0).gr, (f3 0).le⟩

end DD
