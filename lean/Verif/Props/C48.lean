import Verif.Proofs.Density
import Mathlib.Data.Rat.Defs
import Mathlib.Algebra.Order.Ring.Rat
import Mathlib.Algebra.Field.Rat

/-!
# C48: the temporary flags of density matrix nodes

Pointers are 64-bit words with flags in the low bits (`C48_word`); the node functions are stated on pointers with flags as fields.
-/

namespace DD

section words

/-- Setting, testing and clearing flags on the words that represent pointers, for nodes at addresses divisible by eight. -/
theorem C48_word {addr : Nat → BitVec 64} (h8 : ∀ a i, i < 3 → (addr a).getLsbD i = false) (p : DPtr) :
    DRaw.isConj (p.enc addr) = p.f.conj ∧ DRaw.isNonRed (p.enc addr) = p.f.nonRed ∧ DRaw.isDM (p.enc addr) = p.f.dm ∧
    DRaw.setConj (p.enc addr) = DPtr.enc addr ⟨{ p.f with conj := true }, p.addr⟩ ∧
    DRaw.setNonRed (p.enc addr) = DPtr.enc addr ⟨{ p.f with nonRed := true }, p.addr⟩ ∧
    DRaw.setDM (p.enc addr) = DPtr.enc addr ⟨{ p.f with dm := true }, p.addr⟩ ∧
    DRaw.align (p.enc addr) = p.align.enc addr ∧ p.align.enc addr = addr p.addr := by
  obtain ⟨⟨c, n, d⟩, a⟩ := p
  have h0 := h8 a 0 (by decide)
  have h1 := h8 a 1 (by decide)
  have h2 := h8 a 2 (by decide)
  simp only [DPtr.enc, DPtr.align, DFlags.none]
  generalize addr a = w at h0 h1 h2
  have key : ∀ (x : BitVec 64) (k : Nat), k < 64 → (x &&& BitVec.ofNat 64 (2 ^ k) != 0#64) = x.getLsbD k := by
    intro x k hk
    rw [Bool.eq_iff_iff, bne_iff_ne, ne_eq]
    have hb : ∀ i, (BitVec.ofNat 64 (2 ^ k)).getLsbD i = decide (i < 64 ∧ i = k) := by
      intro i
      rw [BitVec.getLsbD_ofNat, Nat.testBit_two_pow]
      by_cases hi : i < 64 <;> by_cases hik : i = k <;> simp [hi, hik, eq_comm] <;> omega
    constructor
    · intro h
      by_contra hx
      apply h
      apply BitVec.eq_of_getLsbD_eq
      intro i hi
      rw [BitVec.getLsbD_and, hb]
      by_cases hik : i = k
      · subst hik; simp [hx]
      · simp [hik]
    · intro hx h
      have := congrArg (fun y => BitVec.getLsbD y k) h
      simp only [BitVec.getLsbD_and, hb, hx] at this
      simp [hk] at this
  have k0 := fun x => key x 0 (by decide)
  have k1 := fun x => key x 1 (by decide)
  have k2 := fun x => key x 2 (by decide)
  simp only [show BitVec.ofNat 64 (2 ^ 0) = 1#64 from rfl, show BitVec.ofNat 64 (2 ^ 1) = 2#64 from rfl,
    show BitVec.ofNat 64 (2 ^ 2) = 4#64 from rfl] at k0 k1 k2
  have g0 : w[0] = false := by simpa using h0
  have g1 : w[1] = false := by simpa using h1
  have g2 : w[2] = false := by simpa using h2
  have orb : ∀ (x a b c d : Bool), ((((x || a) || b) || c) || d) = ((((x || (a || d)) || b) || c)) ∧
      ((((x || a) || b) || c) || d) = ((((x || a) || (b || d)) || c)) := by decide
  have orbs : ∀ (x a b c d : BitVec 64), ((((x ||| a) ||| b) ||| c) ||| d) = ((((x ||| (a ||| d)) ||| b) ||| c)) ∧
      ((((x ||| a) ||| b) ||| c) ||| d) = ((((x ||| a) ||| (b ||| d)) ||| c)) := by
    intro x a b c d
    constructor
    · ext i hi; simp only [BitVec.getElem_or]; exact (orb _ _ _ _ _).1
    · ext i hi; simp only [BitVec.getElem_or]; exact (orb _ _ _ _ _).2
  refine ⟨?_, ?_, ?_, ?_, ?_, ?_, ?_, ?_⟩
  · unfold DRaw.isConj
    rw [k0]
    cases c <;> cases n <;> cases d <;> simp [g0]
  · unfold DRaw.isNonRed
    rw [k1]
    cases c <;> cases n <;> cases d <;> simp [g1]
  · unfold DRaw.isDM
    rw [k2]
    cases c <;> cases n <;> cases d <;> simp [g2]
  · unfold DRaw.setConj
    rw [(orbs _ _ _ _ _).1]
    cases c <;> simp
  · unfold DRaw.setNonRed
    rw [(orbs _ _ _ _ _).2]
    cases n <;> simp
  · unfold DRaw.setDM
    rw [BitVec.or_assoc]
    cases d <;> simp
  · unfold DRaw.align
    have h7 : ∀ i, (7#64).getLsbD i = decide (i < 3) := by
      intro i
      rw [show (7#64) = BitVec.ofNat 64 (2 ^ 3 - 1) from rfl, BitVec.getLsbD_ofNat, Nat.testBit_two_pow_sub_one]
      by_cases hi : i < 3
      · simp [hi]; omega
      · simp [hi]
    have hs : ∀ i, 3 ≤ i → (1#64).getLsbD i = false ∧ (2#64).getLsbD i = false ∧ (4#64).getLsbD i = false := by
      intro i hi
      refine ⟨?_, ?_, ?_⟩
      · rw [show (1#64) = BitVec.ofNat 64 (2 ^ 0) from rfl, BitVec.getLsbD_ofNat, Nat.testBit_two_pow]; simp; omega
      · rw [show (2#64) = BitVec.ofNat 64 (2 ^ 1) from rfl, BitVec.getLsbD_ofNat, Nat.testBit_two_pow]; simp; omega
      · rw [show (4#64) = BitVec.ofNat 64 (2 ^ 2) from rfl, BitVec.getLsbD_ofNat, Nat.testBit_two_pow]; simp; omega
    apply BitVec.eq_of_getLsbD_eq
    intro i hi
    simp only [BitVec.getLsbD_and, BitVec.getLsbD_or, BitVec.getLsbD_not, h7]
    by_cases hi3 : i < 3
    · have : w.getLsbD i = false := by
        have : i = 0 ∨ i = 1 ∨ i = 2 := by omega
        rcases this with rfl | rfl | rfl <;> assumption
      simp [hi3, this]
    · obtain ⟨s1, s2, s3⟩ := hs i (by omega)
      cases c <;> cases n <;> cases d <;>
        simp only [hi3, hi, s1, s2, s3, if_true, if_false, Bool.false_eq_true, BitVec.getLsbD_zero, Bool.or_false, decide_false, decide_true,
          Bool.not_false, Bool.and_true]
  · simp

end words

variable {α R : Type} [DecidableEq α] [Field R]

/-- Applying the temporary modification to a node at rest and then reverting it restores the memory exactly, for every flag
combination of the pointer (reached through an unflagged or a density pointer) and every node, the terminal included. -/
theorem C48_restore {z : α} {m : DMem α} {p : DPtr} (hq : (m p.addr).Quiet z) :
    DMem.revert z (DMem.apply z m p).1 (DMem.apply z m p).2 = m := by
  rw [DMem.apply_eq, DMem.revert_eq]
  have : (if p.f.dm = true then p.align else p).addr = p.addr := by split_ifs <;> rfl
  dsimp only
  rw [this, Function.update_self, Function.update_idem, DNode.reverted_applied hq (.refl _), Function.update_eq_self]

/-- The pointer loses its flags. -/
theorem C48_aligned {z : α} {m : DMem α} {p : DPtr} (hd : p.f.dm = true) : (DMem.apply z m p).2 = p.align := by
  rw [DMem.apply_eq, if_pos hd]

/-- While the modification is applied, the node represents what the pointer stands for: entry (r, c) is the weight of the edge for
the two top bits times the corresponding entry of its successor, read as the flags of the edge say. With the conjugate flag this
is the conjugate transpose of the matrix of the node, with the density flag alone the density matrix, with the first edge flag the matrix. -/
theorem C48_applied {z : α} {nv : α → R} {m : DMem α} (hq : m.Quiet z nv) {p : DPtr} {l : Nat} (hv : (m p.addr).v = (l : Int))
    (r c : Fin (l + 1) → Fin 2) :
    let m' := (DMem.apply z m p).1
    let x := (m' p.addr).e (rc (r (Fin.last l)) (c (Fin.last l)))
    x.w.val nv * semN nv m' x.p.f l x.p.addr (Fin.init r) (Fin.init c) = semN nv m p.f (l + 1) p.addr r c := by
  have := rawN_applied (l := l + 1) (f := p.f) (b := p.addr) (m := m) (m1 := (DMem.apply z m p).1) hq.zero (by rw [hv]; push_cast; omega) hq.term
    (hq.node _) (fun b _ hb => hq.child b hb) (by rw [DMem.apply_eq]; simp) (fun b hb => ?_) r c
  · exact this
  · have : b ≠ p.addr := by rintro rfl; push_cast at hb; omega
    rw [DMem.apply_eq]
    simp [this]

/-- `getDensityMatrix` returns the matrix the edge refers to and leaves every node as it was; the edge of the caller loses its flags. -/
theorem C48_getDensityMatrix [DecidableEq R] {z : α} {nv : α → R} {m : DMem α} {e : DEdge α} {l : Nat} (hq : m.Quiet z nv)
    (hf : e.p.f.dm = false → e.p.f = .none) (hv : (m e.p.addr).v = (l : Int)) :
    ∃ M, DMem.getDensityMatrix z nv m e = some (m, { e with p := e.p.align }, M) ∧ M.length = 2 ^ (l + 1) ∧
      (∀ row ∈ M, row.length = 2 ^ (l + 1)) ∧ ∀ i j, i < 2 ^ (l + 1) → j < 2 ^ (l + 1) →
        (M[i]?.bind fun row => row[j]?) = some (e.w.val nv * semN nv m e.p.f (l + 1) e.p.addr (bitsOf (l + 1) i) (bitsOf (l + 1) j)) := by
  refine ⟨_, getDensityMatrix_spec hq hf hv, by simp, by simp, fun i j hi hj => ?_⟩
  simp [hi, hj]

/-- Hence a second call for the same edge returns the matrix read without the density flag. -/
theorem C48_second_call [DecidableEq R] {z : α} {nv : α → R} {m : DMem α} {e : DEdge α} {l : Nat} (hq : m.Quiet z nv)
    (hf : e.p.f.dm = false → e.p.f = .none) (hv : (m e.p.addr).v = (l : Int)) :
    ∃ m' e' M, DMem.getDensityMatrix z nv m e = some (m', e', M) ∧ DMem.getDensityMatrix z nv m' e' = some (m, e',
      (List.range (2 ^ (l + 1))).map fun i => (List.range (2 ^ (l + 1))).map fun j =>
        e.w.val nv * plainN nv m (l + 1) e.p.addr (bitsOf (l + 1) i) (bitsOf (l + 1) j)) := by
  refine ⟨_, _, _, getDensityMatrix_spec hq hf hv, ?_⟩
  rw [getDensityMatrix_spec (l := l) (e := { e with p := e.p.align }) hq DFlags.none_ok hv]
  rfl

/-- A node read as a density matrix is reduced: its third edge is a copy of the second one and the diagonal weights are real. -/
def ReducedN (nv : α → R) (m : DMem α) : Nat → Nat → Prop
  | 0, _ => True
  | l + 1, a => (m a).e 2 = (m a).e 1 ∧ ∀ k, k = 0 ∨ k = 3 → (((m a).e k).w.val nv).im = 0 ∧
    (((m a).e k).w.val nv ≠ 0 → ReducedN nv m l ((m a).e k).p.addr)

omit [DecidableEq α] in
/-- The matrix of a reduced density matrix diagram is Hermitian. -/
theorem C48_hermitian {nv : α → R} {m : DMem α} : ∀ {l a : Nat}, ReducedN nv m l a → ∀ r c,
    densN nv m l a r c = (densN nv m l a c r).conj := by
  intro l
  induction l with
  | zero => intro a _ r c; exact Cx.conj_one.symm
  | succ l ih =>
    intro a h r c
    obtain ⟨h1, h2⟩ := h
    have real : ∀ k, k = 0 ∨ k = 3 → (((m a).e k).w.val nv).conj = ((m a).e k).w.val nv := by
      intro k hk
      ext
      · rfl
      · rw [Cx.conj_im, (h2 k hk).1, neg_zero]
    have h10 : ¬ (1 : Fin 2) = 0 := by decide
    simp only [densN]
    have hr : r (Fin.last l) = 0 ∨ r (Fin.last l) = 1 := by generalize r (Fin.last l) = x; fin_cases x <;> simp
    have hcc : c (Fin.last l) = 0 ∨ c (Fin.last l) = 1 := by generalize c (Fin.last l) = x; fin_cases x <;> simp
    rcases hr with hr | hr <;> rcases hcc with hcc | hcc <;> rw [hr, hcc]
    · simp only [if_true]
      rw [Cx.conj_mul, real 0 (Or.inl rfl)]
      by_cases hw : ((m a).e 0).w.val nv = 0
      · rw [hw, zero_mul, zero_mul]
      · rw [← ih ((h2 0 (Or.inl rfl)).2 hw)]
    · simp only [if_true, if_neg h10]
      rw [Cx.conj_mul, h1, Cx.conj_conj]
      unfold conjN
      rw [Cx.conj_conj]
    · simp only [if_true, if_neg h10]
      rw [Cx.conj_mul, h1]
      rfl
    · simp only [if_neg h10]
      rw [Cx.conj_mul, real 3 (Or.inr rfl)]
      by_cases hw : ((m a).e 3).w.val nv = 0
      · rw [hw, zero_mul, zero_mul]
      · rw [← ih ((h2 3 (Or.inr rfl)).2 hw)]

end DD

namespace DD.Ex

/-- Numbers for the examples: the location is the value. -/
def nvQ : ℚ → ℚ := id

/-- A weight without signs. -/
def wQ (re im : ℚ) : CNum ℚ := ⟨⟨false, re⟩, ⟨false, im⟩⟩

/-- The density matrix (1, -i; i, 1) as a reduced node at address 1: second and third edge both have the weight -i; above it a node for
the density matrix of two qubits. -/
def mQ : DMem ℚ := fun a =>
  if a = 1 then ⟨![⟨⟨.none, 0⟩, wQ 1 0⟩, ⟨⟨.none, 0⟩, wQ 0 (-1)⟩, ⟨⟨.none, 0⟩, wQ 0 (-1)⟩, ⟨⟨.none, 0⟩, wQ 1 0⟩], 0, .none, 8#5⟩
  else if a = 2 then ⟨![⟨⟨.none, 1⟩, wQ 1 0⟩, ⟨⟨.none, 1⟩, wQ 0 (1 / 2)⟩, ⟨⟨.none, 1⟩, wQ 0 (1 / 2)⟩, ⟨⟨.none, 1⟩, wQ 1 0⟩], 1, .none, 8#5⟩
  else if a = 0 then ⟨fun _ => ⟨⟨.none, 0⟩, wQ 0 0⟩, -1, .none, 0#5⟩
  else ⟨fun _ => ⟨⟨.none, 0⟩, wQ 0 0⟩, 0, .none, 0#5⟩

/-- The memory meets the hypotheses. -/
theorem mQ_quiet : mQ.Quiet 0 nvQ := by
  refine ⟨rfl, rfl, ?_, ?_, ?_⟩
  · intro a ha
    unfold mQ; split_ifs <;> simp
  · intro a ha k
    by_cases h1 : a = 1
    · subst h1; fin_cases k <;> intro _ <;> rfl
    by_cases h2 : a = 2
    · subst h2; fin_cases k <;> intro _ <;> rfl
    · intro hk
      exfalso
      apply hk
      unfold mQ
      rw [if_neg h1, if_neg h2, if_neg ha]
      rfl
  · intro a
    constructor
    · unfold mQ; split_ifs <;> rfl
    · intro k; unfold mQ; split_ifs <;> fin_cases k <;> rfl
    · intro k; unfold mQ; split_ifs <;> fin_cases k <;> simp [wQ]

/-- A density edge to the upper node. -/
def eQ : DEdge ℚ := ⟨⟨⟨false, false, true⟩, 2⟩, wQ (1 / 4) 0⟩

/-- The first call returns a density matrix, the second call for the same edge something else: entry (1, 0) is i/4 and then -i/4. -/
example : ∃ M e' M', DMem.getDensityMatrix 0 nvQ mQ eQ = some (mQ, e', M) ∧ DMem.getDensityMatrix 0 nvQ mQ e' = some (mQ, e', M') ∧
    (M[1]?.bind fun row => row[0]?) = some ⟨0, 1 / 4⟩ ∧ (M'[1]?.bind fun row => row[0]?) = some ⟨0, -1 / 4⟩ := by
  obtain ⟨M, h1, _, _, h2⟩ := C48_getDensityMatrix (l := 1) mQ_quiet (e := eQ) (by simp [eQ]) rfl
  obtain ⟨M', h3, _, _, h4⟩ := C48_getDensityMatrix (l := 1) mQ_quiet (e := { eQ with p := eQ.p.align }) (by intro _; rfl) rfl
  refine ⟨M, _, M', h1, h3, ?_, ?_⟩
  · rw [h2 1 0 (by decide) (by decide)]
    decide +kernel
  · rw [h4 1 0 (by decide) (by decide)]
    decide +kernel

/-- The node is reduced, so the first matrix is Hermitian. -/
example : ReducedN nvQ mQ 2 2 := by
  refine ⟨rfl, fun k hk => ?_⟩
  rcases hk with rfl | rfl <;> refine ⟨by simp [mQ, wQ, CNum.val, TPtr.val, nvQ], fun _ => ⟨rfl, fun k hk => ?_⟩⟩ <;>
    rcases hk with rfl | rfl <;> exact ⟨by simp [mQ, wQ, CNum.val, TPtr.val, nvQ], fun _ => trivial⟩

/-- Applying twice before reverting is not undone: the two operands of a multiplication or addition must not be the same flagged node. -/
example : let q : DPtr := ⟨⟨true, false, true⟩, 2⟩
    let m1 := (DMem.apply 0 mQ q).1
    let m2 := (DMem.apply 0 m1 q).1
    ((DMem.revert 0 (DMem.revert 0 m2 q.align) q.align 2).e 0).w = ⟨⟨false, 1⟩, ⟨false, 0⟩⟩ ∧
    ((DMem.revert 0 (DMem.revert 0 m2 q.align) q.align 2).e 1).w.i = ⟨true, 1 / 2⟩ := by
  decide +kernel

end DD.Ex
