import Verif.Props.C08
import Verif.Proofs.Ptr

/-!
# C09: conjugation and negation on tagged pointers

"conj and neg of a represented complex number denote the conjugate/negated value, are involutions on representations, never
change the table, and map canonical representations to canonical representations."

Proved for all 64-bit words. Only the involution law needs a restriction: flipping the negative pointer to zero (which
`lookup` can produce, see C08) gives the positive one, and flipping again does not restore it.
-/

namespace DD

variable {R : Type}

/-- Flipping the sign of any 64-bit pointer negates the number it denotes. `zero` is the address of the static 0. -/
theorem C09_flip_value [AddGroup R] {mem : BitVec 64 → R} {zero : BitVec 64} (he : zero.getLsbD 0 = false)
    (hz : mem zero = 0) (p : BitVec 64) : Raw.val mem (Raw.flip zero p) = -Raw.val mem p := by
  unfold Raw.flip
  by_cases h : p = zero
  · rw [if_pos h, h]
    unfold Raw.val
    rw [Raw.isNegative_eq, he, if_neg (by simp), hz, neg_zero]
  · rw [if_neg h]
    unfold Raw.val
    rw [Raw.isNegative_eq, Raw.isNegative_eq, Raw.aligned_xor, Raw.xor_bit]
    cases hp : p.getLsbD 0
    · simp [Raw.aligned_even hp]
    · have e : p ^^^ 1#64 = Raw.aligned p := by
        apply BitVec.eq_of_getLsbD_eq
        intro i _
        rw [Raw.xor_bit, Raw.aligned_bit]
        by_cases h0 : i = 0
        · subst h0; rw [hp]; rfl
        · simp [h0]
      simp [e]

/-- Flipping the sign never changes which entry the pointer refers to. -/
theorem C09_flip_entry (zero p : BitVec 64) : Raw.aligned (Raw.flip zero p) = Raw.aligned p := by
  unfold Raw.flip
  by_cases h : p = zero
  · rw [if_pos h]
  · rw [if_neg h, Raw.aligned_xor]

/-- Flipping twice restores every 64-bit pointer except the negative pointer to zero. -/
theorem C09_flip_flip_partial {zero p : BitVec 64} (he : zero.getLsbD 0 = false) (h : p ≠ Raw.negative zero) :
    Raw.flip zero (Raw.flip zero p) = p := by
  unfold Raw.flip
  by_cases hz : p = zero
  · rw [if_pos hz, if_pos hz]
  · rw [if_neg hz]
    have : p ^^^ 1#64 ≠ zero := by
      intro e
      apply h
      rw [← Raw.xor_even he, ← e, BitVec.xor_assoc, BitVec.xor_self, BitVec.xor_zero]
    rw [if_neg this, BitVec.xor_assoc, BitVec.xor_self, BitVec.xor_zero]

/-- Flipping twice does not restore the negative pointer to zero. -/
theorem C09_flip_flip_false {zero : BitVec 64} (he : zero.getLsbD 0 = false) :
    Raw.flip zero (Raw.flip zero (Raw.negative zero)) ≠ Raw.negative zero := by
  have hne : Raw.negative zero ≠ zero := by
    intro e
    have := Raw.negative_bit zero 0
    rw [e, he] at this
    simp at this
  unfold Raw.flip
  rw [if_neg hne, Raw.xor_odd he, if_pos rfl]
  exact hne.symm

/-- Flipping never produces the negative pointer to zero, so the result is always canonical. -/
theorem C09_flip_canonical {zero : BitVec 64} (he : zero.getLsbD 0 = false) (p : BitVec 64) :
    Raw.flip zero p ≠ Raw.negative zero := by
  unfold Raw.flip
  by_cases h : p = zero
  · rw [if_pos h, h]
    intro e
    have := Raw.negative_bit zero 0
    rw [← e, he] at this
    simp at this
  · rw [if_neg h]
    intro e
    apply h
    have : p = Raw.negative zero ^^^ 1#64 := by rw [← e, BitVec.xor_assoc, BitVec.xor_self, BitVec.xor_zero]
    rw [this, Raw.xor_odd he]

/-- The operation on 64-bit words is the operation on signed locations. -/
theorem C09_flip_word {α : Type} [DecidableEq α] {addr : α → BitVec 64} (heven : ∀ l, (addr l).getLsbD 0 = false)
    (hinj : Function.Injective addr) (zero : α) (p : TPtr α) :
    Raw.flip (addr zero) (p.enc addr) = (p.flip zero).enc addr := by
  obtain ⟨n, l⟩ := p
  unfold Raw.flip TPtr.flip TPtr.enc
  cases n
  · by_cases h : l = zero
    · subst h; simp
    · have : addr l ≠ addr zero := fun e => h (hinj e)
      simp only [Bool.false_eq_true, if_false]
      rw [if_neg this, Raw.xor_even (heven l)]
      simp [h]
  · have h1 : Raw.negative (addr l) ≠ addr zero := by
      intro e
      have := Raw.negative_bit (addr l) 0
      rw [e, heven] at this
      simp at this
    simp only [if_true]
    rw [if_neg h1, if_neg (by simp), Raw.xor_odd (heven l)]
    simp

theorem TPtr.flip_val {α : Type} [DecidableEq α] [AddGroup R] {m : α → R} {zero : α} (hz : m zero = 0) (p : TPtr α) :
    (p.flip zero).val m = -p.val m := by
  obtain ⟨n, l⟩ := p
  unfold TPtr.flip TPtr.val
  cases n
  · by_cases h : l = zero
    · subst h; simp [hz]
    · simp [h]
  · simp

/-- `conj` denotes the conjugate and `neg` the negated number, for every pair of pointers and every memory in which the
static 0 has the value 0. -/
theorem C09_value [CommRing R] {α : Type} [DecidableEq α] {m : α → R} {zero : α} (hz : m zero = 0) (c : CNum α) :
    ((c.conj zero).val m).re = (c.val m).re ∧ ((c.conj zero).val m).im = -(c.val m).im ∧
    ((c.negate zero).val m).re = -(c.val m).re ∧ ((c.negate zero).val m).im = -(c.val m).im :=
  ⟨rfl, TPtr.flip_val hz _, TPtr.flip_val hz _, TPtr.flip_val hz _⟩

theorem TPtr.flip_flip {α : Type} [DecidableEq α] {zero : α} {p : TPtr α} (h : p ≠ ⟨true, zero⟩) :
    (p.flip zero).flip zero = p := by
  obtain ⟨n, l⟩ := p
  unfold TPtr.flip
  cases n
  · by_cases h' : l = zero
    · subst h'; simp
    · simp [h']
  · have : l ≠ zero := fun e => h (by rw [e])
    simp [this]

variable [Field R] [LinearOrder R] [IsStrictOrderedRing R] [FloorRing R] {C : CCfg R} {t : CTab R}

/-- `conj` and `neg` map canonical representations to canonical representations of the conjugated and negated number, and
are involutions on them. -/
theorem C09_canonical_partial {c : CNum Loc} (hc : t.Canon C c) :
    t.Canon C (c.conj .zero) ∧ t.Canon C (c.negate .zero) ∧
    t.cval C (c.conj .zero) = ⟨(t.cval C c).re, -(t.cval C c).im⟩ ∧ t.cval C (c.negate .zero) = -t.cval C c ∧
    (c.conj .zero).conj .zero = c ∧ (c.negate .zero).negate .zero = c := by
  have hcan : ∀ p, t.CanonP C p → t.CanonP C (p.flip .zero) := by
    rintro ⟨n, l⟩ ⟨h1, h2⟩
    unfold TPtr.flip
    by_cases h : (⟨n, l⟩ : TPtr Loc) = ⟨false, .zero⟩
    · rw [if_pos h]; exact ⟨h1, h2⟩
    · rw [if_neg h]
      refine ⟨h1, ?_⟩
      intro e
      apply h
      injection e with e1 e2
      dsimp only at e2
      rw [e2]
      cases n
      · rfl
      · simp at e1
  have hz : t.value C .zero = 0 := rfl
  obtain ⟨e1, e2, e3, e4⟩ := C09_value hz c
  refine ⟨⟨hc.1, hcan _ hc.2⟩, ⟨hcan _ hc.1, hcan _ hc.2⟩, ?_, ?_, ?_, ?_⟩
  · exact Cx.ext e1 e2
  · exact Cx.ext e3 e4
  · unfold CNum.conj
    cases c; simp only
    rw [TPtr.flip_flip hc.2.2]
  · unfold CNum.negate
    cases c; simp only
    rw [TPtr.flip_flip hc.1.2, TPtr.flip_flip hc.2.2]

namespace Ex

/-- Negating -0.2 + 0.5 i in a reachable table. -/
example : let t := looks CQ (1 / 100) [1 / 5]
    let c : CNum Loc := ⟨⟨true, .cell 1⟩, ⟨false, .cell 0⟩⟩
    t.CanonP CQ c.r ∧ t.CanonP CQ c.i ∧ t.cval CQ c = ⟨-1 / 5, 1 / 2⟩ ∧
      t.cval CQ (c.negate .zero) = ⟨1 / 5, -1 / 2⟩ ∧ t.cval CQ (c.conj .zero) = ⟨-1 / 5, -1 / 2⟩ := by
  decide +kernel

/-- The address hypotheses are met, for example by 8-byte aligned addresses. -/
example : (0x7ff0#64).getLsbD 0 = false ∧ (0x8008#64 : BitVec 64) ≠ Raw.negative 0x7ff0#64 := by decide

end Ex
end DD
