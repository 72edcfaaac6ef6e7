import Verif.Props.C05
import Verif.Proofs.Ptr

/-!
# C07: number reference counting laws

"incRef followed by decRef restores the reference count unless it is saturated; a saturated count never changes; the static
numbers 0, sqrt(1/2), 1 are never changed; decRef on a stored number with count zero is reported as an error instead of
wrapping around." For all entries, all counts, both pointer signs. `none` is the exception thrown by `decRef`.
-/

namespace DD

variable {R : Type} [Field R] [LinearOrder R] [FloorRing R] {C : CCfg R} {t : CTab R}

/-- The static numbers are never changed. -/
theorem C07_static {p : TPtr Loc} (hs : p.loc = .zero ∨ p.loc = .one ∨ p.loc = .sqrt2_2) :
    t.incRefP C p = t ∧ t.decRefP C p = some t := by
  unfold CTab.incRefP CTab.decRefP CTab.incRef CTab.decRef
  rcases hs with h | h | h <;> rw [h] <;> simp [Loc.isStatic]

/-- A saturated count never changes. -/
theorem C07_saturated {p : TPtr Loc} (h : t.ref p.loc = C.maxRef) :
    t.incRefP C p = t ∧ t.decRefP C p = some t := by
  unfold CTab.incRefP CTab.decRefP CTab.incRef CTab.decRef
  simp [h]

/-- Incrementing adds one and touches no other count and no value. -/
theorem C07_inc {p : TPtr Loc} {a : Nat} (hp : p.loc = .cell a) (h : t.ref p.loc < C.maxRef) :
    (t.incRefP C p).ref p.loc = t.ref p.loc + 1 ∧ (∀ l, l ≠ p.loc → (t.incRefP C p).ref l = t.ref l) ∧
    (t.incRefP C p).stored C = t.stored C ∧ (t.incRefP C p).value C = t.value C := by
  have hs : p.loc.isStatic = false := by rw [hp]; rfl
  have e : t.incRefP C p = { t with ref := Function.update t.ref p.loc (t.ref p.loc + 1) } := by
    unfold CTab.incRefP CTab.incRef
    rw [if_neg (by simp [hs]), if_neg h.ne]
  rw [e]
  refine ⟨by simp, fun l hl => by simp [hl], rfl, ?_⟩
  funext l; cases l <;> rfl

/-- Decrementing a positive unsaturated count subtracts one and touches nothing else. -/
theorem C07_dec {p : TPtr Loc} {a : Nat} (hp : p.loc = .cell a) (h0 : 0 < t.ref p.loc) (h : t.ref p.loc < C.maxRef) :
    ∃ t', t.decRefP C p = some t' ∧ t'.ref p.loc = t.ref p.loc - 1 ∧ (∀ l, l ≠ p.loc → t'.ref l = t.ref l) ∧
      t'.stored C = t.stored C ∧ t'.value C = t.value C := by
  have hs : p.loc.isStatic = false := by rw [hp]; rfl
  refine ⟨{ t with ref := Function.update t.ref p.loc (t.ref p.loc - 1) }, ?_, by simp, fun l hl => by simp [hl], rfl, ?_⟩
  · unfold CTab.decRefP CTab.decRef
    rw [if_neg (by simp [hs]), if_neg h.ne, if_neg h0.ne']
  · funext l; cases l <;> rfl

/-- Decrementing a count of zero is an error. -/
theorem C07_dec_zero {p : TPtr Loc} {a : Nat} (hp : p.loc = .cell a) (hm : 0 < C.maxRef) (h0 : t.ref p.loc = 0) :
    t.decRefP C p = none := by
  have hs : p.loc.isStatic = false := by rw [hp]; rfl
  unfold CTab.decRefP CTab.decRef
  rw [if_neg (by simp [hs]), if_neg (by omega), if_pos h0]

/-- incRef followed by decRef restores the table, unless the count is saturated by the increment. -/
theorem C07_inverse {p : TPtr Loc} (h : t.ref p.loc + 1 ≠ C.maxRef) : (t.incRefP C p).decRefP C p = some t := by
  unfold CTab.incRefP CTab.decRefP
  by_cases hs : p.loc.isStatic = true
  · simp [CTab.incRef, CTab.decRef, hs]
  by_cases hm : t.ref p.loc = C.maxRef
  · simp [CTab.incRef, CTab.decRef, hm]
  · have e : t.incRef C p.loc = { t with ref := Function.update t.ref p.loc (t.ref p.loc + 1) } := by
      unfold CTab.incRef; rw [if_neg hs, if_neg hm]
    rw [e]
    unfold CTab.decRef
    rw [if_neg hs, if_neg (by simpa using h), if_neg (by simp)]
    simp

/-- If the increment saturates the count, it stays saturated for ever. -/
theorem C07_saturates {p : TPtr Loc} {a : Nat} (hp : p.loc = .cell a) (h : t.ref p.loc + 1 = C.maxRef) :
    (t.incRefP C p).ref p.loc = C.maxRef ∧ (t.incRefP C p).decRefP C p = some (t.incRefP C p) ∧
      (t.incRefP C p).incRefP C p = t.incRefP C p := by
  have h1 := (C07_inc (C := C) (t := t) hp (by omega)).1
  rw [h] at h1
  exact ⟨h1, (C07_saturated h1).2, (C07_saturated h1).1⟩

/-- The sign of the pointer plays no role: both words of an entry (its even address, and the address with the lowest bit
set) are mapped to the same entry by the code. -/
theorem C07_sign (addr : Loc → BitVec 64) (heven : ∀ l, (addr l).getLsbD 0 = false) (p : TPtr Loc) :
    Raw.aligned (p.enc addr) = addr p.loc ∧ Raw.isNegative (p.enc addr) = p.neg ∧
    ∀ n, t.incRefP C { p with neg := n } = t.incRefP C p ∧ t.decRefP C { p with neg := n } = t.decRefP C p := by
  refine ⟨?_, ?_, fun n => ⟨rfl, rfl⟩⟩
  · unfold TPtr.enc
    split_ifs
    · exact Raw.aligned_negative (heven _)
    · exact Raw.aligned_even (heven _)
  · unfold TPtr.enc
    rw [Raw.isNegative_eq]
    split_ifs with h
    · rw [Raw.negative_bit, heven, h]; rfl
    · rw [heven]; simpa using h

/-- For complex numbers: increments of both parts are undone by decrementing both parts, if no count is saturated (both
parts may be the same entry, so two increments must fit). -/
theorem C07_complex {c : CNum Loc} (hr : t.ref c.r.loc + 2 < C.maxRef) (hi : t.ref c.i.loc + 2 < C.maxRef) :
    (t.incRefC C c).decRefC C c = some t := by
  unfold CTab.incRefC CTab.decRefC
  by_cases hc : c ≠ CNum.zero ∧ c ≠ CNum.one
  · rw [if_pos hc, if_pos hc]
    unfold CTab.incRefP CTab.decRefP
    by_cases hrs : c.r.loc.isStatic = true
    · have e1 : t.incRef C c.r.loc = t := by unfold CTab.incRef; rw [if_pos hrs]
      have e2 : ∀ u : CTab R, u.decRef C c.r.loc = some u := by intro u; unfold CTab.decRef; rw [if_pos hrs]
      rw [e1, e2, Option.bind_some]
      exact C07_inverse (p := c.i) (by omega)
    by_cases his : c.i.loc.isStatic = true
    · have e1 : ∀ u : CTab R, u.incRef C c.i.loc = u := by intro u; unfold CTab.incRef; rw [if_pos his]
      have e2 : ∀ u : CTab R, u.decRef C c.i.loc = some u := by intro u; unfold CTab.decRef; rw [if_pos his]
      rw [e1]
      have := C07_inverse (C := C) (t := t) (p := c.r) (by omega)
      unfold CTab.incRefP CTab.decRefP at this
      rw [this, Option.bind_some, e2]
    have e1 : t.incRef C c.r.loc = { t with ref := Function.update t.ref c.r.loc (t.ref c.r.loc + 1) } := by
      unfold CTab.incRef; rw [if_neg hrs, if_neg (by omega)]
    rw [e1]
    by_cases heq : c.i.loc = c.r.loc
    · rw [heq]
      have e2 : CTab.incRef C { t with ref := Function.update t.ref c.r.loc (t.ref c.r.loc + 1) } c.r.loc =
          { t with ref := Function.update t.ref c.r.loc (t.ref c.r.loc + 2) } := by
        unfold CTab.incRef
        rw [if_neg hrs, if_neg (by simp; omega)]
        simp
      rw [e2]
      have e3 : CTab.decRef C { t with ref := Function.update t.ref c.r.loc (t.ref c.r.loc + 2) } c.r.loc =
          some { t with ref := Function.update t.ref c.r.loc (t.ref c.r.loc + 1) } := by
        unfold CTab.decRef
        rw [if_neg hrs, if_neg (by simp; omega), if_neg (by simp)]
        simp
      rw [e3, Option.bind_some]
      unfold CTab.decRef
      rw [if_neg hrs, if_neg (by simp; omega), if_neg (by simp)]
      simp
    · obtain ⟨f, hf⟩ : ∃ f, f = Function.update (Function.update t.ref c.r.loc (t.ref c.r.loc + 1)) c.i.loc
          (t.ref c.i.loc + 1) := ⟨_, rfl⟩
      have e2 : CTab.incRef C { t with ref := Function.update t.ref c.r.loc (t.ref c.r.loc + 1) } c.i.loc =
          { t with ref := f } := by
        unfold CTab.incRef
        rw [if_neg his, if_neg (by simp [heq]; omega), hf]
        simp [heq]
      rw [e2]
      have fr : f c.r.loc = t.ref c.r.loc + 1 := by rw [hf]; simp [Ne.symm heq]
      have e3 : CTab.decRef C { t with ref := f } c.r.loc =
          some { t with ref := Function.update t.ref c.i.loc (t.ref c.i.loc + 1) } := by
        unfold CTab.decRef
        dsimp only
        rw [if_neg hrs, if_neg (by rw [fr]; omega), if_neg (by rw [fr]; omega), fr, Nat.add_sub_cancel, hf,
          Function.update_comm (Ne.symm heq), Function.update_idem, Function.update_comm heq, Function.update_eq_self]
      rw [e3, Option.bind_some]
      unfold CTab.decRef
      rw [if_neg his, if_neg (by simp; omega), if_neg (by simp)]
      simp
  · rw [if_neg hc, if_neg hc]

/-- The accessor that reads the count through a pointer does depend on the sign: for a negative pointer it returns the
negated count (modulo 2^32), so a count of one is reported as 2^32 - 1. -/
theorem C07_accessor_false : ∃ (mem : BitVec 64 → BitVec 32) (p : BitVec 64), Raw.aligned p = p ∧
    Raw.ref mem p = 1#32 ∧ Raw.ref mem (Raw.negative p) = BitVec.ofNat 32 (2 ^ 32 - 1) :=
  ⟨fun _ => 1#32, 0#64, by decide +kernel⟩

namespace Ex

/-- The stored entry 1/5 of a reachable table has one reference; a negative pointer to it can be incremented and
decremented; two more references saturate nothing (the limit of `CQ` is 5). -/
example : tQ.ref (.cell 1) = 1 ∧ tQ.ref (.cell 2) = 0 ∧ CQ.maxRef = 5 ∧ 1 ∈ tQ.stored CQ ∧
    ((CTab.incRefP CQ tQ ⟨true, .cell 1⟩).ref (.cell 1) = 2) ∧
    (CTab.decRefP CQ tQ ⟨true, .cell 2⟩).isNone = true := by
  decide +kernel

end Ex
end DD
