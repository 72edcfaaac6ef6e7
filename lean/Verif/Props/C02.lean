import Verif.Props.C01

/-!
# C02: the number table never holds two entries within tolerance

"At every moment any two values stored in the number table differ by more than the tolerance and differ from 0, 1 and
sqrt(1/2) by more than the tolerance; a lookup creates a new entry only if no stored or static value is within tolerance
of the request."

The tolerance is fixed (`CReach C (· = τ) t`) and smaller than half the width of a bucket (`2 * τ * (nb - 1) < 1`).
-/

namespace DD

variable {R : Type} [Field R] [LinearOrder R] [IsStrictOrderedRing R] [FloorRing R] {C : CCfg R} {t : CTab R} {τ : R}

/-- Stored values are further than the tolerance from each other and from the static numbers. -/
theorem C02_separated (hC : C.Good) (hτ : 0 ≤ τ) (hnar : 2 * τ * ((C.nb - 1 : Nat) : R) < 1)
    (hr : CReach C (· = τ) t) {a : Nat} (ha : a ∈ t.stored C) :
    (∀ b ∈ t.stored C, b ≠ a → τ < |t.val a - t.val b|) ∧
    τ < |t.val a - 0| ∧ τ < |t.val a - 1| ∧ τ < |t.val a - C.sq| := by
  obtain ⟨hs, ht⟩ := hr.sep hτ hnar hC
  unfold CTab.Sep at hs
  rw [ht] at hs
  refine ⟨fun b hb hne => ?_, ?_, ?_, ?_⟩
  · exact hs a (.cell b) ha hb (by simpa using hne)
  · exact hs a .zero ha trivial (by simp)
  · exact hs a .one ha trivial (by simp)
  · exact hs a .sqrt2_2 ha trivial (by simp)

/-- A lookup answers with an entry that was not there before only if nothing known is within the tolerance; then exactly
this entry is added. -/
theorem C02_creates (hC : C.Good) (hτ : 0 ≤ τ) (hnar : 2 * τ * ((C.nb - 1 : Nat) : R) < 1)
    (hr : CReach C (· = τ) t) {v : R} (hv : 0 ≤ v) :
    let r := t.lookup C v
    (t.Live C r.2 ∧ r.1.stored C = t.stored C) ∨
    ((∀ l, t.Live C l → τ < |t.value C l - v|) ∧ r.1.value C r.2 = v ∧
      ∀ l, r.1.Live C l ↔ t.Live C l ∨ l = r.2) := by
  have hw := hr.wf (by rintro _ rfl; exact hτ) hC
  obtain ⟨_, ht⟩ := hr.sep hτ hnar hC
  have o := CTab.lookup_spec hC hw hv
  generalize t.lookup C v = r at o
  cases o with
  | hit same live acc => exact Or.inl ⟨live, same.stored⟩
  | miss link far =>
    right
    have hf := far (by unfold CTab.Narrow; rw [ht]; exact hnar)
    unfold CTab.Far at hf
    rw [ht] at hf
    have s := CTab.lookups_same t (t.lookups + 1)
    refine ⟨hf, link.val, fun l => ?_⟩
    have := link.live hC.nb (s.wf hw) (l := l)
    rw [s.live] at this
    exact this

/-- With a tolerance of half a bucket width or more the separation fails: the neighbouring bucket that is inspected need
not be the one that holds the close entry. Here τ = 1/8 with 9 buckets (width 1/8), and 17/50 and 1/4 are both stored
although they differ by less than τ. -/
theorem C02_wide_tolerance_false : ∃ (C : CCfg ℚ) (t : CTab ℚ) (τ : ℚ), C.Good ∧ 0 < τ ∧ CReach C (· = τ) t ∧
    ∃ a ∈ t.stored C, ∃ b ∈ t.stored C, b ≠ a ∧ |t.val a - t.val b| ≤ τ := by
  let C : CCfg ℚ := ⟨9, 4, 2, 8, 10, 5, 7 / 10⟩
  exact ⟨C, Ex.looks C (1 / 8) [17 / 50, 1 / 4], 1 / 8, ⟨by decide, by decide, by decide, by decide⟩, by norm_num,
    Ex.looks_reach _ _ _ (by decide +kernel), 1, by decide +kernel, 2, by decide +kernel, by decide, by decide +kernel⟩

namespace Ex

/-- The default table of the package with its default tolerance 1024 * 2^-52 satisfies the hypotheses. -/
example : (CCfg.default (70710678118 / 100000000000 : ℚ)).Good ∧ (0 : ℚ) ≤ 1024 / 2 ^ 52 ∧
    2 * (1024 / 2 ^ 52 : ℚ) * (((CCfg.default (0 : ℚ)).nb - 1 : Nat) : ℚ) < 1 := by
  refine ⟨⟨by decide, by decide, by decide, by decide⟩, by norm_num, ?_⟩
  simp only [CCfg.default]; norm_num

/-- A reachable table with three stored entries; a request within the tolerance of one of them creates nothing, one at a
distance of slightly more creates a fourth. -/
example : ∃ t : CTab ℚ, CReach CQ (· = (1 / 100 : ℚ)) t ∧ (t.stored CQ).length = 3 ∧
    ((t.lookup CQ (21 / 100)).1.stored CQ).length = 3 ∧ ((t.lookup CQ (211 / 1000)).1.stored CQ).length = 4 := by
  exact ⟨looks CQ (1 / 100) [1 / 5, 3 / 5], looks_reach _ _ _ (by decide +kernel), by decide +kernel⟩

end Ex
end DD
