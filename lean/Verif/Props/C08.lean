import Verif.Props.C03
import Verif.Model.Ptr

/-!
# C08: canonical complex numbers

"After cn.lookup, two complex numbers are represented by identical pointers if and only if their values are equal, if and
only if their components are within tolerance; in particular zero has exactly one representation."

This holds for all representations except the negative pointer to the static zero (`C08_canonical_partial`), and `lookup`
produces that pointer exactly for a component equal to minus the tolerance (`C08_lookup_partial`, `C08_minus_tol_false`).
-/

namespace DD

variable {R : Type} [Field R] [LinearOrder R] [IsStrictOrderedRing R] [FloorRing R] {C : CCfg R} {t : CTab R} {τ : R}

/-- A canonical representation of a real number: a signed pointer to a number known to the table, but not the negative
pointer to zero. -/
def CTab.CanonP (C : CCfg R) (t : CTab R) (p : TPtr Loc) : Prop := t.Live C p.loc ∧ p ≠ ⟨true, .zero⟩

/-- A canonical representation of a complex number. -/
def CTab.Canon (C : CCfg R) (t : CTab R) (c : CNum Loc) : Prop := t.CanonP C c.r ∧ t.CanonP C c.i

/-- The three static numbers are further apart than the tolerance (true for 0, sqrt(1/2), 1 and any sensible tolerance). -/
structure StaticSep (C : CCfg R) (τ : R) : Prop where
  nonneg : 0 ≤ τ
  sq : τ < C.sq
  one : τ < 1 - C.sq

theorem canonP_iff (hC : C.Good) (hS : StaticSep C τ) (hnar : 2 * τ * ((C.nb - 1 : Nat) : R) < 1)
    (hr : CReach C (· = τ) t) {p q : TPtr Loc} (hp : t.CanonP C p) (hq : t.CanonP C q) :
    p = q ↔ |p.val (t.value C) - q.val (t.value C)| ≤ τ := by
  have hτ := hS.nonneg
  have hw := hr.wf (by rintro _ rfl; exact hτ) hC
  obtain ⟨hs, ht⟩ := hr.sep hτ hnar hC
  have h1 := hS.sq
  have h2 := hS.one
  constructor
  · rintro rfl; simpa using hτ
  intro hd
  -- values of known numbers other than zero are larger than the tolerance
  have hbig : ∀ l, t.Live C l → l ≠ .zero → τ < t.value C l := by
    intro l hl hne
    cases l with
    | zero => exact absurd rfl hne
    | one => show τ < 1; linarith
    | sqrt2_2 => exact h1
    | cell a =>
      obtain ⟨k, hk⟩ := (hw.mem_stored hC.nb).1 hl
      have := hs a .zero hl trivial (by simp)
      rw [ht] at this
      have e : t.value C .zero = 0 := rfl
      have e2 : t.value C (.cell a) = t.val a := rfl
      rw [e, e2, sub_zero, abs_of_pos (hw.pos k a hk)] at this
      exact this
  have hz : t.value C .zero = 0 := rfl
  have hnn : ∀ l, t.Live C l → 0 ≤ t.value C l := by
    intro l hl
    by_cases h : l = .zero
    · rw [h, hz]
    · exact hτ.trans (hbig l hl h).le
  have hsep : ∀ l m, t.Live C l → t.Live C m → |t.value C l - t.value C m| ≤ τ → l = m := by
    intro l m hl hm hd
    by_contra hne
    have hne' : m ≠ l := fun e => hne e.symm
    cases l with
    | cell a =>
      have := hs a m hl hm hne'
      rw [ht] at this
      exact absurd hd (not_le.2 this)
    | zero =>
      have := hbig m hm hne'
      rw [hz, abs_sub_comm, sub_zero] at hd
      have := le_abs_self (t.value C m)
      linarith
    | one =>
      cases m with
      | cell a =>
        have := hs a .one hm hl (by simp)
        rw [ht, abs_sub_comm] at this
        exact absurd hd (not_le.2 this)
      | zero =>
        have := le_abs_self (t.value C .one - t.value C .zero)
        have e : t.value C .one = 1 := rfl
        rw [e, hz] at this hd
        linarith
      | one => exact hne rfl
      | sqrt2_2 =>
        have := le_abs_self (t.value C .one - t.value C .sqrt2_2)
        have e : t.value C .one = 1 := rfl
        have e2 : t.value C .sqrt2_2 = C.sq := rfl
        rw [e, e2] at this hd
        linarith
    | sqrt2_2 =>
      cases m with
      | cell a =>
        have := hs a .sqrt2_2 hm hl (by simp)
        rw [ht, abs_sub_comm] at this
        exact absurd hd (not_le.2 this)
      | zero =>
        have := le_abs_self (t.value C .sqrt2_2 - t.value C .zero)
        have e : t.value C .sqrt2_2 = C.sq := rfl
        rw [e, hz] at this hd
        linarith
      | one =>
        have := neg_le_abs (t.value C .sqrt2_2 - t.value C .one)
        have e : t.value C .one = 1 := rfl
        have e2 : t.value C .sqrt2_2 = C.sq := rfl
        rw [e, e2] at this hd
        linarith
      | sqrt2_2 => exact hne rfl
  obtain ⟨pn, pl⟩ := p
  obtain ⟨qn, ql⟩ := q
  obtain ⟨lp, np⟩ := hp
  obtain ⟨lq, nq⟩ := hq
  dsimp only at lp lq
  unfold TPtr.val at hd
  cases pn <;> cases qn <;> simp only [Bool.false_eq_true, if_false, if_true] at hd
  · rw [hsep pl ql lp lq hd]
  · exfalso
    have hq0 : ql ≠ .zero := by rintro rfl; exact nq rfl
    have := hbig ql lq hq0
    have h3 := hnn pl lp
    rw [sub_neg_eq_add] at hd
    have := le_abs_self (t.value C pl + t.value C ql)
    linarith
  · exfalso
    have hp0 : pl ≠ .zero := by rintro rfl; exact np rfl
    have := hbig pl lp hp0
    have h3 := hnn ql lq
    have := neg_le_abs (-t.value C pl - t.value C ql)
    linarith
  · rw [← neg_sub_neg, neg_neg, neg_neg, abs_sub_comm] at hd
    have hd' : |t.value C pl - t.value C ql| ≤ τ := by
      rw [abs_sub_comm] at hd
      first | exact hd | (rw [abs_sub_comm] at hd; exact hd)
    rw [hsep pl ql lp lq hd']

/-- Canonical representations in one table are identical iff they denote the same value, iff their values are within
tolerance in both components. -/
theorem C08_canonical_partial (hC : C.Good) (hS : StaticSep C τ) (hnar : 2 * τ * ((C.nb - 1 : Nat) : R) < 1)
    (hr : CReach C (· = τ) t) {c d : CNum Loc} (hc : t.Canon C c) (hd : t.Canon C d) :
    (c = d ↔ t.cval C c = t.cval C d) ∧
    (c = d ↔ |(t.cval C c).re - (t.cval C d).re| ≤ τ ∧ |(t.cval C c).im - (t.cval C d).im| ≤ τ) := by
  have key : c = d ↔ |(t.cval C c).re - (t.cval C d).re| ≤ τ ∧ |(t.cval C c).im - (t.cval C d).im| ≤ τ := by
    rw [show (c = d) ↔ c.r = d.r ∧ c.i = d.i by cases c; cases d; simp]
    rw [canonP_iff hC hS hnar hr hc.1 hd.1, canonP_iff hC hS hnar hr hc.2 hd.2]
    rfl
  refine ⟨⟨fun h => by rw [h], fun h => key.2 ?_⟩, key⟩
  rw [h]
  simpa using hS.nonneg

/-- Zero has exactly one canonical representation. -/
theorem C08_zero (hC : C.Good) (hS : StaticSep C τ) (hnar : 2 * τ * ((C.nb - 1 : Nat) : R) < 1)
    (hr : CReach C (· = τ) t) {c : CNum Loc} (hc : t.Canon C c) : t.cval C c = 0 ↔ c = CNum.zero := by
  have hz : t.Canon C CNum.zero := ⟨⟨trivial, by decide⟩, ⟨trivial, by decide⟩⟩
  have h0 : t.cval C CNum.zero = 0 := rfl
  rw [(C08_canonical_partial hC hS hnar hr hc hz).1, h0]

theorem CReach.mono {P Q : R → Prop} (h : ∀ σ, P σ → Q σ) (hr : CReach C P t) : CReach C Q t := by
  induction hr with
  | create σ h' => exact .create σ (h _ h')
  | step _ hs ih =>
    refine ih.step ?_
    cases hs with
    | lookup v hv => exact .lookup v hv
    | incRef l hl => exact .incRef l hl
    | decRef l hl hd => exact .decRef l hl hd
    | garbageCollect f => exact .garbageCollect f
    | clear => exact .clear
    | setTolerance σ h' => exact .setTolerance σ (h _ h')

theorem lookupSigned_spec (hC : C.Good) (hτ : 0 ≤ τ) (hnar : 2 * τ * ((C.nb - 1 : Nat) : R) < 1)
    (hr : CReach C (· = τ) t) (x : R) :
    let r := t.lookupSigned C x
    CReach C (· = τ) r.1 ∧ CQuiet C t r.1 ∧ r.1.Live C r.2.loc ∧ |r.2.val (r.1.value C) - x| ≤ τ ∧
      (r.2 = ⟨true, .zero⟩ ↔ x = -τ ∧ x ≠ 0) := by
  have hw := hr.wf (by rintro _ rfl; exact hτ) hC
  obtain ⟨_, ht⟩ := hr.sep hτ hnar hC
  have hr0 : CReach C (0 ≤ ·) t := hr.mono (by rintro _ rfl; exact hτ)
  unfold CTab.lookupSigned
  by_cases hneg : x < 0
  · rw [if_pos hneg]
    by_cases hlt : |x| < t.tol
    · rw [if_pos hlt]
      rw [ht] at hlt
      refine ⟨hr, .refl, trivial, ?_, ?_⟩
      · show |(0 : R) - x| ≤ τ
        rw [zero_sub, abs_neg]; exact hlt.le
      · refine ⟨fun h => by simp at h, fun h => ?_⟩
        rw [h.1, abs_neg, abs_of_nonneg hτ] at hlt
        exact absurd hlt (lt_irrefl _)
    · rw [if_neg hlt]
      rw [ht] at hlt
      have hacc := C01_lookup_accurate hC hr0 (abs_nonneg x)
      dsimp only at hacc
      rw [ht] at hacc
      refine ⟨hr.step (.lookup _ (abs_nonneg x)), CQuiet.refl.lookup _ (abs_nonneg x), hacc.1, ?_, ?_⟩
      · show |(-((t.lookup C |x|).1.value C (t.lookup C |x|).2)) - x| ≤ τ
        have h2 := hacc.2
        rw [abs_of_neg hneg] at h2 ⊢
        rw [← abs_neg]
        have e : -(-CTab.value C (t.lookup C (-x)).1 (t.lookup C (-x)).2 - x) =
          CTab.value C (t.lookup C (-x)).1 (t.lookup C (-x)).2 - -x := by ring
        rw [e]; exact h2
      · dsimp only
        constructor
        · intro h
          have hz : (t.lookup C |x|).2 = .zero := by
            have := congrArg TPtr.loc h
            exact this
          refine ⟨?_, hneg.ne⟩
          have h2 := hacc.2
          rw [hz] at h2
          have h3 : abs (0 - abs x) ≤ τ := h2
          rw [zero_sub, abs_neg, abs_abs] at h3
          have h4 := le_antisymm h3 (not_lt.1 hlt)
          rw [abs_of_neg hneg] at h4
          linarith
        · rintro ⟨rfl, _⟩
          have : (t.lookup C |(-τ)|).2 = .zero := by
            rw [abs_neg, abs_of_nonneg hτ]
            simp [CTab.lookup, CTab.approxZero, ht, abs_of_nonneg hτ]
          rw [this]
  · rw [if_neg hneg]
    have hacc := C01_lookup_accurate hC hr0 (not_lt.1 hneg)
    dsimp only at hacc
    rw [ht] at hacc
    refine ⟨hr.step (.lookup _ (not_lt.1 hneg)), CQuiet.refl.lookup _ (not_lt.1 hneg), hacc.1, hacc.2, ?_⟩
    refine ⟨fun h => by simp at h, ?_⟩
    rintro ⟨h1, h2⟩
    exfalso
    apply hneg
    rcases hτ.lt_or_eq with h3 | h3
    · rw [h1]; linarith
    · rw [← h3, neg_zero] at h1; exact absurd h1 h2

/-- What `cn.lookup` returns for an arbitrary complex number: known numbers within the tolerance of the components; the
representation is canonical unless a component is exactly minus the tolerance. Everything represented before stays
represented with the same value. -/
theorem C08_lookup_partial (hC : C.Good) (hτ : 0 ≤ τ) (hnar : 2 * τ * ((C.nb - 1 : Nat) : R) < 1)
    (hr : CReach C (· = τ) t) (z : Cx R) :
    let r := t.lookupC C z
    CReach C (· = τ) r.1 ∧
    |(r.1.cval C r.2).re - z.re| ≤ τ ∧ |(r.1.cval C r.2).im - z.im| ≤ τ ∧
    (z.re ≠ -τ → z.im ≠ -τ → r.1.Canon C r.2) ∧
    (∀ c, t.Canon C c → r.1.Canon C c ∧ r.1.cval C c = t.cval C c) := by
  have o1 := lookupSigned_spec hC hτ hnar hr z.re
  dsimp only at o1
  obtain ⟨r1, q1, l1, a1, n1⟩ := o1
  have o2 := lookupSigned_spec hC hτ hnar r1 z.im
  dsimp only at o2
  obtain ⟨r2, q2, l2, a2, n2⟩ := o2
  have k1 := CTab.CQuiet.keeps hτ hC r1 q2 l1
  have e : t.lookupC C z = ((t.lookupSigned C z.re).1.lookupSigned C z.im |>.1,
    ⟨(t.lookupSigned C z.re).2, ((t.lookupSigned C z.re).1.lookupSigned C z.im).2⟩) := rfl
  rw [e]
  generalize t.lookupSigned C z.re = u1 at *
  generalize u1.1.lookupSigned C z.im = u2 at *
  refine ⟨r2, ?_, a2, ?_, ?_⟩
  · show |u1.2.val (u2.1.value C) - z.re| ≤ τ
    have : u1.2.val (u2.1.value C) = u1.2.val (u1.1.value C) := by unfold TPtr.val; rw [k1.2]
    rw [this]; exact a1
  · intro h1 h2
    refine ⟨⟨k1.1, fun h => h1 (n1.1 h).1⟩, ⟨l2, fun h => h2 (n2.1 h).1⟩⟩
  · have keep : ∀ p, t.CanonP C p → u2.1.CanonP C p ∧ p.val (u2.1.value C) = p.val (t.value C) := by
      intro p hp
      have x1 := CTab.CQuiet.keeps hτ hC hr q1 hp.1
      have x2 := CTab.CQuiet.keeps hτ hC r1 q2 x1.1
      refine ⟨⟨x2.1, hp.2⟩, ?_⟩
      unfold TPtr.val
      rw [x2.2, x1.2]
    intro c hc
    refine ⟨⟨(keep _ hc.1).1, (keep _ hc.2).1⟩, ?_⟩
    unfold CTab.cval CNum.val
    rw [(keep _ hc.1).2, (keep _ hc.2).2]

/-- The unrestricted claim is false: looking up minus the tolerance yields the negative pointer to zero, a second
representation of zero. -/
theorem C08_minus_tol_false : ∃ (C : CCfg ℚ) (t : CTab ℚ) (τ : ℚ) (z : Cx ℚ), C.Good ∧ StaticSep C τ ∧
    2 * τ * ((C.nb - 1 : Nat) : ℚ) < 1 ∧ CReach C (· = τ) t ∧
    (let r := t.lookupC C z; r.1.cval C r.2 = 0 ∧ r.2 ≠ CNum.zero) :=
  ⟨Ex.CQ, Ex.looks Ex.CQ (1 / 100) [], 1 / 100, ⟨-1 / 100, 0⟩, Ex.CQ_good,
    ⟨by decide +kernel, by decide +kernel, by decide +kernel⟩, by decide +kernel,
    Ex.looks_reach _ _ _ (by simp), by decide +kernel, by decide +kernel⟩

namespace Ex

/-- -0.2 + 0.5 i and -0.204 + 0.509 i get the same canonical representation, -0.2 - 0.5 i another one. -/
example : let t := looks CQ (1 / 100) []
    let r := t.lookupC CQ ⟨-1 / 5, 1 / 2⟩
    let s := r.1.lookupC CQ ⟨-204 / 1000, 509 / 1000⟩
    r.2 = ⟨⟨true, .cell 1⟩, ⟨false, .cell 0⟩⟩ ∧ s.2 = r.2 ∧
      (s.1.lookupC CQ ⟨-1 / 5, -1 / 2⟩).2 = ⟨⟨true, .cell 1⟩, ⟨true, .cell 0⟩⟩ := by
  decide +kernel

instance (C : CCfg ℚ) (t : CTab ℚ) (p : TPtr Loc) : Decidable (t.CanonP C p) := by unfold CTab.CanonP; infer_instance

/-- All hypotheses of `C08_canonical_partial` hold for two different canonical representations. -/
example : ∃ (t : CTab ℚ) (c d : CNum Loc), CQ.Good ∧ StaticSep CQ (1 / 100) ∧
    2 * (1 / 100) * ((CQ.nb - 1 : Nat) : ℚ) < 1 ∧ CReach CQ (· = 1 / 100) t ∧ t.Canon CQ c ∧ t.Canon CQ d ∧ c ≠ d :=
  ⟨looks CQ (1 / 100) [1 / 5], ⟨⟨true, .cell 1⟩, ⟨false, .cell 0⟩⟩, ⟨⟨false, .cell 1⟩, ⟨false, .cell 0⟩⟩, CQ_good,
    ⟨by decide +kernel, by decide +kernel, by decide +kernel⟩, by decide +kernel, looks_reach _ _ _ (by decide +kernel),
    ⟨by decide +kernel, by decide +kernel⟩, ⟨by decide +kernel, by decide +kernel⟩, by decide⟩

end Ex
end DD
