import Verif.Props.C02

/-!
# C03: number lookup is stable

"Looking up the value of an entry that is in the table returns that same entry, and repeating a lookup without a
collection in between returns the same entry, no matter what else was looked up in between."

The first half holds. The second half does not: a number looked up in between can create an entry that is closer to the
repeated request (`C03_repeat_false`). What holds is that the repeated lookup returns the same entry unless an entry within
the tolerance of the request has been created in between (`C03_repeat_partial`); in particular a request that had to create
its entry always gets that entry again (`C03_repeat_new`).
-/

namespace DD

variable {R : Type} [Field R] [LinearOrder R] [IsStrictOrderedRing R] [FloorRing R] {C : CCfg R} {t : CTab R} {τ : R}

/-- The value of a stored entry is answered by that entry. -/
theorem C03_entry (hC : C.Good) (hτ : 0 ≤ τ) (hnar : 2 * τ * ((C.nb - 1 : Nat) : R) < 1)
    (hr : CReach C (· = τ) t) {a : Nat} (ha : a ∈ t.stored C) :
    (t.lookup C (t.val a)).2 = .cell a ∧ (t.lookup C (t.val a)).1.stored C = t.stored C := by
  have hw := hr.wf (by rintro _ rfl; exact hτ) hC
  obtain ⟨hs, ht⟩ := hr.sep hτ hnar hC
  obtain ⟨k, hk⟩ := (hw.mem_stored hC.nb).1 ha
  have o := CTab.lookup_spec hC hw (hw.pos k a hk).le
  generalize t.lookup C (t.val a) = r at o
  cases o with
  | @hit t' l same live acc =>
    refine ⟨?_, same.stored⟩
    by_contra hne
    have := hs a l ha live hne
    rw [abs_sub_comm] at this
    exact absurd acc (not_le.2 this)
  | miss link far =>
    have hf := far (by unfold CTab.Narrow; rw [ht]; exact hnar) (.cell a) ha
    have e : t.value C (.cell a) = t.val a := rfl
    rw [e, sub_self, abs_zero] at hf
    exact absurd hf (not_lt.2 hw.tol)

/-- The static numbers are answered by their static entries, if they are further apart than the tolerance. -/
theorem C03_static (h1 : τ < 1) (hsq0 : τ < |C.sq|) (hsq1 : τ < |C.sq - 1|) (hτ : 0 ≤ τ) (ht : t.tol = τ) :
    (t.lookup C 0).2 = .zero ∧ (t.lookup C 1).2 = .one ∧ (t.lookup C C.sq).2 = .sqrt2_2 := by
  refine ⟨?_, ?_, ?_⟩
  · simp [CTab.lookup, CTab.approxZero, ht, hτ]
  · simp [CTab.lookup, CTab.approxZero, CTab.approxOne, CTab.approxEq, ht, not_le.2 h1]
  · have hne : C.sq ≠ 1 := by rintro h; rw [h, sub_self, abs_zero] at hsq1; exact absurd hτ (not_le.2 hsq1)
    simp [CTab.lookup, CTab.approxZero, CTab.approxOne, CTab.approxEq, ht, not_le.2 hsq0, not_le.2 hsq1, hne]

/-- A repeated lookup gets the same entry unless an entry within the tolerance of the request was created in between. -/
theorem C03_repeat_partial (hC : C.Good) (hτ : 0 ≤ τ) (hnar : 2 * τ * ((C.nb - 1 : Nat) : R) < 1)
    (hr : CReach C (· = τ) t) {v : R} (hv : 0 ≤ v) {u : CTab R} (hq : CQuiet C (t.lookup C v).1 u)
    (hnew : ∀ a ∈ u.stored C, |u.val a - v| ≤ τ → a ∈ (t.lookup C v).1.stored C) :
    (u.lookup C v).2 = (t.lookup C v).2 := by
  have hr1 : CReach C (· = τ) (t.lookup C v).1 := hr.step (.lookup v hv)
  have hru := CTab.CQuiet.reach hr1 hq
  have hw := hr.wf (by rintro _ rfl; exact hτ) hC
  have hw1 := hr1.wf (by rintro _ rfl; exact hτ) hC
  have hwu := hru.wf (by rintro _ rfl; exact hτ) hC
  obtain ⟨hs, ht⟩ := hr.sep hτ hnar hC
  obtain ⟨hs1, ht1⟩ := hr1.sep hτ hnar hC
  obtain ⟨hsu, htu⟩ := hru.sep hτ hnar hC
  have nu : CTab.Narrow C u := by unfold CTab.Narrow; rw [htu]; exact hnar
  have nt : CTab.Narrow C t := by unfold CTab.Narrow; rw [ht]; exact hnar
  have hkeep : ∀ a, (t.lookup C v).1.Live C (.cell a) → u.Live C (.cell a) ∧ u.val a = (t.lookup C v).1.val a :=
    fun a ha => CTab.CQuiet.keeps hτ hC hr1 hq (l := .cell a) ha
  have hnc := CTab.near_congr hw1 hs1 hwu hsu hC.nb (htu.trans ht1.symm) (v := v) hkeep
    (fun a ha hd => hnew a ha (by rw [htu] at hd; exact hd))
  have hcc := CTab.choose_congr (C := C) (htu.trans ht1.symm) (v := v) hnc
    (fun k a ha => (hkeep a ((hw1.mem_stored hC.nb).2 ⟨k, ha⟩)).2)
  have o := CTab.lookup_spec hC hw hv
  generalize hlk : t.lookup C v = r at o hcc
  cases o with
  | @hit t' l same live acc =>
    have h1 := CTab.hit_choose hw nt hC.nb hv live acc
    rw [hlk] at h1
    have h2 : t'.choose C v = t.choose C v := by
      apply CTab.choose_congr same.tol
      · intro k; unfold CTab.near; rw [same.val, same.tol, same.bucket]
      · intro k a _; rw [same.val]
    dsimp only at hcc
    rw [h2, h1] at hcc
    exact CTab.lookup_choose hwu nu hv hcc
  | @miss t' e link far =>
    have he : (t.lookup C v).1.Live C (.cell e) := by
      rw [hlk]
      exact (link.live hC.nb ((CTab.lookups_same t _).wf hw)).2 (Or.inr rfl)
    obtain ⟨l1, v1⟩ := hkeep e he
    have hve : u.val e = v := by rw [v1, hlk]; exact link.val
    have := C03_entry hC hτ hnar hru l1
    rw [hve] at this
    exact this.1

/-- A request that had to create its entry gets this entry again, no matter what else was looked up in between. -/
theorem C03_repeat_new (hC : C.Good) (hτ : 0 ≤ τ) (hnar : 2 * τ * ((C.nb - 1 : Nat) : R) < 1)
    (hr : CReach C (· = τ) t) {v : R} (hv : 0 ≤ v) {u : CTab R} (hq : CQuiet C (t.lookup C v).1 u)
    (hnew : ¬ t.Live C (t.lookup C v).2) : (u.lookup C v).2 = (t.lookup C v).2 := by
  have hr1 : CReach C (· = τ) (t.lookup C v).1 := hr.step (.lookup v hv)
  have hw := hr.wf (by rintro _ rfl; exact hτ) hC
  have o := CTab.lookup_spec hC hw hv
  generalize hlk : t.lookup C v = r at o
  cases o with
  | hit same live acc => rw [hlk] at hnew; exact absurd live hnew
  | @miss t' e link far =>
    have he : (t.lookup C v).1.Live C (.cell e) := by
      rw [hlk]
      exact (link.live hC.nb ((CTab.lookups_same t _).wf hw)).2 (Or.inr rfl)
    obtain ⟨l1, v1⟩ := CTab.CQuiet.keeps hτ hC hr1 hq he
    have hve : u.val e = v := by
      have : u.val e = (t.lookup C v).1.val e := v1
      rw [this, hlk]; exact link.val
    have := C03_entry hC hτ hnar (CTab.CQuiet.reach hr1 hq) l1
    rw [hve] at this
    exact this.1

/-- The claim for arbitrary lookups in between is false: after 0.209, the request 0.2 is answered by the entry 0.209; the
request 0.195 then creates an entry, and 0.2 is answered by that one. -/
theorem C03_repeat_false : ¬ ∀ (C : CCfg ℚ) (t u : CTab ℚ) (τ v : ℚ), C.Good → 0 ≤ τ →
    2 * τ * ((C.nb - 1 : Nat) : ℚ) < 1 → CReach C (· = τ) t → 0 ≤ v → CQuiet C (t.lookup C v).1 u →
    (u.lookup C v).2 = (t.lookup C v).2 := by
  intro H
  have := H Ex.CQ (Ex.looks Ex.CQ (1 / 100) [209 / 1000]) _ (1 / 100) (1 / 5) Ex.CQ_good (by norm_num)
    (by simp [Ex.CQ]; norm_num) (Ex.looks_reach _ _ _ (by decide +kernel)) (by norm_num)
    (Ex.looks_quiet Ex.CQ _ [39 / 200] (by decide +kernel))
  revert this
  decide +kernel

namespace Ex

/-- A case of `C03_repeat_partial`: 0.2 is answered by the stored 0.209, then 0.4 and 0.6 are looked up (and created);
no entry within the tolerance of 0.2 was created. -/
example : let t := looks CQ (1 / 100) [209 / 1000]
    let u := [2 / 5, 3 / 5].foldl (fun t v => (t.lookup CQ v).1) (t.lookup CQ (1 / 5)).1
    (∀ a ∈ u.stored CQ, |u.val a - 1 / 5| ≤ 1 / 100 → a ∈ (t.lookup CQ (1 / 5)).1.stored CQ) ∧
    (t.lookup CQ (1 / 5)).2 = .cell 1 ∧ (u.stored CQ).length = 4 := by
  decide +kernel

/-- A case of `C03_repeat_new`. -/
example : let t := looks CQ (1 / 100) [209 / 1000]
    ¬ t.Live CQ (t.lookup CQ (2 / 5)).2 ∧ 1 ∈ t.stored CQ := by
  decide +kernel

end Ex
end DD
