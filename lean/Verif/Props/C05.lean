import Verif.Props.C03

/-!
# C05: number garbage collection is exact

"A forced collection of the number table removes exactly the entries whose reference count is zero, keeps every other entry
at the same address with the same value and reference count, keeps them findable, and leaves the reported count equal to
the number of stored entries."

One exception is built into the code: a table with at most one entry is never collected
(`C05_single_false`); with at least two entries the property holds (`C05_collect_partial`).
-/

namespace DD

variable {R : Type} [Field R] [LinearOrder R] [IsStrictOrderedRing R] [FloorRing R] {C : CCfg R} {t : CTab R} {τ : R}

/-- The reported count is the number of stored entries, and no entry is stored twice, at every moment. -/
theorem C05_count (hC : C.Good) (hr : CReach C (0 ≤ ·) t) :
    t.count = (t.stored C).length ∧ (t.stored C).Nodup ∧ t.count ≤ t.peakCount := by
  have hw := hr.wf (fun _ h => h) hC
  exact ⟨hw.count, hw.stored_nodup, hw.peak⟩

/-- A forced collection of a table with at least two entries removes exactly the unreferenced entries, returns their
number, and leaves the others unchanged. -/
theorem C05_collect_partial (hC : C.Good) (hr : CReach C (0 ≤ ·) t) (hcount : 1 < t.count) :
    let r := t.garbageCollect C true
    (∀ a, a ∈ r.1.stored C ↔ a ∈ t.stored C ∧ t.ref (.cell a) ≠ 0) ∧
    (∀ l, r.1.value C l = t.value C l ∧ r.1.ref l = t.ref l) ∧
    r.1.count = (r.1.stored C).length ∧ r.2 + r.1.count = t.count := by
  have hw := hr.wf (fun _ h => h) hC
  have g := CTab.gc_run_spec (C := C) (force := true) hC.nb hw (by simpa using hcount)
  intro r
  change CTab.GcSpec C t r at g
  refine ⟨fun a => ?_, fun l => ⟨?_, by rw [g.ref]⟩, g.wf.count, ?_⟩
  · rw [g.stored, List.mem_filter]; simp
  · cases l <;> simp [CTab.value, g.val]
  · rw [g.num, g.wf.count, g.stored, hw.count]
    have h1 := List.length_eq_length_filter_add (l := t.stored C) (fun a => decide (t.ref (.cell a) = 0))
    have h2 : (fun a => !decide (t.ref (.cell a) = 0)) = (fun a => decide (t.ref (Loc.cell a) ≠ 0)) := by
      funext a; simp
    rw [h2] at h1
    exact h1.symm

/-- The same, without a condition on the size, for a table whose only entry (if there is only one) is referenced, such as
the pinned 1/2. -/
theorem C05_collect_pinned (hC : C.Good) (hr : CReach C (0 ≤ ·) t)
    (hp : t.count ≤ 1 → ∀ a ∈ t.stored C, t.ref (.cell a) ≠ 0) :
    let r := t.garbageCollect C true
    (∀ a, a ∈ r.1.stored C ↔ a ∈ t.stored C ∧ t.ref (.cell a) ≠ 0) ∧
    (∀ l, r.1.value C l = t.value C l ∧ r.1.ref l = t.ref l) ∧
    r.1.count = (r.1.stored C).length ∧ r.2 + r.1.count = t.count := by
  by_cases hcount : 1 < t.count
  · exact C05_collect_partial hC hr hcount
  · have hw := hr.wf (fun _ h => h) hC
    have hle : t.count ≤ 1 := not_lt.1 hcount
    have hg := CTab.gc_skip (C := C) (t := t) (force := true) (by simpa using hle)
    intro r
    have hr' : r = ({ t with gcCalls := t.gcCalls + 1 }, 0) := hg
    rw [hr']
    refine ⟨fun a => ⟨fun h => ⟨h, hp hle a h⟩, fun h => h.1⟩, fun l => ⟨?_, rfl⟩, hw.count, Nat.zero_add _⟩
    cases l <;> rfl

/-- Kept entries stay findable: after a collection, forced or not, looking up the value of a kept entry returns it. -/
theorem C05_findable (hC : C.Good) (hτ : 0 ≤ τ) (hnar : 2 * τ * ((C.nb - 1 : Nat) : R) < 1)
    (hr : CReach C (· = τ) t) (force : Bool) {a : Nat} (ha : a ∈ t.stored C) (href : t.ref (.cell a) ≠ 0) :
    let t' := (t.garbageCollect C force).1
    (t'.lookup C (t.val a)).2 = .cell a := by
  have hw := hr.wf (by rintro _ rfl; exact hτ) hC
  have hr' : CReach C (· = τ) (t.garbageCollect C force).1 := hr.step (.garbageCollect force)
  have hkeep : a ∈ (t.garbageCollect C force).1.stored C ∧ (t.garbageCollect C force).1.val = t.val := by
    by_cases hrun : ((!force && decide (t.count < t.gcLimit)) || decide (t.count ≤ 1)) = true
    · rw [CTab.gc_skip hrun]; exact ⟨ha, rfl⟩
    · have g := CTab.gc_run_spec hC.nb hw hrun
      refine ⟨?_, g.val⟩
      rw [g.stored, List.mem_filter]
      exact ⟨ha, by simpa using href⟩
  have := (C03_entry hC hτ hnar hr' hkeep.1).1
  rw [hkeep.2] at this
  exact this

/-- A collection that is not forced does nothing below the limit. -/
theorem C05_unforced (hlim : t.count < t.gcLimit) :
    (t.garbageCollect C false).2 = 0 ∧ (t.garbageCollect C false).1.stored C = t.stored C := by
  rw [CTab.gc_skip (by simp [hlim])]
  exact ⟨rfl, rfl⟩

/-- The unrestricted claim is false: after `clear` and one lookup the table holds one unreferenced entry, and a forced
collection keeps it. -/
theorem C05_single_false : ¬ ∀ (C : CCfg ℚ) (t : CTab ℚ), C.Good → CReach C (0 ≤ ·) t →
    ∀ a, a ∈ (t.garbageCollect C true).1.stored C ↔ a ∈ t.stored C ∧ t.ref (.cell a) ≠ 0 := by
  intro H
  have hr : CReach Ex.CQ (0 ≤ ·) ((CTab.create Ex.CQ (1 / 100)).clear Ex.CQ |>.lookup Ex.CQ (1 / 5)).1 :=
    ((CReach.create (1 / 100) (by norm_num)).step .clear).step (.lookup (1 / 5) (by norm_num))
  have := H Ex.CQ _ Ex.CQ_good hr 0
  revert this
  decide +kernel

namespace Ex

/-- A reachable table with five entries, two of them referenced (1/2 and 1/5), with two chunks; the collection removes
three. -/
def tQ : CTab ℚ := (looks CQ (1 / 100) [1 / 5, 1 / 4, 3 / 10, 3 / 4]).incRef CQ (.cell 1)

theorem tQ_reach : CReach CQ (0 ≤ ·) tQ := by
  refine CReach.step ?_ (.incRef _ (by decide +kernel))
  refine ((((CReach.create (1 / 100) (by norm_num)).step (.lookup (1 / 5) (by norm_num))).step
    (.lookup (1 / 4) (by norm_num))).step (.lookup (3 / 10) (by norm_num))).step (.lookup (3 / 4) (by norm_num))

example : 1 < tQ.count ∧ (tQ.garbageCollect CQ true).2 = 3 ∧
    (tQ.garbageCollect CQ true).1.stored CQ = [1, 0] ∧ tQ.stored CQ = [1, 2, 3, 0, 4] := by
  decide +kernel

end Ex
end DD
