import Verif.Props.C05

/-!
# C06: the number table allocator never reuses a live entry

"An entry handed out for a new number is never one that is currently stored in the table, over any number of chunk
allocations, collections and clears."
-/

namespace DD

variable {R : Type} [Field R] [LinearOrder R] [IsStrictOrderedRing R] [FloorRing R] {C : CCfg R} {t : CTab R}

/-- When a lookup adds an entry (the reported count grows), the entry was not stored before, lies in allocated memory, has
no references, and holds the requested number; otherwise the entry was known before. In both cases every entry known before
is still known, with the same value and reference count. Any chunk size and growth factor (positive), any history. -/
theorem C06_allocator (hC : C.Good) (hr : CReach C (0 ≤ ·) t) {v : R} (hv : 0 ≤ v) :
    let r := t.lookup C v
    (∀ l, t.Live C l → r.1.Live C l ∧ r.1.value C l = t.value C l ∧ r.1.ref l = t.ref l) ∧
    ((r.1.count = t.count ∧ t.Live C r.2) ∨
     (r.1.count = t.count + 1 ∧ ∃ e, r.2 = .cell e ∧ e ∉ t.stored C ∧ e < r.1.allocations ∧
        r.1.ref (.cell e) = 0 ∧ r.1.val e = v)) := by
  have hw := hr.wf (fun _ h => h) hC
  refine ⟨fun l hl => CTab.lookup_keeps hC hw hv hl, ?_⟩
  have o := CTab.lookup_spec hC hw hv
  generalize t.lookup C v = r at o
  cases o with
  | hit same live => exact Or.inl ⟨same.count, live⟩
  | @miss t' e link =>
    exact Or.inr ⟨link.count, e, rfl, link.new, link.lt, link.ref, link.val⟩

/-- Two stored entries never share memory and all of it is allocated, at every moment; in particular entries on the free
list are not stored. -/
theorem C06_memory (hC : C.Good) (hr : CReach C (0 ≤ ·) t) :
    (t.stored C).Nodup ∧ (∀ a ∈ t.stored C, a < t.allocations ∧ a ∉ t.avail) ∧
    ∀ a ∈ t.avail, a < t.allocations := by
  have hw := hr.wf (fun _ h => h) hC
  refine ⟨hw.stored_nodup, fun a ha => ?_, fun a ha => (hw.avail_lt a ha).trans_le hw.brk_le⟩
  obtain ⟨k, hk⟩ := (hw.mem_stored hC.nb).1 ha
  exact ⟨(hw.lt_brk k a hk).trans_le hw.brk_le, fun h => hw.avail_out a h k hk⟩

namespace Ex

/-- A history that fills the first chunk of four cells, allocates a second one, collects, and reuses a collected cell. -/
example : CReach CQ (0 ≤ ·) (tQ.garbageCollect CQ true).1 ∧
    (let t := (tQ.garbageCollect CQ true).1
     t.allocations = 12 ∧ t.avail = [4, 3, 2] ∧ (t.lookup CQ (3 / 5)).2 = .cell 4 ∧
      (t.lookup CQ (3 / 5)).1.count = 3) :=
  ⟨tQ_reach.step (.garbageCollect true), by decide +kernel⟩

end Ex
end DD
