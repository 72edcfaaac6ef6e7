import Verif.Proofs.ComplexCache

/-!
# C11: complex cache slots never alias

"Two complex numbers obtained from the cache and not yet returned never share storage, the reported count is twice the
number of outstanding numbers, and a returned number can be handed out again; a temporary number never aliases an
outstanding one."

`CacheReach K s out`: some history of calls led to the cache `s`, and `out` are the numbers obtained and not returned. The
histories include every interleaving of obtaining, returning, temporaries and `clear`, with any even chunk size and any
growth factor.
-/

namespace DD

variable {K : CacheCfg} {s : CxCache} {out : List (Nat × Nat)}

/-- Outstanding numbers never share storage: all their cells are pairwise different; all of it is allocated memory; the
reported count is twice their number. -/
theorem C11_outstanding (hK : K.Good) (h : CacheReach K s out) :
    (cells out).Nodup ∧ (∀ a ∈ cells out, a < s.allocations) ∧ s.count = 2 * out.length := by
  obtain ⟨f, hw⟩ := h.wf hK
  have e : cells (out ++ f) = cells out ++ cells f := by simp [cells]
  refine ⟨?_, fun a ha => ?_, hw.count⟩
  · have := hw.nodup
    rw [e, List.nodup_append] at this
    exact this.1
  · have := hw.lt a (by rw [e]; exact List.mem_append_left _ ha)
    have := hw.itLe; have := hw.endEq; omega

/-- Obtaining a number always succeeds and yields two cells that belong to no outstanding number. -/
theorem C11_get (hK : K.Good) (h : CacheReach K s out) :
    ∃ s' c, s.getCached K = some (s', c) ∧ c.1 ≠ c.2 ∧ c.1 ∉ cells out ∧ c.2 ∉ cells out := by
  obtain ⟨f, hw⟩ := h.wf hK
  obtain ⟨s', c, f', e, hw', h1, h2⟩ := CxCache.getCached_spec hK hw
  exact ⟨s', c, e, h2, h1 _ (by simp), h1 _ (by simp)⟩

/-- A number that is returned is the next one to be handed out, and the reported count is then as before. -/
theorem C11_return (hK : K.Good) (h : CacheReach K s out) {c : Nat × Nat} (hc : c ∈ out) :
    (s.returnToCache c).count + 2 = s.count ∧
    ∃ s', (s.returnToCache c).getCached K = some (s', c) ∧ s'.count = s.count := by
  obtain ⟨f, hw⟩ := h.wf hK
  have hw' := CxCache.return_wf hw hc
  have hpos : 0 < out.length := List.length_pos_of_mem hc
  have hcount : (s.returnToCache c).count + 2 = s.count := by
    show s.count - 2 + 2 = s.count
    rw [hw.count]; omega
  refine ⟨hcount, ?_⟩
  obtain ⟨h1, h2, _⟩ := hw'.chain
  unfold CxCache.getCached
  rw [h1]; dsimp only; rw [h2]
  exact ⟨_, rfl, hcount⟩

/-- A temporary number always exists, lies in allocated memory and never aliases an outstanding number; the reported count
does not change. -/
theorem C11_temporary (hK : K.Good) (h : CacheReach K s out) :
    ∃ s' c, s.getTemporary K = some (s', c) ∧ c.1 ≠ c.2 ∧ c.1 ∉ cells out ∧ c.2 ∉ cells out ∧
      c.1 < s'.allocations ∧ c.2 < s'.allocations ∧ s'.count = s.count := by
  obtain ⟨f, hw⟩ := h.wf hK
  obtain ⟨s', c, e, hw', h1, h2, _⟩ := CxCache.getTemporary_spec hK hw
  exact ⟨s', c, e, h2, (h1 _ (by simp)).1, (h1 _ (by simp)).1, (h1 _ (by simp)).2, (h1 _ (by simp)).2,
    by rw [hw'.count, hw.count]⟩

/-- Temporaries are only protected until the next call: another temporary, and the next number obtained from the cache, are
the same cells. -/
theorem C11_temporary_shared (hK : K.Good) (h : CacheReach K s out) {s' : CxCache} {c : Nat × Nat}
    (ht : s.getTemporary K = some (s', c)) :
    s'.getTemporary K = some (s', c) ∧ ∃ s'', s'.getCached K = some (s'', c) := by
  obtain ⟨f, hw⟩ := h.wf hK
  obtain ⟨_, _, e, _, _, _, h3, h4⟩ := CxCache.getTemporary_spec hK hw
  rw [ht] at e
  obtain ⟨rfl, rfl⟩ := Prod.mk.inj (Option.some.inj e)
  exact ⟨h4, h3⟩

namespace Ex

/-- Chunks of 2 cells, doubling. -/
def KQ : CacheCfg := ⟨2, 2⟩

theorem KQ_good : KQ.Good := ⟨by decide, by decide, by decide⟩

/-- Obtain four numbers (which allocates two more chunks), return the second and the third, obtain one again: it is the
third. Three numbers are then outstanding. -/
example : ∃ s, CacheReach KQ s [(4, 5), (6, 7), (0, 1)] ∧ s.count = 6 ∧ s.allocations = 14 := by
  have h1 := CacheReach.get (c := (0, 1)) (.create (K := KQ)) rfl
  have h2 := h1.get (c := (2, 3)) rfl
  have h3 := h2.get (c := (4, 5)) rfl
  have h4 := h3.get (c := (6, 7)) rfl
  have h5 := (h4.give (c := (2, 3)) (by decide)).give (c := (4, 5)) (by decide)
  have h6 := h5.get (c := (4, 5)) rfl
  exact ⟨_, h6, rfl, rfl⟩

end Ex
end DD
