import Verif.Props.C17

/-!
# C95: `reset` empties the package

"After Package::reset no node is stored, no number except the static ones, and no entry in any operation cache; the numbers
of the past have no influence: the first number looked up is either one of the static numbers or stored exactly. Size and
tolerance are kept."

A package that has been reset is not in the state of a new one: a new package has the number 1/2 in its table, with a
reference of its own so that it is never collected (ComplexTable.hpp:113-116), a reset package does not
(ComplexTable.hpp:349-391; `C95_half_false`), and the first limit for collections of numbers is another one (ComplexTable.hpp:390 and 505; `startGc` and
`initGc` in the model).

The model is that of C17 (Model/Joint.lean).
-/

namespace DD

variable {R : Type} [Field R] [LinearOrder R] [IsStrictOrderedRing R] [FloorRing R] {J : JCfg R} {tols : R → Prop}
variable {s : JState R}

theorem clear_stored {C : CCfg R} (hC : C.Good) {t : CTab R} (h : t.WF C) : (t.clear C).stored C = [] := by
  unfold CTab.stored
  rw [funext (CTab.clear_bucket hC.nb h)]
  simp

/-- Only the static numbers are known after `reset`, no cache has an entry, and the user holds nothing; size and
tolerance are kept. -/
theorem C95_empty (hJ : J.Good) (htol : ∀ τ, tols τ → 0 ≤ τ) (h : JReach J tols s) :
    (∀ x, (s.reset J).Known J x ↔ ∃ l, x = .num l ∧ l.isStatic = true) ∧
    (∀ c key r, ¬ (s.reset J).Entry c key r) ∧
    (∀ k, ((s.reset J).tab k).held = []) ∧ (s.reset J).nums = [] ∧
    (s.reset J).ct.tol = s.ct.tol ∧ ∀ k, ((s.reset J).tab k).tab.nvars = (s.tab k).tab.nvars := by
  obtain ⟨pin, hi⟩ := h.inv hJ htol
  refine ⟨?_, ?_, fun _ => rfl, rfl, rfl, fun _ => rfl⟩
  · intro x
    cases x with
    | node k a =>
      refine ⟨fun hx => ?_, fun ⟨l, hl, _⟩ => by simp at hl⟩
      have hx : a ∈ ((s.tab k).tab.clear J.U).all := hx
      simp [UTable.all, UTable.clear] at hx
    | num l =>
      cases l with
      | cell a =>
        refine ⟨fun hx => ?_, ?_⟩
        · have hx : a ∈ (s.ct.clear J.C).stored J.C := hx
          rw [clear_stored hJ.C (hi.ct.wf htol hJ.C)] at hx
          exact absurd hx (List.not_mem_nil)
        · rintro ⟨l, hl, h2⟩
          cases hl
          simp [Loc.isStatic] at h2
      | _ => exact ⟨fun _ => ⟨_, rfl, rfl⟩, fun _ => trivial⟩
  · rintro c key r ⟨i, hs⟩
    have hs : ((s.cache c).clear).slot i = some (key, r) := hs
    unfold Cache.clear at hs
    split at hs
    · simp at hs
    · rename_i h0
      rw [hi.count c (by omega) i] at hs
      simp at hs

/-- The first number looked up after `reset` is a static number close to it, or is stored exactly. -/
theorem C95_lookup (hJ : J.Good) (htol : ∀ τ, tols τ → 0 ≤ τ) (h : JReach J tols s) {v : R} (hv : 0 ≤ v) :
    ((((s.reset J).ct.lookup J.C v).2.isStatic = true ∧
      |(s.reset J).ct.value J.C ((s.reset J).ct.lookup J.C v).2 - v| ≤ s.ct.tol)) ∨
    ((s.reset J).ct.lookup J.C v).1.value J.C ((s.reset J).ct.lookup J.C v).2 = v := by
  obtain ⟨pin, hi⟩ := h.inv hJ htol
  have hw := CTab.clear_wf hJ.C (hi.ct.wf htol hJ.C)
  have ho := CTab.lookup_spec hJ.C hw hv
  show (((s.ct.clear J.C).lookup J.C v).2.isStatic = true ∧
      |(s.ct.clear J.C).value J.C ((s.ct.clear J.C).lookup J.C v).2 - v| ≤ s.ct.tol) ∨
    ((s.ct.clear J.C).lookup J.C v).1.value J.C ((s.ct.clear J.C).lookup J.C v).2 = v
  generalize (s.ct.clear J.C).lookup J.C v = r at ho
  cases ho with
  | @hit t' l same live acc _ _ _ =>
    left
    refine ⟨?_, acc⟩
    cases l with
    | cell a =>
      have live : a ∈ (s.ct.clear J.C).stored J.C := live
      rw [clear_stored hJ.C (hi.ct.wf htol hJ.C)] at live
      exact absurd live (List.not_mem_nil)
    | _ => rfl
  | miss link _ => exact Or.inr link.val

/-- After `reset` the next collection that is not forced does nothing, whatever the limits were. -/
theorem C95_quiet (hU : 0 < J.U.initGc) (hC : 0 < J.C.initGc) :
    (s.reset J).garbageCollect J false = (s.reset J, false) := by
  unfold JState.garbageCollect
  rw [if_pos]
  simp [JState.needs, JState.reset, UTable.clear, CTab.clear, CTab.possiblyNeedsCollection, hU.ne', hC.ne']

namespace Ex

/-- The state of C17 has a node, numbers and entries in caches, which `reset` removes. -/
example : ¬ (j6.reset JQ).Known JQ (.node .m 0) ∧ j6.Known JQ (.node .m 0) ∧ ¬ (j6.reset JQ).Known JQ (.num (.cell 1)) := by
  refine ⟨fun h => ?_, ?_, fun h => ?_⟩
  · obtain ⟨l, hl, _⟩ := ((C95_empty JQ_good (fun _ h => h) j6_reach).1 _).1 h
    simp at hl
  · show 0 ∈ (j6.tab .m).tab.all
    decide +kernel
  · obtain ⟨l, hl, h2⟩ := ((C95_empty JQ_good (fun _ h => h) j6_reach).1 _).1 h
    cases hl
    simp [Loc.isStatic] at h2

example : ((j6.reset JQ).ct.lookup JQ.C (1 / 5)).2 = .cell 0 ∧ ((j6.reset JQ).ct.lookup JQ.C (1 / 5)).1.val 0 = 1 / 5 := by
  decide +kernel

theorem j0_half : j0.ct.stored CQ = [0] ∧ j0.ct.val 0 = 1 / 2 ∧ j0.ct.ref (.cell 0) = 1 := by decide +kernel

end Ex

/-- `reset` does not give the state of a new package: the number 1/2 is missing. -/
theorem C95_half_false :
    ¬ ∀ (J : JCfg ℚ) (s : JState ℚ), J.Good → JReach J (0 ≤ ·) s →
      (∃ x, s.Known J (.num x) ∧ s.ct.value J.C x = 1 / 2) →
      ∃ x, (s.reset J).Known J (.num x) ∧ (s.reset J).ct.value J.C x = 1 / 2 := by
  intro H
  have h0 : JReach Ex.JQ (0 ≤ ·) Ex.j0 := .init (1 / 100) (by norm_num) 2 _ (fun _ => by norm_num) _
  have hk : Ex.j0.Known Ex.JQ (.num (.cell 0)) := by
    show 0 ∈ Ex.j0.ct.stored Ex.CQ
    rw [Ex.j0_half.1]; exact List.mem_singleton.2 rfl
  obtain ⟨x, hx, hv⟩ := H Ex.JQ Ex.j0 Ex.JQ_good h0 ⟨.cell 0, hk, Ex.j0_half.2.1⟩
  obtain ⟨l, hl, h2⟩ := ((C95_empty Ex.JQ_good (fun _ h => h) h0).1 _).1 hx
  cases hl
  cases x with
  | cell a => simp [Loc.isStatic] at h2
  | zero => exact absurd hv (by decide +kernel)
  | one => exact absurd hv (by decide +kernel)
  | sqrt2_2 => exact absurd hv (by decide +kernel)

end DD
