import Verif.Props.C17
import Verif.Proofs.PInv

/-!
# C94: what `garbageCollect` reports

"Package::garbageCollect returns true exactly if it has removed a vector node, a matrix node or a number. After a forced
collection nothing is left to collect: a second one right after it removes nothing and returns false."

One would expect the result to be true whenever anything has been removed. This is false: nodes of density matrices do not
count (Package.hpp:983; `C94_density_false`).

The model is that of C17 (Model/Joint.lean): the table of numbers, the three tables of nodes, the references of the user and
the caches. `s.Known J x` says that the node or number `x` is stored in `s` (or is one of the static numbers).
-/

namespace DD

variable {R : Type} [Field R] [LinearOrder R] [IsStrictOrderedRing R] [FloorRing R] {J : JCfg R} {tols : R → Prop}
variable {s : JState R}

/-- `x` is stored in `s`, but not in `s'`. -/
def JState.Gone (J : JCfg R) (s s' : JState R) (x : PRef) : Prop := s.Known J x ∧ ¬ s'.Known J x

/-- A collection of a node table counts exactly what it removes. -/
theorem ugc_pos_iff {W : Type} (C : UCfg) {n : Nat} (t : UTable W n) (force : Bool) :
    0 < (t.garbageCollect C force).2 ↔ ∃ a, a ∈ t.all ∧ a ∉ (t.garbageCollect C force).1.all := by
  constructor
  · intro h
    by_cases hcond : ((!force && decide (t.nodeCount < t.gcLimit)) || decide (t.nodeCount = 0)) = true
    · exfalso; unfold UTable.garbageCollect at h; rw [if_pos hcond] at h; exact absurd h (lt_irrefl 0)
    · have h2 : (t.garbageCollect C force).2 = (t.all.filter (fun a => decide ((t.mem a).ref = 0))).length := by
        unfold UTable.garbageCollect; rw [if_neg hcond]
      rw [h2] at h
      obtain ⟨a, ha⟩ := List.exists_mem_of_length_pos h
      have ha := List.mem_filter.1 ha
      refine ⟨a, ha.1, fun hn => ?_⟩
      rw [gc_all_run C t force hcond] at hn
      have h3 := (List.mem_filter.1 hn).2
      rw [ha.2] at h3
      exact absurd h3 (by decide)
  · rintro ⟨a, ha, hn⟩
    by_contra h
    rw [gc_count_zero C t force h] at hn
    exact hn ha

/-- A collection of the table of numbers counts exactly what it removes. -/
theorem cgc_pos_iff {C : CCfg R} (hC : C.Good) {t : CTab R} (h : t.WF C) (force : Bool) :
    0 < (t.garbageCollect C force).2 ↔ ∃ a, a ∈ t.stored C ∧ a ∉ (t.garbageCollect C force).1.stored C := by
  constructor
  · intro h0
    by_cases hrun : ((!force && decide (t.count < t.gcLimit)) || decide (t.count ≤ 1)) = true
    · rw [CTab.gc_skip hrun] at h0; exact absurd h0 (lt_irrefl 0)
    · have g := CTab.gc_run_spec hC.nb h hrun
      rw [g.num] at h0
      obtain ⟨a, ha⟩ := List.exists_mem_of_length_pos h0
      have ha := List.mem_filter.1 ha
      refine ⟨a, ha.1, fun hm => ?_⟩
      rw [g.stored] at hm
      have h1 : t.ref (.cell a) = 0 := by simpa using ha.2
      have h2 : ¬ t.ref (.cell a) = 0 := by simpa using (List.mem_filter.1 hm).2
      exact h2 h1
  · rintro ⟨a, ha, hn⟩
    by_contra h0
    have := (cgc_facts hC h force).2.2.2.2 (by omega)
    rw [this] at hn
    exact hn ha

/-- A collection either does nothing at all, or collects the numbers and then the nodes, these by force if numbers have been
collected. -/
theorem jgc_cases (force : Bool) :
    (force = false ∧ s.garbageCollect J force = (s, false)) ∨
    ∃ F, (F = if 0 < (s.ct.garbageCollect J.C force).2 then true else force) ∧
      (s.garbageCollect J force).1.ct = (s.ct.garbageCollect J.C force).1 ∧
      (∀ k, ((s.garbageCollect J force).1.tab k).tab = ((s.tab k).tab.garbageCollect J.U F).1) ∧
      ((s.garbageCollect J force).2 = true ↔ 0 < ((s.tab .v).tab.garbageCollect J.U F).2 ∨
        0 < ((s.tab .m).tab.garbageCollect J.U F).2 ∨ 0 < (s.ct.garbageCollect J.C force).2) := by
  by_cases hc : (!force && !JState.needs (s.tab .v).tab && !JState.needs (s.tab .m).tab &&
      !JState.needs (s.tab .d).tab && !s.ct.possiblyNeedsCollection) = true
  · left
    refine ⟨?_, ?_⟩
    · cases force
      · rfl
      · simp at hc
    · unfold JState.garbageCollect; rw [if_pos hc]
  · right
    have he : s.garbageCollect J force = JState.gcNodes J { s with ct := (s.ct.garbageCollect J.C force).1 }
        (if 0 < (s.ct.garbageCollect J.C force).2 then true else force) (s.ct.garbageCollect J.C force).2 := by
      unfold JState.garbageCollect; rw [if_neg hc]
    refine ⟨_, rfl, ?_⟩
    obtain ⟨g1, _, g3⟩ := gcNodes_rest (J := J) (s := { s with ct := (s.ct.garbageCollect J.C force).1 })
      (if 0 < (s.ct.garbageCollect J.C force).2 then true else force) (s.ct.garbageCollect J.C force).2
    rw [he]
    refine ⟨g1, fun k => by rw [g3], ?_⟩
    unfold JState.gcNodes
    simp only [Bool.or_eq_true, decide_eq_true_eq, or_assoc]

/-- The result of a collection: a vector node, a matrix node or a number has been removed. -/
theorem C94_result_partial (hJ : J.Good) (htol : ∀ τ, tols τ → 0 ≤ τ) (h : JReach J tols s) (force : Bool) :
    (s.garbageCollect J force).2 = true ↔
      ∃ x, s.Gone J (s.garbageCollect J force).1 x ∧ ∀ a, x ≠ .node .d a := by
  obtain ⟨pin, hi⟩ := h.inv hJ htol
  rcases jgc_cases (J := J) (s := s) force with ⟨_, h0⟩ | ⟨F, _, g1, g2, g3⟩
  · rw [h0]
    constructor
    · intro h1; exact absurd h1 (by simp)
    · rintro ⟨x, ⟨h1, h2⟩, _⟩; exact absurd h1 h2
  · rw [g3, ugc_pos_iff, ugc_pos_iff, cgc_pos_iff hJ.C (hi.ct.wf htol hJ.C)]
    constructor
    · rintro (⟨a, h1, h2⟩ | ⟨a, h1, h2⟩ | ⟨a, h1, h2⟩)
      · exact ⟨.node .v a, ⟨h1, fun h3 => h2 (by rw [← g2]; exact h3)⟩, fun b => by simp⟩
      · exact ⟨.node .m a, ⟨h1, fun h3 => h2 (by rw [← g2]; exact h3)⟩, fun b => by simp⟩
      · refine ⟨.num (.cell a), ⟨h1, fun h3 => h2 ?_⟩, fun b => by simp⟩
        have h3 : a ∈ (s.garbageCollect J force).1.ct.stored J.C := h3
        rwa [g1] at h3
    · rintro ⟨x, ⟨h1, h2⟩, h3⟩
      cases x with
      | node k a =>
        have h4 : a ∉ ((s.tab k).tab.garbageCollect J.U F).1.all := fun h5 => h2 (by
          show a ∈ ((s.garbageCollect J force).1.tab k).tab.all
          rw [g2]; exact h5)
        cases k with
        | v => exact Or.inl ⟨a, h1, h4⟩
        | m => exact Or.inr (Or.inl ⟨a, h1, h4⟩)
        | d => exact absurd rfl (h3 a)
      | num l =>
        cases l with
        | cell a =>
          refine Or.inr (Or.inr ⟨a, h1, fun h5 => h2 ?_⟩)
          show a ∈ (s.garbageCollect J force).1.ct.stored J.C
          rw [g1]; exact h5
        | _ => exact absurd trivial h2

/-- Nothing appears in a collection. -/
theorem C94_subset (hJ : J.Good) (htol : ∀ τ, tols τ → 0 ≤ τ) (h : JReach J tols s) (force : Bool) {x : PRef}
    (hx : (s.garbageCollect J force).1.Known J x) : s.Known J x := by
  obtain ⟨pin, hi⟩ := h.inv hJ htol
  rcases jgc_cases (J := J) (s := s) force with ⟨_, h0⟩ | ⟨F, _, g1, g2, _⟩
  · rwa [h0] at hx
  · cases x with
    | node k a =>
      have hx : a ∈ ((s.garbageCollect J force).1.tab k).tab.all := hx
      rw [g2] at hx
      exact gc_subset J.U _ F hx
    | num l =>
      cases l with
      | cell a =>
        have hx : a ∈ (s.garbageCollect J force).1.ct.stored J.C := hx
        rw [g1] at hx
        exact (cgc_facts hJ.C (hi.ct.wf htol hJ.C) force).2.2.1 a hx
      | _ => exact trivial

/-- After a forced collection of a node table every stored node is referenced. -/
theorem ugc_forced_ref {W : Type} {C : UCfg} {n : Nat} {t : UTable W n} (hc : t.nodeCount = t.all.length) {a : Nat}
    (ha : a ∈ (t.garbageCollect C true).1.all) : (t.mem a).ref ≠ 0 := by
  by_cases hcond : ((!true && decide (t.nodeCount < t.gcLimit)) || decide (t.nodeCount = 0)) = true
  · exfalso
    have h0 : t.nodeCount = 0 := by simpa using hcond
    have h1 := gc_subset C t true ha
    rw [List.length_eq_zero_iff.1 (hc.symm.trans h0)] at h1
    exact absurd h1 (List.not_mem_nil)
  · rw [gc_all_run C t true hcond] at ha
    simpa using (List.mem_filter.1 ha).2

/-- A collection right after a forced one, forced or not, removes nothing and returns `false`. -/
theorem C94_again (hJ : J.Good) (htol : ∀ τ, tols τ → 0 ≤ τ) (h : JReach J tols s) (force : Bool) :
    (∀ x, ¬ (s.garbageCollect J true).1.Gone J ((s.garbageCollect J true).1.garbageCollect J force).1 x) ∧
    ((s.garbageCollect J true).1.garbageCollect J force).2 = false := by
  have h' : JReach J tols (s.garbageCollect J true).1 := h.step (.garbageCollect true)
  have key : ∀ x, ¬ (s.garbageCollect J true).1.Gone J ((s.garbageCollect J true).1.garbageCollect J force).1 x := by
    obtain ⟨pin, hi⟩ := h.inv hJ htol
    obtain ⟨pin', hi'⟩ := h'.inv hJ htol
    rintro x ⟨h1, h2⟩
    rcases jgc_cases (J := J) (s := (s.garbageCollect J true).1) force with ⟨_, h0⟩ | ⟨F, _, g1, g2, _⟩
    · rw [h0] at h2; exact h2 h1
    rcases jgc_cases (J := J) (s := s) true with ⟨h0, _⟩ | ⟨F', hF', g1', g2', _⟩
    · exact absurd h0 (by decide)
    have hF'' : F' = true := by rw [hF']; split <;> rfl
    subst hF''
    cases x with
    | node k a =>
      refine h2 ?_
      show a ∈ (((s.garbageCollect J true).1.garbageCollect J force).1.tab k).tab.all
      rw [g2]
      refine gc_keeps J.U _ F h1 ?_
      have h3 : a ∈ ((s.garbageCollect J true).1.tab k).tab.all := h1
      rw [g2'] at h3 ⊢
      rw [gc_mem]
      exact ugc_forced_ref ((hi.tab k).inv hJ.U).uwf.count h3
    | num l =>
      cases l with
      | cell a =>
        have h3 : a ∈ (s.garbageCollect J true).1.ct.stored J.C := h1
        refine h2 ?_
        show a ∈ ((s.garbageCollect J true).1.garbageCollect J force).1.ct.stored J.C
        rw [g1]
        by_cases hrun : ((!true && decide (s.ct.count < s.ct.gcLimit)) || decide (s.ct.count ≤ 1)) = true
        · have hsk : ((!force && decide ((s.garbageCollect J true).1.ct.count < (s.garbageCollect J true).1.ct.gcLimit)) ||
              decide ((s.garbageCollect J true).1.ct.count ≤ 1)) = true := by
            rw [g1', CTab.gc_skip hrun]
            have : s.ct.count ≤ 1 := by simpa using hrun
            simp [this]
          rw [CTab.gc_skip hsk]
          exact h3
        · have g := CTab.gc_run_spec hJ.C.nb (hi.ct.wf htol hJ.C) hrun
          refine (cgc_facts hJ.C (hi'.ct.wf htol hJ.C) force).2.2.2.1 a h3 ?_
          rw [g1'] at h3 ⊢
          rw [g.ref]
          rw [g.stored] at h3
          simpa using (List.mem_filter.1 h3).2
      | _ => exact h2 trivial
  refine ⟨key, ?_⟩
  by_contra hc
  obtain ⟨x, hx, _⟩ := (C94_result_partial hJ htol h' force).1 (by simpa using hc)
  exact key x hx

namespace Ex

/-- The edges of the density matrix of |0⟩. -/
def es94 : Fin 4 → PtrEdge := ![⟨none, CNum.one⟩, ⟨none, CNum.zero⟩, ⟨none, CNum.zero⟩, ⟨none, CNum.zero⟩]

/-- One node of a density matrix is made, and not referenced. -/
def j94 : JState ℚ := { j0 with
  tab := Function.update j0.tab .d
    { j0.tab .d with tab := ((j0.tab .d).tab.mkNodeBy (j0.sameEdges JQ) (JQ.H .d) JQ.U 0 es94 false true).1 } }

theorem j94_reach : JReach JQ (0 ≤ ·) j94 := by
  have h0 : JReach JQ (0 ≤ ·) j0 := .init (1 / 100) (by norm_num) 2 _ (fun _ => by norm_num) _
  have hn : ∀ i, (es94 i).p = none := by decide
  refine h0.step (.mk .d 0 es94 false true (by decide +kernel) ?_ ?_)
  · intro i b hb
    exact absurd ((hn i).symm.trans hb) (by simp)
  · intro i
    rw [known_ptr]
    refine ⟨?_, fun b hb => absurd ((hn i).symm.trans hb) (by simp)⟩
    fin_cases i <;> constructor <;> decide +kernel

/-- The node is removed, but the collection returns `false`. -/
theorem j94_gc : (j94.tab .d).tab.all = [0] ∧ ((j94.garbageCollect JQ true).1.tab .d).tab.all = [] ∧
    (j94.garbageCollect JQ true).2 = false := by
  decide +kernel

/-- In the state of C17 a number is removed, and the collection says so. -/
example : ∃ x, j6.Gone JQ (j6.garbageCollect JQ true).1 x ∧ ∀ a, x ≠ .node .d a :=
  (C94_result_partial JQ_good (fun _ h => h) j6_reach true).1 j6_gc.2.2.2.2.2

example : ((j6.garbageCollect JQ true).1.garbageCollect JQ true).2 = false :=
  (C94_again JQ_good (fun _ h => h) j6_reach true).2

end Ex

/-- The result is not `true` whenever something has been removed. -/
theorem C94_density_false :
    ¬ ∀ (J : JCfg ℚ) (s : JState ℚ), J.Good → JReach J (0 ≤ ·) s → ∀ force x,
      s.Gone J (s.garbageCollect J force).1 x → (s.garbageCollect J force).2 = true := by
  intro H
  have h := H Ex.JQ Ex.j94 Ex.JQ_good Ex.j94_reach true (.node .d 0) ⟨?_, ?_⟩
  · rw [Ex.j94_gc.2.2] at h; exact absurd h (by decide)
  · show 0 ∈ (Ex.j94.tab .d).tab.all
    rw [Ex.j94_gc.1]; exact List.mem_singleton.2 rfl
  · intro h2
    have h2 : 0 ∈ ((Ex.j94.garbageCollect Ex.JQ true).1.tab .d).tab.all := h2
    rw [Ex.j94_gc.2.1] at h2
    exact absurd h2 (List.not_mem_nil)

end DD
