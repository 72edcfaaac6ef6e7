import Verif.Proofs.CTabPick
import Mathlib.Data.Rat.Floor

/-!
# C01: number lookup is accurate

"Whatever was looked up, inserted or garbage collected before, looking up a non-negative real number in the number table
yields an entry (stored or static) whose value differs from the requested number by at most the tolerance."

`CReach C tols t`: `t` is the table after some sequence of lookups, reference changes, collections, clears and changes of
the tolerance (to values in `tols`). `Live` entries are the static ones and the ones stored in the table.
-/

namespace DD

variable {R : Type} [Field R] [LinearOrder R] [IsStrictOrderedRing R] [FloorRing R] {C : CCfg R} {t : CTab R}

/-- Every lookup is accurate, with an arbitrary sequence of non-negative tolerances before. -/
theorem C01_lookup_accurate (hC : C.Good) (hr : CReach C (0 ≤ ·) t) {v : R} (hv : 0 ≤ v) :
    let r := t.lookup C v
    r.1.Live C r.2 ∧ |r.1.value C r.2 - v| ≤ t.tol := by
  have hw := hr.wf (fun _ h => h) hC
  have o := CTab.lookup_spec hC hw hv
  generalize t.lookup C v = r at o
  cases o with
  | hit same live acc => exact ⟨same.live.2 live, by dsimp only; rw [same.value]; exact acc⟩
  | @miss t' e link far =>
    refine ⟨(link.live hC.nb ((CTab.lookups_same t _).wf hw)).2 (Or.inr rfl), ?_⟩
    have : CTab.value C t' (.cell e) = v := link.val
    dsimp only
    rw [this, sub_self, abs_zero]
    exact hw.tol

/-- The reported statistics count every lookup as either a hit or an insertion. -/
theorem C01_statistics (hC : C.Good) (hr : CReach C (0 ≤ ·) t) : t.hits + t.inserts = t.lookups :=
  hr.stats (fun _ h => h) hC

namespace Ex

/-- A small configuration over the rationals: 2 buckets, chunks of 4 entries, 7/10 in place of sqrt(1/2). -/
def CQ : CCfg ℚ := ⟨2, 4, 2, 8, 10, 5, 7 / 10⟩

theorem CQ_good : CQ.Good := ⟨by decide, by decide, by decide, by decide⟩

/-- The table after a sequence of lookups. -/
def looks (C : CCfg ℚ) (τ : ℚ) (vs : List ℚ) : CTab ℚ := vs.foldl (fun t v => (t.lookup C v).1) (CTab.create C τ)

theorem looks_quiet (C : CCfg ℚ) (t : CTab ℚ) (vs : List ℚ) (h : ∀ v ∈ vs, 0 ≤ v) :
    CQuiet C t (vs.foldl (fun t v => (t.lookup C v).1) t) := by
  have key : ∀ (vs : List ℚ) (u : CTab ℚ), CQuiet C t u → (∀ v ∈ vs, 0 ≤ v) →
      CQuiet C t (vs.foldl (fun t v => (t.lookup C v).1) u) := by
    intro vs
    induction vs with
    | nil => intro u hu _; exact hu
    | cons v vs ih =>
      intro u hu h
      rw [List.foldl_cons]
      exact ih _ (hu.lookup v (h v (by simp))) (fun w hw => h w (by simp [hw]))
  exact key vs t .refl h

theorem looks_reach (C : CCfg ℚ) (τ : ℚ) (vs : List ℚ) (h : ∀ v ∈ vs, 0 ≤ v) : CReach C (· = τ) (looks C τ vs) :=
  CTab.CQuiet.reach (CReach.create τ rfl) (looks_quiet C _ vs h)

/-- A history with a change of tolerance, insertions and a collection; afterwards 9/20 is answered by the entry for 1/2
at the coarse tolerance 1/10. -/
example : ∃ t, CReach CQ (0 ≤ ·) t ∧ (t.lookup CQ (9 / 20)).2 = .cell 0 ∧ t.count = 1 ∧ t.gcRuns = 1 := by
  refine ⟨_, (((CReach.create (1 / 100) (by norm_num)).step (.lookup (1 / 5) (by norm_num))).step
    (.garbageCollect true)).step (.setTolerance (1 / 10) (by norm_num)), ?_⟩
  decide +kernel

end Ex
end DD
