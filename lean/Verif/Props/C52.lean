import Verif.Proofs.Measure
import Verif.Props.C15
import Verif.Props.C28
import Verif.Props.C31
import Verif.Props.C32

/-!
# C52: the size of a package

A package has at most 128 qubits. The constructors of states and gates accept exactly the numbers of qubits up to the
current size. Enlarging a package keeps all its diagrams; shrinking it does not (`C52_shrink_false`).
-/

namespace DD

variable {R : Type} [Field R] [LinearOrder R] [IsStrictOrderedRing R] [HasSqrt R] [LawfulSqrt R] {P : PCfg R} {h : PHist R}

omit [Field R] [LinearOrder R] [IsStrictOrderedRing R] [HasSqrt R] [LawfulSqrt R] in
/-- `resize` throws exactly for more than 128 qubits. -/
theorem C52_limit (nq : Nat) (s : Pkg R) : s.resize nq = none ↔ 128 < nq := by
  unfold Pkg.resize Pkg.maxQubits
  split_ifs with h <;> simp [h]

/-- No history leads to a package with more than 128 qubits, and all tables have the same number of levels. -/
theorem C52_reach (hC : P.C.Good) (hr : PReach P h) (k k' : Kind) :
    (h.pkg.ut k).nvars ≤ 128 ∧ (h.pkg.ut k).nvars = (h.pkg.ut k').nvars := by
  refine ⟨?_, hr.nvars_eq hC k k'⟩
  obtain ⟨h0, hs, hp⟩ := hr
  induction hp with
  | refl => cases hs with | init nq nbV nbM cV cM hq hV hM => cases k <;> exact hq
  | tail h1 h2 ih =>
    have hi := PReach.inv hC ⟨h0, hs, h1⟩
    rcases h2.nvars_cases hC hi with hn | ⟨nq, hq, hn⟩
    · rw [hn]; exact ih
    · rw [(hn k).2]; exact hq

/-- All diagrams of all histories span at most 128 qubits. -/
theorem C52_diagrams (hC : P.C.Good) (hr : PReach P h) {k : Kind} {l : Nat} {x : PEdge R} (hx : Valid (h.pkg.ut k) l x)
    (hw : x.w ≠ 0) : l ≤ (h.pkg.ut k).nvars ∧ l ≤ 128 := by
  have h1 := valid_nvars ((hr.inv hC).wf.tab k).uwf hx hw
  exact ⟨h1, h1.trans (C52_reach hC hr k k).1⟩

/-- The constructors of states, given enough labels, accept exactly the numbers of qubits up to the size of the package. -/
theorem C52_states {n : Nat} {st : List Basis} (bits : List Bool) (h1 : n ≤ st.length) :
    ((Pkg.makeZeroState P h.pkg n).isSome ↔ n ≤ (h.pkg.ut .v).nvars) ∧
    ((Pkg.makeBasisState P h.pkg n bits).isSome ↔ n ≤ (h.pkg.ut .v).nvars) ∧
    ((Pkg.makeBasisStates P h.pkg n st).isSome ↔ n ≤ (h.pkg.ut .v).nvars) := by
  unfold Pkg.makeZeroState Pkg.makeBasisState Pkg.makeBasisStates
  refine ⟨?_, ?_, ?_⟩
  · by_cases hn : n > (h.pkg.ut .v).nvars
    · rw [if_pos hn]; simp; omega
    · rw [if_neg hn]; simp; omega
  · by_cases hn : n > (h.pkg.ut .v).nvars
    · rw [if_pos hn]; simp; omega
    · rw [if_neg hn]; simp; omega
  · by_cases hn : n > (h.pkg.ut .v).nvars
    · rw [if_pos hn]; simp; omega
    · rw [if_neg hn, if_neg (by omega)]; simp; omega

/-- So do the constructors of gates. -/
theorem C52_gates (hC : P.C.Good) (hr : PReach P h) {n : Nat} (U : Fin 4 → Cx R) (V : Fin 4 → Fin 4 → Cx R) {cs : List Ctrl}
    {t t' : Nat} (ht : t < n) (ht' : t' < n) (hne : t ≠ t') (hcs : GoodControls cs t n) :
    ((Pkg.makeGateDD P h.pkg U n cs t).isSome ↔ n ≤ (h.pkg.ut .m).nvars) ∧
    ((Pkg.makeTwoQubitGateDD P h.pkg V n t t').isSome ↔ n ≤ (h.pkg.ut .m).nvars) := by
  by_cases hn : n ≤ (h.pkg.ut .m).nvars
  · obtain ⟨r, e, _⟩ := makeGateDD_spec hC.growth (U := U) hcs.sorted ht hcs.target (hr.inv hC).wf hn
    obtain ⟨r', e', _⟩ := makeTwoQubitGateDD_reach hC.growth (U := V) hne ht ht' (hr.inv hC).wf hn
    rw [e, e']
    simp [hn]
  · unfold Pkg.makeGateDD Pkg.makeTwoQubitGateDD
    rw [if_pos (by omega), if_pos (by omega)]
    simp; omega

/-- Enlarging a package up to 128 qubits succeeds, keeps all diagrams (referenced or not) and leads to a package all
theorems about histories apply to. -/
theorem C52_enlarge (hC : P.C.Good) (hr : PReach P h) {nq : Nat} (h1 : (h.pkg.ut .v).nvars ≤ nq) (h2 : nq ≤ 128) :
    ∃ s, h.pkg.resize nq = some s ∧ PReach P { h with pkg := s } ∧ (∀ k, (s.ut k).nvars = nq) ∧ Unchanged h.pkg s := by
  have hn : ∀ k, (h.pkg.ut k).nvars ≤ nq := fun k => (hr.nvars_eq hC k .v).le.trans h1
  cases hs : h.pkg.resize nq with
  | none => rw [C52_limit] at hs; omega
  | some s =>
    have hi := hr.inv hC
    obtain ⟨_, h4, h5, _⟩ := hi.resize hn hs
    refine ⟨s, rfl, hr.step (.resize nq s hn hs), fun k => by rw [h4 k], fun k l x hx => ?_⟩
    exact ⟨hx.mono (h5 k), funext fun d => amp_mono (h5 k) (hi.wf.tab k).child hx d⟩

/-- A package that contains diagrams must not be shrunk: there is a history of a unique table, a held edge `e` and a row of
successors `es` of the node it points to such that, after the table has been shrunk and enlarged again, the node built
from `es` is not the node of `e`. (The source has a remark about this, UniqueTable.hpp:47.) -/
theorem C52_shrink_false : ∃ (H : (Fin 2 → Edge Nat) → Nat) (C : UCfg) (s : UHist Nat 2) (e : Edge Nat) (a : Nat),
    C.Good ∧ UReach H C s ∧ e ∈ s.held ∧ e.p = some a ∧
      (s.tab.mkNode H C (s.tab.mem a).v (s.tab.mem a).e false false).2 = a ∧
      (((s.tab.resize 1).resize 2).mkNode H C (s.tab.mem a).v (s.tab.mem a).e false false).2 ≠ a :=
  ⟨Ex.H0, Ex.C0, Ex.s6, Ex.top, 2, Ex.C0_good, Ex.s6_reach, by decide +kernel, rfl, by decide +kernel, by decide +kernel⟩

end DD

namespace DD.Ex

/-- A package of six qubits that contains diagrams is enlarged to 128 qubits and a gate on all of them is built. -/
example : ∃ (h : PHist ℝ) (x : PEdge ℝ) (s : Pkg ℝ), PReach (PR ℝ) h ∧ Valid (h.pkg.ut .v) 3 x ∧ x.w ≠ 0 ∧
    h.pkg.resize 128 = some s ∧ Valid (s.ut .v) 3 x ∧ (Pkg.makeGateDD (PR ℝ) h.pkg U0 128 [] 127) = none ∧
    (Pkg.makeGateDD (PR ℝ) s U0 128 [] 127).isSome := by
  obtain ⟨h, x, y, A, B, hr, hn, vx, vy, vA, vB, hx, hA, ax, ay, aA, aB, wx, wy, wA, wB⟩ := setup (R := ℝ)
  obtain ⟨s, h1, h2, h3, h4⟩ := C52_enlarge (PR_good ℝ) hr (nq := 128) (by rw [hn]; omega) le_rfl
  have hcs : GoodControls [] 127 128 := ⟨by simp, by simp, by simp⟩
  refine ⟨h, x, s, hr, vx, wx, h1, (h4 _ _ _ vx).1, C31_reject (by rw [hn]; omega) _ _ _, ?_⟩
  exact (C52_gates (PR_good ℝ) h2 U0 (fun _ _ => 0) (t := 127) (t' := 0) (by omega) (by omega) (by omega) hcs).1.2
    (by rw [h3])

end DD.Ex
