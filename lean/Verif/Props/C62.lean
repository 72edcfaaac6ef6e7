import Verif.Proofs.DensityEx
import Verif.Model.Build
import Mathlib.Algebra.Order.Ring.Rat
import Mathlib.Algebra.Field.Rat
import Mathlib.Data.Fintype.Pi

/-!
# C62: applying an operation to a density matrix

Full statement: after any history of calls, `applyOperationToDensity(e, op, gen)` for a referenced density matrix `e` does not throw, and the edge it
returns stands for `U ρ U†`, whatever `gen` is. This is proved for `gen = false` in histories in which it is never set. With `gen = true` it is false
(`C62_false`): three unitary operations applied to the zero state give a wrong density matrix.
-/

namespace DD

section

variable {R : Type} [Field R] [LinearOrder R] [IsStrictOrderedRing R] [HasSqrt R] [LawfulSqrt R]

/-- Without `generateDensityMatrix` the operation is applied: no exception, the edge returned has no flags and stands for `U ρ U†`, it is referenced
in place of the old edge, and every other density matrix of the package is what it was. -/
theorem C62_apply_partial {D : DCfg R} (hC : D.P.C.Good) {h : DHist R} (hr : DReach D h) {l : Nat} {e op : PEdge R} (he : e ∈ h.heldD)
    (hv : Valid h.st.dt.plain l e) (hop : Valid (h.st.pkg.ut .m) l op) (hl : l ≤ h.st.dt.nvars) :
    ∃ (s : DState R) (x : PEdge R), DState.applyOperationToDensity D h.st (.ofD e) op false = some (s, .ofD x) ∧
      densityOf s l (.ofD x) = mat (h.st.pkg.ut .m) l op * densityOf h.st l (.ofD e) * adj (mat (h.st.pkg.ut .m) l op) ∧
      Valid s.dt.plain l x ∧ DReach D { h with st := s, heldD := (x :: h.heldD).erase e } ∧
      (∀ l' e', Valid h.st.dt.plain l' e' → Valid s.dt.plain l' e' ∧ densityOf s l' (.ofD e') = densityOf h.st l' (.ofD e')) ∧
      Unchanged h.st.pkg s.pkg := by
  have hi := hr.inv hC
  obtain ⟨r, h1, h2, h3, h4, h5, h6, h7⟩ := hi.apply hC he hv hop hl
  refine ⟨r.1, ⟨r.2.p, r.2.w⟩, by rw [← h2]; exact h1, ?_, h6, ?_, ?_, h4.unchanged hi.pkg.wf⟩
  · rw [densityOf_eq, densityOf_eq]; exact h7
  · obtain ⟨h0, hs, hp⟩ := hr
    exact ⟨h0, hs, hp.tail (DStep.applyOperationToDensity l e op r hv hop hl he h1)⟩
  · intro l' e' hv'
    refine ⟨hv'.mono h5, ?_⟩
    rw [densityOf_eq, densityOf_eq]
    funext a b
    exact amp_mono h5 hi.wf.child hv' _

/-- A controlled gate is applied to the zero state of three qubits. -/
example : ∃ (h : DHist ℝ) (e op : PEdge ℝ) (s : DState ℝ) (x : PEdge ℝ), DReach (Ex.DR ℝ) h ∧ e ∈ h.heldD ∧
    DState.applyOperationToDensity (Ex.DR ℝ) h.st (.ofD e) op false = some (s, .ofD x) ∧
    densityOf s 3 (.ofD x) = gateMat (fun a b => Ex.U0 (rc a b)) Ex.cs0 1 * zeroRho ℝ 3 *
      adj (gateMat (fun a b => Ex.U0 (rc a b)) Ex.cs0 1) := by
  obtain ⟨h, e, op, hr, hn, he, hv, hop, mop, me⟩ := Ex.setupD (R := ℝ)
  obtain ⟨s, x, h1, h2, _⟩ := C62_apply_partial (Ex.PR_good ℝ) hr he hv hop (by omega)
  exact ⟨h, e, op, s, x, hr, he, h1, by rw [h2, mop, me]⟩

end

section

variable {R : Type} [Field R] [LinearOrder R] [IsStrictOrderedRing R] [HasSqrt R]

/-- A density matrix and its package: the zero state, and operations given as matrices applied to it one after the other. -/
inductive DRun (D : DCfg R) (n : Nat) : DState R → DOp R → Prop
  | zero (nbV nbM nbD : Nat) (cellV : Node (Cx R) 2) (cellM : Node (Cx R) 4) (cellD : Node (Cx R × DFlags) 4) (z : DState R × PEdge R) :
      0 < nbV → 0 < nbM → 0 < nbD → z = DState.makeZeroDensityOperator D (DState.init D n nbV nbM nbD cellV cellM cellD) n →
      DRun D n (z.1.incRef D z.2) (.ofD z.2)
  | apply (s : DState R) (e : DOp R) (M : List (List (Cx R))) (r : Pkg R × PEdge R) (gen : Bool) (z : DState R × DOp R) :
      DRun D n s e → Pkg.makeDDFromMatrix D.P s.pkg M = some r →
      DState.applyOperationToDensity D { s with pkg := r.1 } e r.2 gen = some z → DRun D n z.1 z.2

end

namespace Ex62

/-- No function used here takes square roots. -/
local instance : HasSqrt ℚ := ⟨fun x => x⟩

/-- The default configuration has one bucket in the table of density matrix nodes and in each of the caches (Package.hpp:67-71). -/
def P0 : PCfg ℚ := ⟨UCfg.default, fun _ _ => 0, fun _ _ => 0, fun _ _ => 0, fun _ _ => 0, fun _ => 0, fun _ => 0, fun _ => 0⟩

def D0 : DCfg ℚ := ⟨P0, fun _ => 0, fun _ => 0, fun _ => 0⟩

def s0 (n : Nat) : DState ℚ :=
  DState.init D0 n 1 1 1 ⟨0, fun _ => zeroE, 0, false, false⟩ ⟨0, fun _ => zeroE, 0, false, false⟩ ⟨0, fun _ => ⟨none, 0, .none⟩, 0, false, false⟩

/-- A rotation of qubit 1. -/
def VI : List (List (Cx ℚ)) :=
  [[⟨3/5,0⟩, 0, ⟨0,4/5⟩, 0], [0, ⟨3/5,0⟩, 0, ⟨0,4/5⟩], [⟨0,4/5⟩, 0, ⟨3/5,0⟩, 0], [0, ⟨0,4/5⟩, 0, ⟨3/5,0⟩]]

/-- The controlled-NOT gate with control 1 and target 0. -/
def CN : List (List (Cx ℚ)) := [[1,0,0,0], [0,1,0,0], [0,0,0,1], [0,0,1,0]]

def start : DState ℚ × DOp ℚ :=
  let r := DState.makeZeroDensityOperator D0 (s0 2) 2
  (r.1.incRef D0 r.2, DOp.ofD r.2)

def applyM (M : List (List (Cx ℚ))) (x : DState ℚ × DOp ℚ) : Option (DState ℚ × DOp ℚ) :=
  (Pkg.makeDDFromMatrix D0.P x.1.pkg M).bind fun r => DState.applyOperationToDensity D0 { x.1 with pkg := r.1 } x.2 r.2 true

theorem start_run : DRun D0 2 start.1 start.2 := .zero 1 1 1 _ _ _ _ (by decide) (by decide) (by decide) rfl

theorem applyM_run {M : List (List (Cx ℚ))} {x y : DState ℚ × DOp ℚ} (hx : DRun D0 2 x.1 x.2) (h : applyM M x = some y) : DRun D0 2 y.1 y.2 := by
  unfold applyM at h
  obtain ⟨r, h1, h2⟩ := Option.bind_eq_some_iff.1 h
  exact .apply _ _ M r true y hx h1 h2

/-- The state after the rotation and the controlled-NOT gate. -/
def two : Option (DState ℚ × DOp ℚ) := (applyM VI start).bind (applyM CN)

/-- One entry after applying the rotation once more, and what it should be. -/
def bad : Option (Cx ℚ × Cx ℚ) :=
  two.bind fun x => (Pkg.makeDDFromMatrix D0.P x.1.pkg VI).bind fun r =>
    (DState.applyOperationToDensity D0 { x.1 with pkg := r.1 } x.2 r.2 true).map fun z =>
      (densityOf z.1 2 z.2 ![0,0] ![1,0], (mat (r.1.ut .m) 2 r.2 * densityOf x.1 2 x.2 * adj (mat (r.1.ut .m) 2 r.2)) ![0,0] ![1,0])

set_option maxRecDepth 100000 in
theorem bad_eq : bad = some (⟨-288/625, 0⟩, ⟨-144/625, 0⟩) := by decide +kernel

/-- With `generateDensityMatrix` the result of `applyOperationToDensity` can be wrong: in the default configuration, after two unitary operations on
the zero state of two qubits, the third one gives a matrix that is not `U ρ U†`. -/
theorem C62_false : ∃ (s : DState ℚ) (e : DOp ℚ) (r : Pkg ℚ × PEdge ℚ) (z : DState ℚ × DOp ℚ), D0.P.C.Good ∧ DRun D0 2 s e ∧
    Pkg.makeDDFromMatrix D0.P s.pkg VI = some r ∧
    DState.applyOperationToDensity D0 { s with pkg := r.1 } e r.2 true = some z ∧
    densityOf z.1 2 z.2 ≠ mat (r.1.ut .m) 2 r.2 * densityOf { s with pkg := r.1 } 2 e * adj (mat (r.1.ut .m) 2 r.2) := by
  have hb := bad_eq
  unfold bad at hb
  obtain ⟨x, h1, h2⟩ := Option.bind_eq_some_iff.1 hb
  obtain ⟨r, h3, h4⟩ := Option.bind_eq_some_iff.1 h2
  obtain ⟨z, h5, h6⟩ := Option.map_eq_some_iff.1 h4
  obtain ⟨y, h7, h8⟩ := Option.bind_eq_some_iff.1 h1
  refine ⟨x.1, x.2, r, z, UCfg.default_good, applyM_run (applyM_run start_run h7) h8, h3, h5, fun hc => ?_⟩
  have h9 : densityOf z.1 2 z.2 ![0,0] ![1,0] = _ := congrFun (congrFun hc ![0,0]) ![1,0]
  have h10 := congrArg Prod.fst h6
  have h11 := congrArg Prod.snd h6
  dsimp only at h10 h11
  have : (⟨-288/625, 0⟩ : Cx ℚ) = ⟨-144/625, 0⟩ := by rw [← h10, ← h11, h9]; rfl
  have := congrArg Cx.re this
  norm_num at this

end Ex62

end DD
