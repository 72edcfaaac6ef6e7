import Verif.Proofs.DensityEx

/-!
# C63: density matrix diagrams without the density matrix mode

Histories in which `generateDensityMatrix` is never set. Products have operands that are density matrices or matrices (`densityFromMatrixEdge`).
-/

namespace DD

variable {R : Type} [Field R] [LinearOrder R] [IsStrictOrderedRing R] [HasSqrt R] [LawfulSqrt R]

/-- The matrix an operand stands for: a density matrix, or a matrix of the package. -/
def operandOf (s : DState R) (l : Nat) : DKind → PEdge R → Matrix (Fin l → Fin 2) (Fin l → Fin 2) (Cx R)
  | .d, e => densityOf s l (.ofD e)
  | .m, e => mat (s.pkg.ut .m) l e

/-- The edge is a diagram of the package over `l` qubits. -/
def operandIn (s : DState R) (l : Nat) : DKind → PEdge R → Prop
  | .d, e => Valid s.dt.plain l e
  | .m, e => Valid (s.pkg.ut .m) l e

/-- Every density matrix and every vector and matrix of `s` is in `s'` and has the same value there. -/
def UnchangedD (s s' : DState R) : Prop :=
  (∀ l e, Valid s.dt.plain l e → Valid s'.dt.plain l e ∧ densityOf s' l (.ofD e) = densityOf s l (.ofD e)) ∧ Unchanged s.pkg s'.pkg

theorem DInv.unchanged {D : DCfg R} {h : DHist R} (hi : DInv D h) {s : DState R} (hx : DExt D h.st s) : UnchangedD h.st s := by
  refine ⟨fun l e hv => ⟨hv.mono hx.le, ?_⟩, hx.pkg.unchanged hi.pkg.wf⟩
  rw [densityOf_eq, densityOf_eq]
  exact mat_ext_amp.2 fun d => amp_mono hx.le hi.wf.child hv d

/-- `makeZeroDensityOperator(n)` is the density matrix of the zero state: one in the upper left corner, zero elsewhere. -/
theorem C63_zero {D : DCfg R} (hC : D.P.C.Good) {h : DHist R} (hr : DReach D h) {n : Nat} (hn : n ≤ h.st.dt.nvars) :
    let r := DState.makeZeroDensityOperator D h.st n
    Valid r.1.dt.plain n r.2 ∧ densityOf r.1 n (.ofD r.2) = zeroRho R n ∧
      DReach D { h with st := r.1 } ∧ UnchangedD h.st r.1 := by
  have hi := hr.inv hC
  have z := DState.makeZero_spec hC hi.wf n hn
  refine ⟨z.valid, ?_, hr.step (.makeZeroDensityOperator n hn), hi.unchanged z.ext⟩
  rw [densityOf_eq]
  funext a b
  refine (z.val _).trans ?_
  have : ∀ x y : Fin 2, rc x y = 0 ↔ x = 0 ∧ y = 0 := by decide
  unfold zeroRho
  simp only [this, forall_and]

/-- A node built from four density matrices has them as its blocks. -/
theorem C63_makeDDNode {D : DCfg R} (hC : D.P.C.Good) {h : DHist R} (hr : DReach D h) {v : Nat} {es : Fin 4 → PEdge R} (cached : Bool)
    (hv : v < h.st.dt.nvars) (hes : ∀ i, Valid h.st.dt.plain v (es i)) :
    let r := DState.makeNode D h.st v es cached false
    Valid r.1.dt.plain (v + 1) r.2 ∧
      (∀ i j, densityOf r.1 (v + 1) (.ofD r.2) i j = densityOf h.st v (.ofD (es (rc (i (Fin.last v)) (j (Fin.last v))))) (Fin.init i) (Fin.init j)) ∧
      DReach D { h with st := r.1 } ∧ UnchangedD h.st r.1 := by
  have hi := hr.inv hC
  have z := DState.makeNode_spec hC cached hi.wf hv hes
  refine ⟨z.valid, fun i j => ?_, hr.step (.makeDDNode v es cached hv hes), hi.unchanged z.ext⟩
  rw [densityOf_eq, densityOf_eq]
  exact z.val _

/-- The product of two operands, in any history. -/
theorem C63_multiply {D : DCfg R} (hC : D.P.C.Good) {h : DHist R} (hr : DReach D h) {l : Nat} {kx ky : DKind} {x y : PEdge R}
    (hl : l ≤ h.st.dt.nvars) (hx : operandIn h.st l kx x) (hy : operandIn h.st l ky y) :
    let r := DState.multiply D false h.st ⟨kx, x.p, .none, x.w⟩ ⟨ky, y.p, .none, y.w⟩
    Valid r.1.dt.plain l r.2 ∧ densityOf r.1 l (.ofD r.2) = operandOf h.st l kx x * operandOf h.st l ky y ∧
      DReach D { h with st := r.1 } ∧ UnchangedD h.st r.1 := by
  have hi := hr.inv hC
  have vx : Valid (h.st.nodes kx) l x := by cases kx <;> exact hx
  have vy : Valid (h.st.nodes ky) l y := by cases ky <;> exact hy
  have z := DState.multiply_spec hC hi.wf hl vx vy
  refine ⟨z.valid, ?_, hr.step (.multiply l kx ky x y hl vx vy), hi.unchanged z.ext⟩
  rw [densityOf_eq]
  funext a b
  refine (z.val _).trans ((mulAmp_mat _ _ _ _ _ _ _).trans ?_)
  have : ∀ (k : DKind) (e : PEdge R), mat (h.st.nodes k) l e = operandOf h.st l k e := by
    intro k e
    cases k
    · exact (densityOf_eq _ _ _).symm
    · rfl
  rw [this, this]

/-- Density matrices are equal if and only if their edges are. -/
theorem C63_canonical {D : DCfg R} (hC : D.P.C.Good) {h : DHist R} (hr : DReach D h) {l : Nat} {x y : PEdge R} (hx : Valid h.st.dt.plain l x)
    (hy : Valid h.st.dt.plain l y) : densityOf h.st l (.ofD x) = densityOf h.st l (.ofD y) ↔ x = y := by
  refine ⟨fun he => ?_, fun he => by rw [he]⟩
  rw [densityOf_eq, densityOf_eq] at he
  exact (hr.inv hC).wf.ddwf.canonical hx hy (mat_ext_amp.1 he)

/-- Density matrices that stay referenced keep their value through every call, including garbage collection. -/
theorem C63_step {D : DCfg R} (hC : D.P.C.Good) {h h' : DHist R} (hr : DReach D h) (hs : DStep D h h') {l : Nat} {e : PEdge R}
    (hv : Valid h.st.dt.plain l e) (hh : e ∈ h.heldD) (hh' : e ∈ h'.heldD) :
    Valid h'.st.dt.plain l e ∧ densityOf h'.st l (.ofD e) = densityOf h.st l (.ofD e) := by
  obtain ⟨h1, h2⟩ := hs.value hC (hr.inv hC) hv hh hh'
  refine ⟨h1, ?_⟩
  rw [densityOf_eq, densityOf_eq]
  exact mat_ext_amp.2 h2

/-- Releasing a reference to a density matrix that is held does not throw. -/
theorem C63_decRef {D : DCfg R} (hC : D.P.C.Good) {h : DHist R} (hr : DReach D h) {e : PEdge R} (he : e ∈ h.heldD) :
    ∃ s, DState.decRef D h.st e = some s ∧ DReach D { h with st := s, heldD := h.heldD.erase e } := by
  obtain ⟨s, h1, _⟩ := (hr.inv hC).decRef hC he
  exact ⟨s, h1, hr.step (.decRef e s he h1)⟩

/-- The hypotheses are met: a controlled gate times the zero state of three qubits, with a forced garbage collection afterwards. -/
example : ∃ (h : DHist ℝ) (e op : PEdge ℝ), DReach (Ex.DR ℝ) h ∧
    (let r := DState.multiply (Ex.DR ℝ) false h.st ⟨.m, op.p, .none, op.w⟩ ⟨.d, e.p, .none, e.w⟩
     densityOf r.1 3 (.ofD r.2) = gateMat (fun a b => Ex.U0 (rc a b)) Ex.cs0 1 * zeroRho ℝ 3 ∧
     densityOf (r.1.garbageCollect (Ex.DR ℝ) true false false).1 3 (.ofD e) = zeroRho ℝ 3) := by
  obtain ⟨h, e, op, hr, hn, he, hv, hop, mop, me⟩ := Ex.setupD (R := ℝ)
  have hC := Ex.PR_good ℝ
  obtain ⟨_, h2, h3, h4⟩ := C63_multiply (kx := .m) (ky := .d) hC hr (l := 3) (by omega) hop hv
  refine ⟨h, e, op, hr, h2.trans ?_, ?_⟩
  · show mat _ _ _ * densityOf _ _ _ = _
    rw [mop, me]
  · exact ((C63_step hC h3 (.garbageCollect true false false) (h4.1 3 e hv).1 he he).2.trans (h4.1 3 e hv).2).trans me

end DD
