import Verif.Proofs.RealEx

/-!
# C21: canonicity

Two diagrams of one package over the same qubits that represent the same vector (matrix) are the identical edge.
-/

namespace DD

variable {R : Type} [Field R] [LinearOrder R] [IsStrictOrderedRing R] [HasSqrt R] [LawfulSqrt R] {P : PCfg R}
  {h h' : PHist R}

theorem C21_vector (hC : P.C.Good) (hr : PReach P h) {l : Nat} {x y : PEdge R} (hx : Valid (h.pkg.ut .v) l x)
    (hy : Valid (h.pkg.ut .v) l y) : vec (h.pkg.ut .v) l x = vec (h.pkg.ut .v) l y ↔ x = y :=
  ⟨fun he => ((hr.inv hC).wf.tab .v).canonical hx hy (fun d => congrFun he d), fun he => by rw [he]⟩

theorem C21_matrix (hC : P.C.Good) (hr : PReach P h) {l : Nat} {x y : PEdge R} (hx : Valid (h.pkg.ut .m) l x)
    (hy : Valid (h.pkg.ut .m) l y) : mat (h.pkg.ut .m) l x = mat (h.pkg.ut .m) l y ↔ x = y :=
  ⟨fun he => ((hr.inv hC).wf.tab .m).canonical hx hy (mat_ext_amp.1 he), fun he => by rw [he]⟩

/-- The number of qubits of a diagram other than zero is determined by the edge. -/
theorem C21_levels {k : Kind} {l l' : Nat} {x : PEdge R} (hx : Valid (h.pkg.ut k) l x) (hx' : Valid (h.pkg.ut k) l' x)
    (hw : x.w ≠ 0) : l = l' := hx.level hx' hw

/-- The steps of a history during which a reference to `e` is held. -/
def Keeping (P : PCfg R) (k : Kind) (e : PEdge R) (a b : PHist R) : Prop := PStep P a b ∧ e ∈ a.held k ∧ e ∈ b.held k

/-- A diagram a reference to is held keeps its value, whatever happens in between. -/
theorem keeping_value (hC : P.C.Good) (hr : PReach P h) {k : Kind} {l : Nat} {x : PEdge R} (hx : Valid (h.pkg.ut k) l x)
    (hs : Relation.ReflTransGen (Keeping P k x) h h') :
    PReach P h' ∧ Valid (h'.pkg.ut k) l x ∧ amp (h'.pkg.ut k) l x = amp (h.pkg.ut k) l x := by
  induction hs with
  | refl => exact ⟨hr, hx, rfl⟩
  | tail _ hs ih =>
    obtain ⟨h1, h2, h3⟩ := ih
    have := hs.1.value hC (h1.inv hC) h2 hs.2.1 hs.2.2
    exact ⟨h1.step hs.1, this.1, (funext this.2).trans h3⟩

/-- Canonicity across time: if a reference to `x` has been held from `h` to `h'` (through operations and garbage
collections), a diagram of `h'` that represents what `x` represented in `h` is `x`. -/
theorem C21_later (hC : P.C.Good) (hr : PReach P h) {k : Kind} {l : Nat} {x y : PEdge R} (hx : Valid (h.pkg.ut k) l x)
    (hs : Relation.ReflTransGen (Keeping P k x) h h') (hy : Valid (h'.pkg.ut k) l y)
    (he : amp (h'.pkg.ut k) l y = amp (h.pkg.ut k) l x) : y = x := by
  obtain ⟨h1, h2, h3⟩ := keeping_value hC hr hx hs
  refine ((h1.inv hC).wf.tab k).canonical hy h2 (fun d => ?_)
  rw [he, h3]

end DD

namespace DD.Ex

/-- The hypotheses are met: a state is held through a forced garbage collection after which the same state is built
again; the result is the same edge. -/
example : ∃ (h h' : PHist ℝ) (x y : PEdge ℝ), PReach (PR ℝ) h ∧ Valid (h.pkg.ut .v) 3 x ∧ x.w ≠ 0 ∧
    Relation.ReflTransGen (Keeping (PR ℝ) .v x) h h' ∧ h' ≠ h ∧ Valid (h'.pkg.ut .v) 3 y ∧ y = x := by
  obtain ⟨h, x, y, A, B, hr, hn, vx, vy, _, _, hx, _, ax, _, _, _, wx, wy, _⟩ := setup (R := ℝ)
  have s1 : Keeping (PR ℝ) .v x h { h with pkg := (h.pkg.garbageCollect (PR ℝ) ⟨true, false, false, false, false⟩).1 } :=
    ⟨.garbageCollect _, hx, hx⟩
  set h1 : PHist ℝ := { h with pkg := (h.pkg.garbageCollect (PR ℝ) ⟨true, false, false, false, false⟩).1 } with hh1
  have r1 := hr.step s1.1
  have n1 : 6 ≤ (h1.pkg.ut .v).nvars := (hn .v).ge.trans (s1.1.nvars (PR_good ℝ) (hr.inv (PR_good ℝ)) .v)
  obtain ⟨o, w⟩ := basisLoop_spec (PR_good ℝ).growth (fun i => [Basis.plus, .one, .left].getD i .zero) 3 h1.pkg
    (r1.inv (PR_good ℝ)).wf (by omega)
  have s2 : PStep (PR ℝ) h1 { h1 with pkg := (Pkg.basisLoop (PR ℝ) (fun i => [Basis.plus, .one, .left].getD i .zero) 3 h1.pkg).1 } := by
    refine PStep.makeBasisStates 3 [.plus, .one, .left] _ ?_
    unfold Pkg.makeBasisStates
    rw [if_neg (by omega), if_neg (by decide)]
  have s3 := PStep.incRef (P := PR ℝ) (h := { h1 with pkg := (Pkg.basisLoop (PR ℝ) (fun i => [Basis.plus, .one, .left].getD i .zero) 3 h1.pkg).1 }) .v 3 _ o.valid
  have path : Relation.ReflTransGen (Keeping (PR ℝ) .v x) h _ :=
    ((Relation.ReflTransGen.refl.tail s1).tail ⟨s2, hx, hx⟩).tail ⟨s3, hx, by simp [Function.update]; right; exact hx⟩
  have c3 := ((r1.step s2).inv (PR_good ℝ)).incRef (PR_good ℝ) .v o.valid
  have v3 := reshape_value c3.2 (fun k => (((r1.step s2).inv (PR_good ℝ)).wf.tab k).child) .v o.valid
  refine ⟨h, _, x, _, hr, vx, wx, path, ?_, v3.1, C21_later (PR_good ℝ) hr vx path v3.1 ?_⟩
  · intro he
    have := congrArg (fun z : PHist ℝ => (z.held .v).length) he
    simp [Function.update, hh1] at this
  · rw [show amp (h.pkg.ut .v) 3 x = _ from ax]
    funext d
    refine (v3.2 d).trans ((o.val d).trans ?_)
    rw [Fin.prod_univ_three]; rfl

end DD.Ex
