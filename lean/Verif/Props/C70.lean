import Verif.Model.Circuit
import Verif.Props.C21
import Verif.Props.C23
import Verif.Props.C31
import Verif.Props.C26
import Verif.Props.C28
import Verif.Props.C34
import Verif.Proofs.RealEx

/-!
# C70: simulation and verification of circuits
-/

namespace DD

variable {R : Type} [Field R] [LinearOrder R] [IsStrictOrderedRing R] [HasSqrt R] [LawfulSqrt R] {P : PCfg R} {h h' : PHist R}

/-- Specification: the matrix of a gate. -/
noncomputable def CGate.mat {n : Nat} (g : CGate R n) : QMat R n := gateMat (fun a b => g.U (rc a b)) g.controls g.target

/-- Specification: the matrix of a circuit; the first gate of the list acts first. -/
noncomputable def circuitMat {n : Nat} : List (CGate R n) → QMat R n
  | [] => 1
  | g :: gs => circuitMat gs * g.mat

/-- The diagram `y` of `s'` represents `M` applied to what `x` represents in `s`. -/
def Applied (n : Nat) (M : QMat R n) (s s' : Pkg R) (x y : PEdge R) : Kind → Prop
  | .v => vec (s'.ut .v) n y = M.mulVec (vec (s.ut .v) n x)
  | .m => mat (s'.ut .m) n y = M * mat (s.ut .m) n x

theorem Applied.trans {n : Nat} {M N : QMat R n} {s s1 s2 : Pkg R} {x y z : PEdge R} {k : Kind} (h1 : Applied n M s s1 x y k)
    (h2 : Applied n N s1 s2 y z k) : Applied n (N * M) s s2 x z k := by
  cases k with
  | v => show vec _ _ _ = _; rw [show vec (s2.ut .v) n z = _ from h2, show vec (s1.ut .v) n y = _ from h1, Matrix.mulVec_mulVec]
  | m => show mat _ _ _ = _; rw [show mat (s2.ut .m) n z = _ from h2, show mat (s1.ut .m) n y = _ from h1, Matrix.mul_assoc]

theorem applied_same {n : Nat} {s s' : Pkg R} {x : PEdge R} {k : Kind} (h : amp (s'.ut k) n x = amp (s.ut k) n x) : Applied n 1 s s' x x k := by
  cases k with
  | v => show vec _ _ _ = _; rw [Matrix.one_mulVec]; exact h
  | m => show mat _ _ _ = _; rw [Matrix.one_mul, mat_ext_amp]; exact fun d => congrFun h d

theorem owning_keeping {k : Kind} {L : List (PEdge R)} {x : PEdge R} (hx : x ∈ L)
    (hs : Relation.ReflTransGen (Owning P k L) h h') : Relation.ReflTransGen (Keeping P k x) h h' :=
  Relation.ReflTransGen.lift id (fun _ _ hh => ⟨hh.1, hh.2.1.subset hx, hh.2.2.subset hx⟩) _ _ hs

theorem owning_held {k : Kind} {L : List (PEdge R)} (h0 : L.Subperm (h.held k)) (hs : Relation.ReflTransGen (Owning P k L) h h') :
    L.Subperm (h'.held k) := by
  induction hs with
  | refl => exact h0
  | tail _ hh _ => exact hh.2.2

theorem subperm_swap {L H : List (PEdge R)} {x y : PEdge R} (h : (x :: L).Subperm H) : (y :: L).Subperm ((y :: H).erase x) := by
  have h1 : (y :: x :: L).Subperm (y :: H) := List.subperm_cons y |>.2 h
  have h2 := h1.erase x
  refine (List.Perm.subperm ?_).trans h2
  have : (y :: x :: L).Perm (x :: y :: L) := List.Perm.swap x y L
  have := this.erase x
  rw [List.erase_cons_head] at this
  exact this.symm

/-- The calls that apply a gate are steps of the history, succeed, and do what they should. -/
theorem applyGate_spec (hC : P.C.Good) (hr : PReach P h) {k : Kind} {n : Nat} (hn : n ≤ (h.pkg.ut .m).nvars) {x : PEdge R} {L : List (PEdge R)}
    (hx : Valid (h.pkg.ut k) n x) (hL : (x :: L).Subperm (h.held k)) (g : CGate R n) :
    ∃ h' y, applyGate P k h x g = some (h', y) ∧ PReach P h' ∧ n ≤ (h'.pkg.ut .m).nvars ∧ Valid (h'.pkg.ut k) n y ∧
      Applied n g.mat h.pkg h'.pkg x y k ∧ (y :: L).Subperm (h'.held k) ∧ (∀ z ∈ L, Relation.ReflTransGen (Keeping P k z) h h') := by
  have hi := hr.inv hC
  obtain ⟨a, ea, va, ma, ua⟩ := C31_gate hC hr hn g.U g.good
  have st1 : PStep P h { h with pkg := a.1 } := .makeGateDD g.U n g.controls g.target a g.target.isLt g.good ea
  have r1 := hr.step st1
  have i1 := r1.inv hC
  have hx1 := ua k n x hx
  have st2 : PStep P { h with pkg := a.1 } { h with pkg := (Pkg.multiply P k a.1 a.2 x).1 } := .multiply k n a.2 x va hx1.1
  have r2 := r1.step st2
  have i2 := r2.inv hC
  have o := multiply_spec (k := k) hC.growth i1.wf va hx1.1
  set b := Pkg.multiply P k a.1 a.2 x with hb
  have st3 : PStep P { h with pkg := b.1 } ⟨b.1.incRef P k b.2, Function.update h.held k (b.2 :: h.held k)⟩ := .incRef k n b.2 o.valid
  have r3 := r2.step st3
  have i3 := r3.inv hC
  have v3 := reshape_value (i2.incRef hC k o.valid).2 (fun k => (i2.wf.tab k).child) k o.valid
  have hxh : x ∈ h.held k := hL.subset List.mem_cons_self
  have hx3 : x ∈ (Function.update h.held k (b.2 :: h.held k)) k := by rw [Function.update_self]; exact List.mem_cons_of_mem _ hxh
  obtain ⟨q, _, _, eq, _⟩ := i3.decRef hC k hx3
  have st4 := PStep.decRef (h := ⟨b.1.incRef P k b.2, Function.update h.held k (b.2 :: h.held k)⟩) k x _ hx3 eq
  have r4 := r3.step st4
  have hup : Function.update (Function.update h.held k (b.2 :: h.held k)) k ((Function.update h.held k (b.2 :: h.held k) k).erase x) =
      Function.update h.held k ((b.2 :: h.held k).erase x) := by
    rw [Function.update_self, Function.update_idem]
  dsimp only at st4 r4
  rw [hup] at st4 r4
  have hsub : (b.2 :: L).Subperm (Function.update h.held k ((b.2 :: h.held k).erase x) k) := by
    rw [Function.update_self]; exact subperm_swap hL
  have v4 := st4.value hC i3 v3.1 (by dsimp only; rw [Function.update_self]; exact List.mem_cons_self) (hsub.subset List.mem_cons_self)
  refine ⟨_, b.2, ?_, r4, ?_, v4.1, ?_, hsub, fun z hz => ?_⟩
  · unfold applyGate
    rw [ea]
    dsimp only
    rw [← hb, eq]
  · exact hn.trans ((st1.nvars hC hi .m).trans ((st2.nvars hC i1 .m).trans ((st3.nvars hC i2 .m).trans (st4.nvars hC i3 .m))))
  · have hval : ∀ d, amp _ n b.2 d = amp (b.1.ut k) n b.2 d := fun d => (v4.2 d).trans (v3.2 d)
    cases k with
    | v =>
      show vec _ _ _ = _
      have e1 := (C23_vector hC r1 va hx1.1).2.1
      rw [show g.mat = mat (a.1.ut .m) n a.2 from ma.symm]
      rw [show vec (h.pkg.ut .v) n x = vec (a.1.ut .v) n x from hx1.2.symm]
      exact (funext hval).trans e1
    | m =>
      show mat _ _ _ = _
      have e1 := (C23_matrix hC r1 va hx1.1).2.1
      rw [show g.mat = mat (a.1.ut .m) n a.2 from ma.symm]
      rw [show mat (h.pkg.ut .m) n x = mat (a.1.ut .m) n x from mat_ext_amp.2 (fun d => (congrFun hx1.2 d).symm)]
      exact (mat_ext_amp.2 hval).trans e1
  · have hz0 : z ∈ h.held k := hL.subset (List.mem_cons_of_mem _ hz)
    refine .tail (.tail (.tail (.tail .refl ⟨st1, hz0, hz0⟩) ⟨st2, hz0, hz0⟩) ⟨st3, hz0, ?_⟩) ⟨st4, ?_, hsub.subset (List.mem_cons_of_mem _ hz)⟩
    · dsimp only; rw [Function.update_self]; exact List.mem_cons_of_mem _ hz0
    · dsimp only; rw [Function.update_self]; exact List.mem_cons_of_mem _ hz0

theorem keeping_nvars (hC : P.C.Good) (hr : PReach P h) {k : Kind} {L : List (PEdge R)} (hs : Relation.ReflTransGen (Owning P k L) h h') :
    PReach P h' ∧ ∀ k, (h.pkg.ut k).nvars ≤ (h'.pkg.ut k).nvars := by
  induction hs with
  | refl => exact ⟨hr, fun _ => le_rfl⟩
  | tail _ hh ih => exact ⟨ih.1.step hh.1, fun k => (ih.2 k).trans (hh.1.nvars hC (ih.1.inv hC) k)⟩

/-- **C70.** After running a circuit, the caller holds a reference to a diagram of the circuit's matrix applied to the
initial diagram (a vector or a matrix), whatever else has happened to the package before, in between and afterwards. The
references kept in `L` are still held, all the time. -/
theorem C70_run (hC : P.C.Good) (hr : PReach P h) {k : Kind} {n : Nat} (hn : n ≤ (h.pkg.ut .m).nvars) {x x' : PEdge R} {L : List (PEdge R)}
    (hx : Valid (h.pkg.ut k) n x) (hL : (x :: L).Subperm (h.held k)) {gs : List (CGate R n)} (hrun : RunsCircuit P k L h x gs h' x') :
    PReach P h' ∧ n ≤ (h'.pkg.ut .m).nvars ∧ Valid (h'.pkg.ut k) n x' ∧ (x' :: L).Subperm (h'.held k) ∧
      Applied n (circuitMat gs) h.pkg h'.pkg x x' k ∧ ∀ z ∈ L, Relation.ReflTransGen (Keeping P k z) h h' := by
  induction hrun with
  | done hs =>
    obtain ⟨h1, h2⟩ := keeping_nvars hC hr hs
    obtain ⟨_, v, e⟩ := keeping_value hC hr hx (owning_keeping List.mem_cons_self hs)
    exact ⟨h1, hn.trans (h2 .m), v, owning_held hL hs, applied_same e, fun z hz => owning_keeping (List.mem_cons_of_mem _ hz) hs⟩
  | gate hs ha _ ih =>
    obtain ⟨h1, h2⟩ := keeping_nvars hC hr hs
    obtain ⟨_, v, e⟩ := keeping_value hC hr hx (owning_keeping List.mem_cons_self hs)
    obtain ⟨h2', y', ha', r2, n2, v2, ap2, s2, k2⟩ := applyGate_spec hC h1 (hn.trans (h2 .m)) v (owning_held hL hs) _
    rw [ha] at ha'
    cases ha'
    obtain ⟨r3, n3, v3, s3, ap3, k3⟩ := ih r2 n2 v2 s2
    refine ⟨r3, n3, v3, s3, ?_, fun z hz => ((owning_keeping (List.mem_cons_of_mem _ hz) hs).trans (k2 z hz)).trans (k3 z hz)⟩
    have := ((applied_same e).trans ap2).trans ap3
    rw [Matrix.mul_one] at this
    exact this

/-- **C70.** The calls made for a circuit never throw: it can be run from every state. -/
theorem C70_exists (hC : P.C.Good) {k : Kind} {n : Nat} {L : List (PEdge R)} : ∀ (gs : List (CGate R n)) {h : PHist R}, PReach P h →
    n ≤ (h.pkg.ut .m).nvars → ∀ {x : PEdge R}, Valid (h.pkg.ut k) n x → (x :: L).Subperm (h.held k) → ∃ h' x', RunsCircuit P k L h x gs h' x'
  | [], h, _, _, x, _, _ => ⟨h, x, .done .refl⟩
  | g :: gs, h, hr, hn, x, hx, hL => by
    obtain ⟨h1, y, e1, r1, n1, v1, _, s1, _⟩ := applyGate_spec hC hr hn hx hL g
    obtain ⟨h', x', hrun⟩ := C70_exists hC gs r1 n1 v1 s1
    exact ⟨h', x', .gate .refl e1 hrun⟩

/-- **C70.** At whatever point of whatever history a gate is applied to a diagram to which a reference is held, no call throws. -/
theorem C70_no_throw (hC : P.C.Good) (hr : PReach P h) {k : Kind} {n : Nat} (hn : n ≤ (h.pkg.ut .m).nvars) {x : PEdge R}
    (hx : Valid (h.pkg.ut k) n x) (hh : x ∈ h.held k) (g : CGate R n) : (applyGate P k h x g).isSome = true := by
  obtain ⟨h', y, e, _⟩ := applyGate_spec (L := []) hC hr hn hx (List.singleton_subperm_iff.2 hh) g
  rw [e]; rfl

/-- **C70.** Equivalence checking: two circuits are run on an identity, one after the other, in one package and with any other calls in between; the resulting
edges are equal iff the circuits have the same matrix. -/
theorem C70_equivalence (hC : P.C.Good) (hr : PReach P h) {n : Nat} (hn : n ≤ (h.pkg.ut .m).nvars) {x y x' y' : PEdge R} {h1 h2 : PHist R}
    (hx : Valid (h.pkg.ut .m) n x) (hy : Valid (h.pkg.ut .m) n y) (ix : mat (h.pkg.ut .m) n x = 1) (iy : mat (h.pkg.ut .m) n y = 1)
    (hL : [x, y].Subperm (h.held .m)) {gs gs' : List (CGate R n)} (hrun : RunsCircuit P .m [y] h x gs h1 x')
    (hrun' : RunsCircuit P .m [x'] h1 y gs' h2 y') : x' = y' ↔ circuitMat gs = circuitMat gs' := by
  obtain ⟨r1, n1, v1, s1, a1, k1⟩ := C70_run hC hr hn hx hL hrun
  obtain ⟨_, vy, ey⟩ := keeping_value hC hr hy (k1 y List.mem_cons_self)
  have s1' : (y :: [x']).Subperm (h1.held .m) := (List.Perm.swap y x' []).symm.subperm.trans s1
  obtain ⟨r2, n2, v2, s2, a2, k2⟩ := C70_run hC r1 n1 vy s1' hrun'
  obtain ⟨_, vx', ex'⟩ := keeping_value hC r1 v1 (k2 x' List.mem_cons_self)
  have m1 : mat (h2.pkg.ut .m) n x' = circuitMat gs := by
    have : mat (h1.pkg.ut .m) n x' = circuitMat gs * mat (h.pkg.ut .m) n x := a1
    rw [ix, Matrix.mul_one] at this
    rw [← this]
    exact mat_ext_amp.2 (fun d => congrFun ex' d)
  have m2 : mat (h2.pkg.ut .m) n y' = circuitMat gs' := by
    have : mat (h2.pkg.ut .m) n y' = circuitMat gs' * mat (h1.pkg.ut .m) n y := a2
    rw [this, show mat (h1.pkg.ut .m) n y = mat (h.pkg.ut .m) n y from mat_ext_amp.2 (fun d => congrFun ey d), iy, Matrix.mul_one]
  rw [← C21_matrix hC r2 vx' v2, m1, m2]

/-! ### Unitarity -/

/-- A sum over bit strings of terms that vanish unless the string agrees with `r` off the target. -/
theorem sum_target {n : Nat} {t : Fin n} {r : Fin n → Fin 2} (f : (Fin n → Fin 2) → Cx R) (hf : ∀ m, (∃ i, i ≠ t ∧ m i ≠ r i) → f m = 0) :
    ∑ m, f m = ∑ b : Fin 2, f (Function.update r t b) := by
  symm
  refine Finset.sum_of_injOn (fun b => Function.update r t b) ?_ (fun _ _ => Finset.mem_coe.2 (Finset.mem_univ _)) ?_ (fun _ _ => rfl)
  · intro b _ b' _ e
    have := congrFun e t
    simpa using this
  · intro m _ hm
    apply hf
    by_contra hc
    push Not at hc
    apply hm
    refine ⟨m t, by simp, ?_⟩
    funext i
    by_cases hi : i = t
    · subst hi; simp
    · simp only [Function.update_of_ne hi]; exact (hc i hi).symm

theorem ctrlOK_target {n : Nat} {controls : List Ctrl} {t : Fin n} (ht : ∀ c ∈ controls, c.qubit ≠ t) {r c : Fin n → Fin 2}
    (h : ∀ i, i ≠ t → r i = c i) : CtrlOK controls r ↔ CtrlOK controls c := by
  unfold CtrlOK
  refine forall_congr' fun q => forall_congr' fun hq => forall_congr' fun hn => ?_
  rw [h ⟨q.qubit, hn⟩ (fun e => ht q hq (congrArg Fin.val e))]

/-- A gate with a unitary 2x2 matrix is unitary, whatever its controls. -/
theorem C70_gate_unitary {n : Nat} (g : CGate R n)
    (hU : ∀ a b : Fin 2, ∑ i : Fin 2, (g.U (rc i a)).conj * g.U (rc i b) = if a = b then 1 else 0) : adj g.mat * g.mat = 1 := by
  classical
  ext1 r c
  rw [Matrix.mul_apply]
  unfold adj CGate.mat
  have hg : ∀ m d : Fin n → Fin 2, (∃ i, i ≠ g.target ∧ m i ≠ d i) → gateMat (fun a b => g.U (rc a b)) g.controls g.target m d = 0 := by
    intro m d ⟨i, h1, h2⟩
    unfold gateMat
    rw [if_neg (fun hh => h2 (hh i h1))]
  rw [sum_target (t := g.target) (r := r) _ (fun m hm => by rw [hg m r hm, Cx.conj_zero, zero_mul])]
  by_cases hrc : ∀ i, i ≠ g.target → r i = c i
  · have hv : ∀ b : Fin 2, ∀ d : Fin n → Fin 2, (∀ i, i ≠ g.target → r i = d i) →
        gateMat (fun a b => g.U (rc a b)) g.controls g.target (Function.update r g.target b) d =
          if CtrlOK g.controls r then g.U (rc b (d g.target)) else if b = d g.target then 1 else 0 := by
      intro b d hd
      unfold gateMat
      rw [if_pos (fun i hi => by rw [Function.update_of_ne hi]; exact hd i hi), Function.update_self]
      rw [show CtrlOK g.controls d ↔ CtrlOK g.controls r from (ctrlOK_target g.good.target hd).symm]
    have hone : (1 : QMat R n) r c = if r g.target = c g.target then 1 else 0 := by
      rw [Matrix.one_apply]
      congr 1
      rw [eq_iff_iff]
      constructor
      · intro e; rw [e]
      · intro e
        funext i
        by_cases hi : i = g.target
        · rw [hi]; exact e
        · exact hrc i hi
    rw [hone]
    simp only [hv _ r (fun _ _ => rfl), hv _ c hrc]
    by_cases hok : CtrlOK g.controls r
    · simp only [if_pos hok]
      exact hU _ _
    · simp only [if_neg hok]
      generalize r g.target = a
      generalize c g.target = b
      revert a b
      rw [Fin.forall_fin_two]
      constructor <;> (rw [Fin.forall_fin_two]; constructor) <;> simp [Fin.sum_univ_two]
  · push Not at hrc
    obtain ⟨i, h1, h2⟩ := hrc
    rw [Matrix.one_apply_ne (fun e => h2 (by rw [e]))]
    apply Finset.sum_eq_zero
    intro b _
    rw [hg _ c ⟨i, h1, by rw [Function.update_of_ne h1]; exact h2⟩, mul_zero]

theorem cx_conj_sum {ι : Type} (S : Finset ι) (f : ι → Cx R) : (∑ i ∈ S, f i).conj = ∑ i ∈ S, (f i).conj := by
  classical
  induction S using Finset.induction_on with
  | empty => simp
  | insert a S ha ih => rw [Finset.sum_insert ha, Finset.sum_insert ha, Cx.conj_add, ih]

theorem adj_mul {l : Nat} (M N : QMat R l) : adj (M * N) = adj N * adj M := by
  ext1 r c
  show ((M * N) c r).conj = (adj N * adj M) r c
  rw [Matrix.mul_apply, Matrix.mul_apply, cx_conj_sum]
  refine Finset.sum_congr rfl fun i _ => ?_
  rw [Cx.conj_mul, mul_comm]; rfl

/-- A circuit of unitary gates is unitary. -/
theorem C70_circuit_unitary {n : Nat} : ∀ (gs : List (CGate R n)),
    (∀ g ∈ gs, ∀ a b : Fin 2, ∑ i : Fin 2, (g.U (rc i a)).conj * g.U (rc i b) = if a = b then 1 else 0) →
    adj (circuitMat gs) * circuitMat gs = 1
  | [], _ => by
    unfold circuitMat
    rw [Matrix.mul_one]
    ext1 r c
    unfold adj
    rw [Matrix.one_apply, Matrix.one_apply]
    by_cases e : c = r
    · rw [if_pos e, if_pos e.symm]; exact Cx.conj_one
    · rw [if_neg e, if_neg (fun e' => e e'.symm)]; exact Cx.conj_zero
  | g :: gs, hU => by
    have ih := C70_circuit_unitary gs (fun g' h' => hU g' (List.mem_cons_of_mem _ h'))
    rw [circuitMat, adj_mul, Matrix.mul_assoc, ← Matrix.mul_assoc (adj (circuitMat gs)), ih, Matrix.one_mul]
    exact C70_gate_unitary g (hU g List.mem_cons_self)

/-- **C70.** Running a circuit of unitary gates on states preserves inner products, in particular norms. -/
theorem C70_isometry {n : Nat} {M : QMat R n} (hM : adj M * M = 1) (x y : (Fin n → Fin 2) → Cx R) :
    inner (M.mulVec x) (M.mulVec y) = inner x y := by
  have e : (fun i => ((M.mulVec x) i).conj) = Matrix.vecMul (fun j => (x j).conj) (adj M) := by
    funext i
    unfold Matrix.mulVec Matrix.vecMul dotProduct
    rw [cx_conj_sum]
    refine Finset.sum_congr rfl fun j _ => ?_
    rw [Cx.conj_mul, mul_comm]; rfl
  show (fun i => ((M.mulVec x) i).conj) ⬝ᵥ (M.mulVec y) = (fun i => (x i).conj) ⬝ᵥ y
  rw [e, Matrix.dotProduct_mulVec, Matrix.vecMul_vecMul, hM, Matrix.vecMul_one]

/-- **C70.** Simulating a circuit of unitary gates preserves the norm of the state. -/
theorem C70_norm (hC : P.C.Good) (hr : PReach P h) {n : Nat} (hn : n ≤ (h.pkg.ut .m).nvars) {x x' : PEdge R} {L : List (PEdge R)}
    (hx : Valid (h.pkg.ut .v) n x) (hL : (x :: L).Subperm (h.held .v)) {gs : List (CGate R n)} (hrun : RunsCircuit P .v L h x gs h' x')
    (hU : ∀ g ∈ gs, ∀ a b : Fin 2, ∑ i : Fin 2, (g.U (rc i a)).conj * g.U (rc i b) = if a = b then 1 else 0) :
    inner (vec (h'.pkg.ut .v) n x') (vec (h'.pkg.ut .v) n x') = inner (vec (h.pkg.ut .v) n x) (vec (h.pkg.ut .v) n x) := by
  obtain ⟨_, _, _, _, a, _⟩ := C70_run hC hr hn hx hL hrun
  rw [show vec (h'.pkg.ut .v) n x' = _ from a]
  exact C70_isometry (C70_circuit_unitary gs hU) _ _

end DD

namespace DD.Ex

/-- The hypotheses are met: a state of three qubits is held; a circuit with a controlled gate and the same gate
without controls is run on it, with a forced garbage collection in between. -/
example : ∃ (h h' : PHist ℝ) (x x' : PEdge ℝ) (gs : List (CGate ℝ 3)), PReach (PR ℝ) h ∧ 3 ≤ (h.pkg.ut .m).nvars ∧ Valid (h.pkg.ut .v) 3 x ∧
    [x].Subperm (h.held .v) ∧ x.w ≠ 0 ∧ gs.length = 2 ∧ RunsCircuit (PR ℝ) .v [] h x gs h' x' := by
  obtain ⟨h, x, y, A, B, hr, hn, vx, vy, _, _, hx, _, ax, _, _, _, wx, wy, _⟩ := setup (R := ℝ)
  have hC := PR_good ℝ
  have hg : GoodControls cs0 ((1 : Fin 3) : Nat) 3 := by
    constructor <;> decide
  let g1 : CGate ℝ 3 := ⟨U0, cs0, 1, hg⟩
  let g2 : CGate ℝ 3 := ⟨U0, [], 0, ⟨List.Pairwise.nil, by simp, by simp⟩⟩
  have hn3 : 3 ≤ (h.pkg.ut .m).nvars := by rw [hn]; omega
  have hL : [x].Subperm (h.held .v) := List.singleton_subperm_iff.2 hx
  obtain ⟨h1, y1, e1, r1, n1, v1, _, s1, _⟩ := applyGate_spec hC hr hn3 vx hL g1
  have st : PStep (PR ℝ) h1 { h1 with pkg := (h1.pkg.garbageCollect (PR ℝ) ⟨true, false, false, false, false⟩).1 } := .garbageCollect _
  have ow : Owning (PR ℝ) .v [y1] h1 { h1 with pkg := (h1.pkg.garbageCollect (PR ℝ) ⟨true, false, false, false, false⟩).1 } := ⟨st, s1, s1⟩
  obtain ⟨_, v2, _⟩ := keeping_value hC r1 v1 (owning_keeping List.mem_cons_self (.single ow))
  obtain ⟨h3, y3, e3, r3, n3, v3, _, s3, _⟩ := applyGate_spec hC (r1.step st) (n1.trans (st.nvars hC (r1.inv hC) .m)) v2 s1 g2
  exact ⟨h, h3, x, y3, [g1, g2], hr, hn3, vx, hL, wx, rfl, .gate .refl e1 (.gate (.single ow) e3 (.done .refl))⟩

/-- Equivalence checking: the identity is held twice, and both circuits can be run. -/
example : ∃ (h h1 h2 : PHist ℝ) (x x' y' : PEdge ℝ) (gs gs' : List (CGate ℝ 3)), PReach (PR ℝ) h ∧ 3 ≤ (h.pkg.ut .m).nvars ∧
    Valid (h.pkg.ut .m) 3 x ∧ mat (h.pkg.ut .m) 3 x = 1 ∧ [x, x].Subperm (h.held .m) ∧ gs.length = 2 ∧ gs'.length = 1 ∧
    RunsCircuit (PR ℝ) .m [x] h x gs h1 x' ∧ RunsCircuit (PR ℝ) .m [x'] h1 x gs' h2 y' := by
  obtain ⟨h, x, y, A, B, hr, hn, vx, vy, _, _, hx, _, ax, _, _, _, wx, wy, _⟩ := setup (R := ℝ)
  have hC := PR_good ℝ
  have hn3 : 3 ≤ (h.pkg.ut .m).nvars := by rw [hn]; omega
  obtain ⟨vi, mi, _⟩ := C34_identity_partial hC hr hn3
  have st0 : PStep (PR ℝ) h { h with pkg := (Pkg.makeIdent (PR ℝ) h.pkg 3).1 } := .makeIdent 3 hn3
  have r0 := hr.step st0
  generalize hI : Pkg.makeIdent (PR ℝ) h.pkg 3 = I at *
  have i0 := r0.inv hC
  have st1 : PStep (PR ℝ) { h with pkg := I.1 } ⟨I.1.incRef (PR ℝ) .m I.2, Function.update h.held .m (I.2 :: h.held .m)⟩ := .incRef .m 3 I.2 vi
  have r1 := r0.step st1
  have i1 := r1.inv hC
  have v1 := reshape_value (i0.incRef hC .m vi).2 (fun k => (i0.wf.tab k).child) .m vi
  generalize hh1 : (⟨I.1.incRef (PR ℝ) .m I.2, Function.update h.held .m (I.2 :: h.held .m)⟩ : PHist ℝ) = k1 at *
  have hk1 : k1.held .m = I.2 :: h.held .m := by rw [← hh1]; dsimp only; rw [Function.update_self]
  have v1' : Valid (k1.pkg.ut .m) 3 I.2 ∧ ∀ d, amp (k1.pkg.ut .m) 3 I.2 d = amp (I.1.ut .m) 3 I.2 d := by rw [← hh1]; exact v1
  have st2 : PStep (PR ℝ) k1 ⟨k1.pkg.incRef (PR ℝ) .m I.2, Function.update k1.held .m (I.2 :: k1.held .m)⟩ := .incRef .m 3 I.2 v1'.1
  have r2 := r1.step st2
  have v2 := reshape_value (i1.incRef hC .m v1'.1).2 (fun k => (i1.wf.tab k).child) .m v1'.1
  have n2 : 3 ≤ ((k1.pkg.incRef (PR ℝ) .m I.2).ut .m).nvars :=
    hn3.trans ((st0.nvars hC (hr.inv hC) .m).trans ((st1.nvars hC i0 .m).trans (st2.nvars hC i1 .m)))
  generalize hh2 : (⟨k1.pkg.incRef (PR ℝ) .m I.2, Function.update k1.held .m (I.2 :: k1.held .m)⟩ : PHist ℝ) = k2 at *
  have hk2 : k2.held .m = I.2 :: I.2 :: h.held .m := by rw [← hh2, ← hk1]; dsimp only; rw [Function.update_self]
  have v2' : Valid (k2.pkg.ut .m) 3 I.2 ∧ ∀ d, amp (k2.pkg.ut .m) 3 I.2 d = amp (k1.pkg.ut .m) 3 I.2 d := by rw [← hh2]; exact v2
  have n2' : 3 ≤ (k2.pkg.ut .m).nvars := by rw [← hh2]; exact n2
  have hg : GoodControls cs0 ((1 : Fin 3) : Nat) 3 := by constructor <;> decide
  let g1 : CGate ℝ 3 := ⟨U0, cs0, 1, hg⟩
  let g2 : CGate ℝ 3 := ⟨U0, [], 0, ⟨List.Pairwise.nil, by simp, by simp⟩⟩
  have hL : [I.2, I.2].Subperm (k2.held .m) := by
    rw [hk2]
    exact (List.prefix_append [I.2, I.2] (h.held .m)).sublist.subperm
  obtain ⟨h1, x', run1⟩ := C70_exists hC [g1, g2] r2 n2' v2'.1 hL
  obtain ⟨q1, q2, q3, q4, _, q5⟩ := C70_run hC r2 n2' v2'.1 hL run1
  obtain ⟨_, vy, _⟩ := keeping_value hC r2 v2'.1 (q5 _ List.mem_cons_self)
  have q4' : (I.2 :: [x']).Subperm (h1.held .m) := (List.Perm.swap I.2 x' []).symm.subperm.trans q4
  obtain ⟨h2, y', run2⟩ := C70_exists hC [g2] q1 q2 vy q4'
  refine ⟨k2, h1, h2, I.2, x', y', [g1, g2], [g2], r2, n2', v2'.1, ?_, hL, rfl, rfl, run1, run2⟩
  rw [← mi]
  exact mat_ext_amp.2 (fun d => (v2'.2 d).trans (v1'.2 d))

end DD.Ex
