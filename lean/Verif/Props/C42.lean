import Verif.Proofs.RealEx
import Verif.Proofs.Cross
import Verif.Props.C21

/-!
# C42: results do not depend on history

The same operation, applied to diagrams that represent the same objects, yields diagrams that represent the same object
in every state of every package (`C42_values`), whatever the hash functions and the contents of the tables are. Within
one package it yields the identical edge as long as references to the operands and the result are held (`C42_repeat`).
-/

namespace DD

variable {R : Type} [Field R] [LinearOrder R] [IsStrictOrderedRing R] [HasSqrt R] [LawfulSqrt R] {P P' : PCfg R}
  {h h' : PHist R}

/-- Calls of operations that return a diagram. -/
inductive Call (R : Type) where
  | add (k : Kind) (x y : PEdge R)
  | multiply (k : Kind) (x y : PEdge R)
  | kronecker (k : Kind) (x y : PEdge R)
  | transpose (x : PEdge R)
  | conjugateTranspose (x : PEdge R)
  | makeIdent (n : Nat)
  | makeGateDD (U : Fin 4 → Cx R) (n : Nat) (controls : List Ctrl) (target : Nat)
  | makeBasisStates (n : Nat) (state : List Basis)

/-- Perform a call; a call that throws an exception has no result. -/
def Call.run (P : PCfg R) (s : Pkg R) : Call R → Option (Pkg R × PEdge R)
  | .add k x y => some (Pkg.add P k s x y)
  | .multiply k x y => some (Pkg.multiply P k s x y)
  | .kronecker k x y => some (Pkg.kronecker P k s x y)
  | .transpose x => some (Pkg.transpose P s x)
  | .conjugateTranspose x => some (Pkg.conjugateTranspose P s x)
  | .makeIdent n => some (Pkg.makeIdent P s n)
  | .makeGateDD U n cs t => Pkg.makeGateDD P s U n cs t
  | .makeBasisStates n st => Pkg.makeBasisStates P s n st

/-- The kind of the result. -/
def Call.kind : Call R → Kind
  | .add k _ _ => k
  | .multiply k _ _ => k
  | .kronecker k _ _ => k
  | .transpose _ => .m
  | .conjugateTranspose _ => .m
  | .makeIdent _ => .m
  | .makeGateDD _ _ _ _ => .m
  | .makeBasisStates _ _ => .v

/-- The diagrams a call is applied to. -/
def Call.operands : Call R → List (Kind × PEdge R)
  | .add k x y => [(k, x), (k, y)]
  | .multiply k x y => [(.m, x), (k, y)]
  | .kronecker k x y => [(k, x), (k, y)]
  | .transpose x => [(.m, x)]
  | .conjugateTranspose x => [(.m, x)]
  | .makeIdent _ => []
  | .makeGateDD _ _ _ _ => []
  | .makeBasisStates _ _ => []

/-- The edge `x` of `s` and the edge `x'` of `s'` represent the same object over `l` qubits. -/
def Same (s s' : Pkg R) (k : Kind) (l : Nat) (x x' : PEdge R) : Prop :=
  Valid (s.ut k) l x ∧ Valid (s'.ut k) l x' ∧ amp (s.ut k) l x = amp (s'.ut k) l x'

/-- Two calls of the same operation on diagrams that represent the same objects, in two packages; `l` is the number of
qubits of the result. -/
inductive SameCall (s s' : Pkg R) : Nat → Call R → Call R → Prop
  | add {k l x y x' y'} : Same s s' k l x x' → Same s s' k l y y' → SameCall s s' l (.add k x y) (.add k x' y')
  | multiply {k l x y x' y'} : Same s s' .m l x x' → Same s s' k l y y' →
      SameCall s s' l (.multiply k x y) (.multiply k x' y')
  | kronecker {k lx ly x y x' y'} : Same s s' k lx x x' → Same s s' k ly y y' → ly + lx ≤ (s.ut k).nvars →
      ly + lx ≤ (s'.ut k).nvars → SameCall s s' (ly + lx) (.kronecker k x y) (.kronecker k x' y')
  | transpose {l x x'} : Same s s' .m l x x' → SameCall s s' l (.transpose x) (.transpose x')
  | conjugateTranspose {l x x'} : Same s s' .m l x x' → SameCall s s' l (.conjugateTranspose x) (.conjugateTranspose x')
  | makeIdent {n} : n ≤ (s.ut .m).nvars → n ≤ (s'.ut .m).nvars → SameCall s s' n (.makeIdent n) (.makeIdent n)
  | makeGateDD {U n cs t} : n ≤ (s.ut .m).nvars → n ≤ (s'.ut .m).nvars → t < n → GoodControls cs t n →
      SameCall s s' n (.makeGateDD U n cs t) (.makeGateDD U n cs t)
  | makeBasisStates {n st} : n ≤ (s.ut .v).nvars → n ≤ (s'.ut .v).nvars → n ≤ st.length →
      SameCall s s' n (.makeBasisStates n st) (.makeBasisStates n st)

omit [HasSqrt R] [LawfulSqrt R] in
theorem same_mul {s s' : Pkg R} {k : Kind} : ∀ {l : Nat} {x y x' y' : PEdge R}, amp (s.ut .m) l x = amp (s'.ut .m) l x' →
    amp (s.ut k) l y = amp (s'.ut k) l y' → mulAmp (s.ut .m) (s.ut k) l x y = mulAmp (s'.ut .m) (s'.ut k) l x' y' := by
  intro l x y x' y' h1 h2
  cases k <;> (dsimp only [mulAmp]; rw [h1, h2])

omit [HasSqrt R] [LawfulSqrt R] in
theorem op_same {s s' : Pkg R} {k : Kind} {l : Nat} {f f' : (Fin l → Fin (ar k)) → Cx R} {r r' : Pkg R × PEdge R}
    (o : OpSpec P ∅ s k l f r) (o' : OpSpec P' ∅ s' k l f' r') (hf : ∀ d, f d = f' d) :
    Same r.1 r'.1 k l r.2 r'.2 ∧ PExt s r.1 :=
  ⟨⟨o.valid, o'.valid, funext fun d => by rw [o.val, o'.val, hf]⟩, o.ext⟩

theorem run_spec (hC : P.C.Good) (hC' : P'.C.Good) {s s' : Pkg R} (hw : PWF P s ∅) (hw' : PWF P' s' ∅) {l : Nat}
    {c c' : Call R} (hc : SameCall s s' l c c') :
    c.kind = c'.kind ∧ ∃ r r', c.run P s = some r ∧ c'.run P' s' = some r' ∧
      Same r.1 r'.1 c.kind l r.2 r'.2 ∧ PExt s r.1 := by
  have hg := hC.growth
  have hg' := hC'.growth
  cases hc with
  | @add k _ x y x' y' hx hy =>
    exact ⟨rfl, _, _, rfl, rfl, op_same (k := k) (add_spec hg hw hx.1 hy.1) (add_spec hg' hw' hx.2.1 hy.2.1)
      (fun d => by rw [hx.2.2, hy.2.2])⟩
  | multiply hx hy =>
    exact ⟨rfl, _, _, rfl, rfl, op_same (multiply_spec hg hw hx.1 hy.1) (multiply_spec hg' hw' hx.2.1 hy.2.1)
      (fun d => congrFun (same_mul hx.2.2 hy.2.2) d)⟩
  | @kronecker k _ _ x y x' y' hx hy hn hn' =>
    exact ⟨rfl, _, _, rfl, rfl, op_same (k := k) (kronecker_spec hg hw hx.1 hy.1 hn) (kronecker_spec hg' hw' hx.2.1 hy.2.1 hn')
      (fun d => by rw [hy.2.2, cross_kamp (hw.tab _) (hw'.tab _) hx.1 hx.2.1 (fun d => congrFun hx.2.2 d)])⟩
  | transpose hx =>
    exact ⟨rfl, _, _, rfl, rfl, op_same (k := .m) (transpose_spec hg hw hx.1) (transpose_spec hg' hw' hx.2.1)
      (fun d => by rw [hx.2.2])⟩
  | conjugateTranspose hx =>
    exact ⟨rfl, _, _, rfl, rfl, op_same (k := .m) (conjugateTranspose_spec hg hw hx.1) (conjugateTranspose_spec hg' hw' hx.2.1)
      (fun d => by rw [hx.2.2])⟩
  | makeIdent hn hn' =>
    exact ⟨rfl, _, _, rfl, rfl, op_same (makeIdent_spec hg hw hn) (makeIdent_spec hg' hw' hn') (fun d => rfl)⟩
  | makeGateDD hn hn' ht hcs =>
    obtain ⟨r, e1, o⟩ := makeGateDD_spec hg hcs.sorted ht hcs.target hw hn
    obtain ⟨r', e1', o'⟩ := makeGateDD_spec hg' hcs.sorted ht hcs.target hw' hn'
    exact ⟨rfl, r, r', e1, e1', op_same o o' (fun d => rfl)⟩
  | @makeBasisStates _ st hn hn' hl =>
    have o := (basisLoop_spec hg (fun i => st.getD i .zero) _ s hw hn).1
    have o' := (basisLoop_spec hg' (fun i => st.getD i .zero) _ s' hw' hn').1
    refine ⟨rfl, _, _, ?_, ?_, op_same o o' (fun d => rfl)⟩
    · show Pkg.makeBasisStates P s _ st = _
      unfold Pkg.makeBasisStates; rw [if_neg (by omega), if_neg (by omega)]
    · show Pkg.makeBasisStates P' s' _ st = _
      unfold Pkg.makeBasisStates; rw [if_neg (by omega), if_neg (by omega)]

/-- Same operation, same operands: the results represent the same object, for any two histories of any two packages. -/
theorem C42_values (hC : P.C.Good) (hC' : P'.C.Good) (hr : PReach P h) (hr' : PReach P' h') {l : Nat}
    {c c' : Call R} (hc : SameCall h.pkg h'.pkg l c c') :
    ∃ r r', c.run P h.pkg = some r ∧ c'.run P' h'.pkg = some r' ∧ Same r.1 r'.1 c.kind l r.2 r'.2 := by
  obtain ⟨_, r, r', e, e', hS, _⟩ := run_spec hC hC' (hr.inv hC).wf (hr'.inv hC').wf hc
  exact ⟨r, r', e, e', hS⟩

/-- The same holds for inner products. -/
theorem C42_inner (hC : P.C.Good) (hC' : P'.C.Good) (hr : PReach P h) (hr' : PReach P' h') {l : Nat} {x y x' y' : PEdge R}
    (hx : Same h.pkg h'.pkg .v l x x') (hy : Same h.pkg h'.pkg .v l y y') :
    (Pkg.innerProduct P h.pkg x y).2 = (Pkg.innerProduct P' h'.pkg x' y').2 := by
  have o := innerProduct_spec (hr.inv hC).wf hx.1 hy.1
  have o' := innerProduct_spec (hr'.inv hC').wf hx.2.1 hy.2.1
  rw [o.val, o'.val, hx.2.2, hy.2.2]

/-- The steps of a history during which references to all the given edges are held. -/
def KeepingAll (P : PCfg R) (L : List (Kind × PEdge R)) (a b : PHist R) : Prop :=
  PStep P a b ∧ ∀ p ∈ L, p.2 ∈ a.held p.1 ∧ p.2 ∈ b.held p.1

omit [LinearOrder R] [IsStrictOrderedRing R] [HasSqrt R] [LawfulSqrt R] in
theorem sameCall_later {s0 s s' : Pkg R} {l : Nat} {c : Call R} (hc : SameCall s0 s l c c)
    (hv : ∀ p ∈ c.operands, ∀ l, Valid (s.ut p.1) l p.2 → Valid (s'.ut p.1) l p.2 ∧ amp (s'.ut p.1) l p.2 = amp (s.ut p.1) l p.2)
    (hn : ∀ k, (s.ut k).nvars ≤ (s'.ut k).nvars) : SameCall s0 s' l c c := by
  have key : ∀ {k l x}, (k, x) ∈ c.operands → Same s0 s k l x x → Same s0 s' k l x x := by
    intro k l x hm hx
    have := hv _ hm l hx.2.1
    exact ⟨hx.1, this.1, hx.2.2.trans this.2.symm⟩
  cases hc with
  | add hx hy => exact .add (key (by simp [Call.operands]) hx) (key (by simp [Call.operands]) hy)
  | multiply hx hy => exact .multiply (key (by simp [Call.operands]) hx) (key (by simp [Call.operands]) hy)
  | kronecker hx hy h1 h2 =>
    exact .kronecker (key (by simp [Call.operands]) hx) (key (by simp [Call.operands]) hy) h1 (h2.trans (hn _))
  | transpose hx => exact .transpose (key (by simp [Call.operands]) hx)
  | conjugateTranspose hx => exact .conjugateTranspose (key (by simp [Call.operands]) hx)
  | makeIdent h1 h2 => exact .makeIdent h1 (h2.trans (hn _))
  | makeGateDD h1 h2 h3 h4 => exact .makeGateDD h1 (h2.trans (hn _)) h3 h4
  | makeBasisStates h1 h2 h3 => exact .makeBasisStates h1 (h2.trans (hn _)) h3

omit [LawfulSqrt R] in
theorem run_step {l : Nat} {c : Call R} {r : Pkg R × PEdge R}
    (hc : SameCall h.pkg h.pkg l c c) (he : c.run P h.pkg = some r) : PStep P h { h with pkg := r.1 } := by
  cases hc with
  | add hx hy => cases he; exact .add _ _ _ _ hx.1 hy.1
  | multiply hx hy => cases he; exact .multiply _ _ _ _ hx.1 hy.1
  | kronecker hx hy h1 h2 => cases he; exact .kronecker _ _ _ _ _ hx.1 hy.1 h1
  | transpose hx => cases he; exact .transpose _ _ hx.1
  | conjugateTranspose hx => cases he; exact .conjugateTranspose _ _ hx.1
  | makeIdent h1 h2 => cases he; exact .makeIdent _ h1
  | makeGateDD h1 h2 h3 h4 => exact .makeGateDD _ _ _ _ _ h3 h4 he
  | makeBasisStates h1 h2 h3 => exact .makeBasisStates _ _ _ he

theorem keepingAll_value (hC : P.C.Good) (hr : PReach P h) {L : List (Kind × PEdge R)}
    (hs : Relation.ReflTransGen (KeepingAll P L) h h') :
    PReach P h' ∧ (∀ k, (h.pkg.ut k).nvars ≤ (h'.pkg.ut k).nvars) ∧ ∀ p ∈ L, ∀ l, Valid (h.pkg.ut p.1) l p.2 →
      Valid (h'.pkg.ut p.1) l p.2 ∧ amp (h'.pkg.ut p.1) l p.2 = amp (h.pkg.ut p.1) l p.2 := by
  induction hs with
  | refl => exact ⟨hr, fun _ => le_rfl, fun p _ l hv => ⟨hv, rfl⟩⟩
  | tail _ hs ih =>
    obtain ⟨h1, h2, h3⟩ := ih
    refine ⟨h1.step hs.1, fun k => (h2 k).trans (hs.1.nvars hC (h1.inv hC) k), fun p hp l hv => ?_⟩
    have a := h3 p hp l hv
    have b := hs.1.value hC (h1.inv hC) a.1 (hs.2 p hp).1 (hs.2 p hp).2
    exact ⟨b.1, (funext b.2).trans a.2⟩

/-- Repeating a call later yields the identical edge: a call was made in the state `h`, a reference to its result was
taken, and references to the operands and the result have been held until `h'`, through any number of steps. -/
theorem C42_repeat (hC : P.C.Good) (hr : PReach P h) {l : Nat} {c : Call R} {r : Pkg R × PEdge R}
    (hc : SameCall h.pkg h.pkg l c c) (he : c.run P h.pkg = some r)
    (hs : Relation.ReflTransGen (KeepingAll P ((c.kind, r.2) :: c.operands))
      ⟨r.1.incRef P c.kind r.2, Function.update h.held c.kind (r.2 :: h.held c.kind)⟩ h') :
    ∃ r', c.run P h'.pkg = some r' ∧ r'.2 = r.2 := by
  obtain ⟨_, r1, _, e1, _, S1, X1⟩ := run_spec hC hC (hr.inv hC).wf (hr.inv hC).wf hc
  rw [he] at e1; cases e1
  have st1 := run_step hc he
  have R1 := hr.step st1
  have n1 := st1.nvars hC (hr.inv hC)
  have st2 := PStep.incRef (P := P) (h := { h with pkg := r.1 }) c.kind l r.2 S1.1
  have R2 := R1.step st2
  have n2 := st2.nvars hC (R1.inv hC)
  have u2 : ∀ k l e, Valid (r.1.ut k) l e → Valid ((r.1.incRef P c.kind r.2).ut k) l e ∧
      amp ((r.1.incRef P c.kind r.2).ut k) l e = amp (r.1.ut k) l e := by
    intro k l' e hv
    have := reshape_value ((R1.inv hC).incRef hC c.kind S1.1).2 (fun k => ((R1.inv hC).wf.tab k).child) k hv
    exact ⟨this.1, funext this.2⟩
  have u1 := X1.unchanged (hr.inv hC).wf
  obtain ⟨R3, n3, v3⟩ := keepingAll_value hC R2 hs
  have hc' : SameCall h.pkg h'.pkg l c c := by
    refine sameCall_later hc (fun p hp l hv => ?_) (fun k => (n1 k).trans ((n2 k).trans (n3 k)))
    have a1 := u1 p.1 l p.2 hv
    have a2 := u2 p.1 l p.2 a1.1
    have a3 := v3 p (List.mem_cons_of_mem _ hp) l a2.1
    exact ⟨a3.1, a3.2.trans (a2.2.trans a1.2)⟩
  obtain ⟨_, r2, r', e2, e', S2, _⟩ := run_spec hC hC (hr.inv hC).wf (R3.inv hC).wf hc'
  rw [he] at e2; cases e2
  have hc3 : SameCall h'.pkg h'.pkg l c c := by
    have : ∀ {l c}, SameCall h.pkg h'.pkg l c c → SameCall h'.pkg h'.pkg l c c := by
      intro l c hc
      have key : ∀ {k l x}, Same h.pkg h'.pkg k l x x → Same h'.pkg h'.pkg k l x x := fun hx => ⟨hx.2.1, hx.2.1, rfl⟩
      cases hc with
      | add hx hy => exact .add (key hx) (key hy)
      | multiply hx hy => exact .multiply (key hx) (key hy)
      | kronecker hx hy h1 h2 => exact .kronecker (key hx) (key hy) h2 h2
      | transpose hx => exact .transpose (key hx)
      | conjugateTranspose hx => exact .conjugateTranspose (key hx)
      | makeIdent h1 h2 => exact .makeIdent h2 h2
      | makeGateDD h1 h2 h3 h4 => exact .makeGateDD h2 h2 h3 h4
      | makeBasisStates h1 h2 h3 => exact .makeBasisStates h2 h2 h3
    exact this hc'
  obtain ⟨_, r3, _, e3, _, S3, X3⟩ := run_spec hC hC (R3.inv hC).wf (R3.inv hC).wf hc3
  rw [e'] at e3; cases e3
  refine ⟨r', e', ?_⟩
  have b1 := u2 c.kind l r.2 S2.1
  have b2 := v3 (c.kind, r.2) (List.mem_cons_self) l b1.1
  have b3 := X3.unchanged (R3.inv hC).wf c.kind l r.2 b2.1
  have R4 := R3.step (run_step hc3 e')
  refine ((R4.inv hC).wf.tab c.kind).canonical S2.2.1 b3.1 (fun d => ?_)
  show amp (r'.1.ut c.kind) l r'.2 d = amp (r'.1.ut c.kind) l r.2 d
  rw [b3.2, b2.2, b1.2, S2.2.2]

end DD

namespace DD.Ex

/-- The hypotheses of `C42_values` are met with two packages of different histories. -/
example : ∃ (h h' : PHist ℝ) (x y : PEdge ℝ), PReach (PR ℝ) h ∧ PReach (PR ℝ) h' ∧ h ≠ h' ∧
    SameCall h.pkg h'.pkg 3 (.add .v x y) (.add .v x y) ∧ x.w ≠ 0 ∧ y.w ≠ 0 := by
  obtain ⟨h, x, y, A, B, hr, hn, vx, vy, vA, vB, hx, hA, ax, ay, aA, aB, wx, wy, wA, wB⟩ := setup (R := ℝ)
  have st := PStep.incRef (P := PR ℝ) (h := h) .v 3 x vx
  have u : ∀ k l e, Valid (h.pkg.ut k) l e → Valid ((h.pkg.incRef (PR ℝ) .v x).ut k) l e ∧
      amp ((h.pkg.incRef (PR ℝ) .v x).ut k) l e = amp (h.pkg.ut k) l e := by
    intro k l' e hv
    have := reshape_value ((hr.inv (PR_good ℝ)).incRef (PR_good ℝ) .v vx).2 (fun k => ((hr.inv (PR_good ℝ)).wf.tab k).child) k hv
    exact ⟨this.1, funext this.2⟩
  refine ⟨h, _, x, y, hr, hr.step st, ?_, .add ⟨vx, (u _ _ _ vx).1, (u _ _ _ vx).2.symm⟩ ⟨vy, (u _ _ _ vy).1, (u _ _ _ vy).2.symm⟩,
    wx, wy⟩
  intro he
  have := congrArg (fun z : PHist ℝ => (z.held .v).length) he
  simp [Function.update] at this

/-- The hypotheses of `C42_repeat` are met: the call is repeated after a forced garbage collection. -/
example : ∃ (h h' : PHist ℝ) (c : Call ℝ) (r : Pkg ℝ × PEdge ℝ), PReach (PR ℝ) h ∧ SameCall h.pkg h.pkg 3 c c ∧
    c.run (PR ℝ) h.pkg = some r ∧ Relation.ReflTransGen (KeepingAll (PR ℝ) ((c.kind, r.2) :: c.operands))
      ⟨r.1.incRef (PR ℝ) c.kind r.2, Function.update h.held c.kind (r.2 :: h.held c.kind)⟩ h' ∧
      ∃ s : Pkg ℝ, h'.pkg = (s.garbageCollect (PR ℝ) ⟨true, false, false, false, false⟩).1 := by
  obtain ⟨h, x, y, A, B, hr, hn, vx, vy, vA, vB, hx, hA, ax, ay, aA, aB, wx, wy, wA, wB⟩ := setup (R := ℝ)
  refine ⟨h, _, .multiply .v A x, _, hr, .multiply ⟨vA, vA, rfl⟩ ⟨vx, vx, rfl⟩, rfl,
    Relation.ReflTransGen.single ⟨.garbageCollect ⟨true, false, false, false, false⟩, ?_⟩, _, rfl⟩
  intro p hp
  simp only [Call.operands, Call.kind, List.mem_cons, List.not_mem_nil, or_false] at hp
  rcases hp with rfl | rfl | rfl
  · simp [Call.kind]
  · simp [Call.kind, Function.update, hA]
  · simp [Call.kind, hx]

end DD.Ex
