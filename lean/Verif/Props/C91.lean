import Verif.Props.C90

/-!
# C91: tensor products without a shift of the indices
-/

namespace DD

open UTable

section
variable {R : Type} [Field R] [LinearOrder R] [IsStrictOrderedRing R] [HasSqrt R] [LawfulSqrt R] {P : PCfg R}

/-- `kronecker(x, y, false)` for states: if `x` is a state of the qubits right above those of `y`, the result is a state of
both, whose amplitudes are the products of the amplitudes; all other diagrams keep their values. Missing for the full
property: histories in which the ordinary product of states above qubit 0 has been formed, for which it is false
(`C91_cached_false`). -/
theorem C91_state_partial (hC : P.C.Good) {s : Pkg R} (hs : SpanReach P s) {st lx ly : Nat} (hl : 0 < ly) {x y : PEdge R}
    (hx : Span (s.ut .v) (st + ly) lx x) (hy : Span (s.ut .v) st ly y) :
    let r := Pkg.kroneckerI P .v s x y
    (∀ a : Nat → Fin 2, Pkg.valueByPath (r.1.ut .v) r.2 a = Pkg.valueByPath (s.ut .v) x a * Pkg.valueByPath (s.ut .v) y a) ∧
      Span (r.1.ut .v) st (ly + lx) r.2 ∧ SameByPath s r.1 := by
  have hw := hs.awf hC
  obtain ⟨_, h2, h3, h4⟩ := kroneckerI_awf hC.growth hw (k := .v) hl hx hy trivial
  exact ⟨h4, h3, h2.same hw.swf⟩

/-- The same for matrices, if no node of the left operand is like an identity on its qubit. Missing for the full property: all
other left operands, for which it is false in general (`C91_matrix_false`). -/
theorem C91_matrix_partial (hC : P.C.Good) {s : Pkg R} (hs : SpanReach P s) {st lx ly : Nat} (hl : 0 < ly) {x y : PEdge R}
    (hx : Span (s.ut .m) (st + ly) lx x) (hy : Span (s.ut .m) st ly y) (hi : NoIdent (s.ut .m) lx x) :
    let r := Pkg.kroneckerI P .m s x y
    (∀ a b : Nat → Fin 2, Pkg.valueByPath (r.1.ut .m) r.2 (fun q => rc (a q) (b q)) =
      Pkg.valueByPath (s.ut .m) x (fun q => rc (a q) (b q)) * Pkg.valueByPath (s.ut .m) y (fun q => rc (a q) (b q))) ∧
      Span (r.1.ut .m) st (ly + lx) r.2 ∧ SameByPath s r.1 := by
  have hw := hs.awf hC
  obtain ⟨_, h2, h3, h4⟩ := kroneckerI_awf hC.growth hw (k := .m) hl hx hy hi
  exact ⟨fun a b => h4 _, h3, h2.same hw.swf⟩

/-- In particular, an operation `U` on one qubit other than a multiple of the identity can be put on top of any matrix over the
qubits below. -/
theorem C91_gate_partial (hC : P.C.Good) {s : Pkg R} (hs : SpanReach P s) {st ly : Nat} (hl : 0 < ly) {y : PEdge R}
    (hy : Span (s.ut .m) st ly y) {U : Fin 4 → Cx R} (hU : ¬(U 1 = 0 ∧ U 2 = 0 ∧ U 0 = U 3)) (hn : 1 + (st + ly) ≤ (s.ut .m).nvars) :
    ∃ x, Pkg.makeGateDDS P s U 1 [] (st + ly) (st + ly) = some x ∧
      let r := Pkg.kroneckerI P .m x.1 x.2 y
      (∀ a b : Nat → Fin 2, Pkg.valueByPath (r.1.ut .m) r.2 (fun q => rc (a q) (b q)) =
        U (rc (a (st + ly)) (b (st + ly))) * Pkg.valueByPath (s.ut .m) y (fun q => rc (a q) (b q))) ∧
      Span (r.1.ut .m) st (ly + 1) r.2 ∧ SameByPath s r.1 := by
  have hw := hs.awf hC
  obtain ⟨x, e1, e2, e3, e4⟩ := makeGateDDS_swf hC.growth hw.swf U (n := 1) (le_refl (st + ly)) (by omega) hn
  have hs1 := SpanReach.gate hs (le_refl _) (by omega) e1
  have px := (C90_span hC hs).2.2.2.1 _ _ (le_refl _) (by omega) e1
  have hv : ∀ a b : Nat → Fin 2, Pkg.valueByPath (x.1.ut .m) x.2 (fun q => rc (a q) (b q)) = U (rc (a (st + ly)) (b (st + ly))) := by
    intro a b
    rw [e4]
    unfold gateEntryAt
    rw [if_pos]
    intro i hi hne
    exact absurd (by omega) hne
  have hni : NoIdent (x.1.ut .m) 1 x.2 := by
    intro c hc
    refine ⟨fun ⟨c1, c2, c3⟩ => hU ?_, fun _ => trivial⟩
    rcases px with ⟨px, _⟩ | ⟨_, c', p2, p3, p4, p5, _⟩
    · rw [px] at hc; simp at hc
    obtain rfl : c' = c := by rw [p2] at hc; exact Option.some.inj hc
    have hval : ∀ i j : Fin 2, U (rc i j) = x.2.w * (((x.1.ut .m).mem c').e (rc i j)).w := by
      intro i j
      have h0 := hv (fun _ => i) (fun _ => j)
      rw [show x.2 = ⟨some c', x.2.w⟩ by rw [← p2]] at h0
      rw [valueByPath_node (e2.ord .m) _ p3] at h0
      rw [← h0]
      unfold Pkg.valueByPath
      rw [show (((x.1.ut .m).mem c').e (rc i j)).p = none from p5 _]
    have v1 := hval 0 1
    have v2 := hval 1 0
    have v0 := hval 0 0
    have v3 := hval 1 1
    rw [show rc 0 1 = 1 by decide, c1, mul_zero] at v1
    rw [show rc 1 0 = 2 by decide, c2, mul_zero] at v2
    rw [show rc 0 0 = 0 by decide] at v0
    rw [show rc 1 1 = 3 by decide, ← c3, ← v0] at v3
    exact ⟨v1, v2, v3.symm⟩
  obtain ⟨h1, h2, h3⟩ := C91_matrix_partial hC hs1 hl px (hy.mono (e3 .m).1) hni
  refine ⟨x, e1, fun a b => ?_, h2, ?_⟩
  · rw [h1, hv, valueByPath_mono (hw.swf.ord .m) (e3 .m).1 _ hy.lvBelow]
  · exact (e3.trans (kroneckerI_awf hC.growth (hs1.awf hC) (k := .m) hl px (hy.mono (e3 .m).1) hni).2.1).same hw.swf

/-- The tensor product of a basis state of the qubits `m .. m + n - 1` and one of the qubits `0 .. m - 1` is the basis state of
all these qubits. -/
theorem C91_basis_partial (hC : P.C.Good) {s : Pkg R} (hs : SpanReach P s) {n m : Nat} (hm : 0 < m)
    (hn : n + m ≤ (s.ut .v).nvars) {bits : List Bool} (hb : n + m ≤ bits.length) :
    ∃ x, Pkg.makeBasisStateS P s n bits m = .ok x ∧ ∃ y, Pkg.makeBasisStateS P x.1 m bits 0 = .ok y ∧
      let r := Pkg.kroneckerI P .v y.1 x.2 y.2
      ∀ a : Nat → Fin 2, Pkg.valueByPath (r.1.ut .v) r.2 a = if ∀ q (h : q < n + m), (a q = 1 ↔ bits[q] = true) then 1 else 0 := by
  have hw := hs.awf hC
  obtain ⟨x, e1, e2, e3, e4⟩ := makeBasisStateS_swf hC.growth hw.swf hn (state := bits) (by omega)
  have hs1 := SpanReach.bits hs e1
  have px := (C90_span hC hs).2.1 _ e1
  obtain ⟨y, f1, f2, f3, f4⟩ := makeBasisStateS_swf hC.growth e3 (n := m) (start := 0) (by rw [(e4 .v).2]; omega) (state := bits) (by omega)
  have hs2 := SpanReach.bits hs1 f1
  have py := (C90_span hC hs1).2.1 _ f1
  refine ⟨x, e1, y, f1, fun a => ?_⟩
  have hx : Span (y.1.ut .v) (0 + m) n x.2 := by rw [Nat.zero_add]; exact px.mono (f4 .v).1
  rw [(C91_state_partial hC hs2 hm hx py).1 a, valueByPath_mono (e3.ord .v) (f4 .v).1 a px.lvBelow, e2, f2]
  have hb : ∀ (i : Fin 2) (b : Bool), (i = if b then 1 else 0) ↔ (i = 1 ↔ b = true) := by decide
  simp only [hb, Nat.zero_add]
  have hm2 : ∀ (p q : Prop) [Decidable p] [Decidable q], (if p then (1 : Cx R) else 0) * (if q then 1 else 0) = if p ∧ q then 1 else 0 := by
    intro p q _ _
    by_cases hp : p <;> by_cases hq : q <;> simp [hp, hq]
  rw [hm2]
  refine if_congr ⟨fun ⟨h1, h2⟩ q hq => ?_, fun h => ⟨fun i => h _ (by omega), fun i => h _ (by omega)⟩⟩ rfl rfl
  by_cases hqm : q < m
  · exact h2 ⟨q, hqm⟩
  · have := h1 ⟨q - m, by omega⟩
    simp only [show m + (q - m) = q by omega] at this
    exact this

end

section
variable {R : Type} [Field R] [LinearOrder R] [IsStrictOrderedRing R] [HasSqrt R]

theorem kron2F_hit {P : PCfg R} {k : Kind} (l : Nat) {s : Pkg R} {x y r : PEdge R} {a : Nat} (hz : ¬(x.w = 0 ∨ y.w = 0)) (hp : x.p = some a)
    (h : Pkg.look (P.kronH k) (s.kronC k) (x, y) = some r) (hr : r.w ≠ 0) :
    Pkg.kron2F P k l s x y = (s, r) ∧ Pkg.kron2FI P k l s x y = (s, r) := by
  unfold Pkg.kron2F Pkg.kron2FI
  rw [if_neg hz, if_neg hz, hp]
  dsimp only
  rw [h]
  dsimp only
  rw [if_neg hr]
  exact ⟨rfl, rfl⟩

theorem kron2F_stored (P : PCfg R) (k : Kind) (l : Nat) (s : Pkg R) {x y : PEdge R} {a : Nat} (hz : ¬(x.w = 0 ∨ y.w = 0))
    (hp : x.p = some a) (hne : (Pkg.kron2F P k (l + 1) s x y).2.w ≠ 0) :
    Pkg.look (P.kronH k) ((Pkg.kron2F P k (l + 1) s x y).1.kronC k) (x, y) = some (Pkg.kron2F P k (l + 1) s x y).2 := by
  unfold Pkg.kron2F at hne ⊢
  rw [if_neg hz, hp] at hne ⊢
  dsimp only at hne ⊢
  cases h : Pkg.look (P.kronH k) (s.kronC k) (x, y) with
  | some r =>
    rw [h] at hne
    dsimp only at hne ⊢
    by_cases hr : r.w = 0
    · rw [if_pos hr] at hne; exact absurd rfl hne
    · rw [if_neg hr]; exact h
  | none =>
    dsimp only
    split
    · simp only [Function.update_self]; exact look_insert _ _ _ _
    · simp only [Function.update_self]; exact look_insert _ _ _ _

/-- The table of tensor products does not distinguish the two variants: right after `kronecker(x, y)` with a result other than
zero, `kronecker(x, y, false)` returns the same edge, whose nodes have other indices. -/
theorem C91_cached (P : PCfg R) (k : Kind) (s : Pkg R) {x y : PEdge R} (hx : x.p ≠ none) (hz : x.w ≠ 0 ∧ y.w ≠ 0)
    (hne : (Pkg.kronecker P k s x y).2.w ≠ 0) :
    Pkg.kroneckerI P k (Pkg.kronecker P k s x y).1 x y = Pkg.kronecker P k s x y := by
  obtain ⟨a, hp⟩ := Option.ne_none_iff_exists'.1 hx
  have hz' : ¬(x.w = 0 ∨ y.w = 0) := by rw [not_or]; exact hz
  have hl : s.lv k x = ((s.ut k).mem a).v + 1 := by simp [Pkg.lv, UTable.lvl, hp]
  unfold Pkg.kronecker at hne ⊢
  rw [hl] at hne ⊢
  have h := kron2F_stored P k _ s hz' hp hne
  unfold Pkg.kroneckerI
  rw [(kron2F_hit _ hz' hp h hne).2]

end

section
variable {R : Type} [Field R] [DecidableEq R]

/-- A decision procedure for `Span`. -/
def spanB {n : Nat} (t : UTable (Cx R) n) (st : Nat) : Nat → PEdge R → Bool
  | 0, e => decide (e.p = none)
  | l + 1, e => decide (e.p = none ∧ e.w = 0) || (decide (e.w ≠ 0) && match e.p with
    | none => false
    | some a => decide (a ∈ t.all) && decide ((t.mem a).v = st + l) && decide (∀ i, spanB t st l ((t.mem a).e i) = true) &&
        decide (∃ i, ((t.mem a).e i).w ≠ 0))

theorem spanB_sound {n : Nat} {t : UTable (Cx R) n} {st : Nat} : ∀ {l : Nat} {e : PEdge R}, spanB t st l e = true → Span t st l e := by
  intro l
  induction l with
  | zero => intro e h; exact (of_decide_eq_true h : e.p = none)
  | succ l ih =>
    intro e h
    unfold spanB at h
    rw [Bool.or_eq_true, Bool.and_eq_true] at h
    rcases h with h | ⟨h1, h2⟩
    · exact Or.inl (of_decide_eq_true h)
    · cases hp : e.p with
      | none => rw [hp] at h2; simp at h2
      | some a =>
        rw [hp] at h2
        simp only [Bool.and_eq_true, decide_eq_true_eq] at h2
        obtain ⟨⟨⟨a1, a2⟩, a3⟩, a4⟩ := h2
        exact Or.inr ⟨of_decide_eq_true h1, a, hp, a1, a2, fun i => ih (a3 i), a4⟩

end

/-! Runs of the package in exact rational arithmetic, as for C90. -/

section

/-- Stands for the square root, which is not used. -/
local instance startKronSqrt : HasSqrt ℚ := ⟨fun x => x⟩

/-- The state 1 of qubit 1, and then that of qubit 0, in a new package. -/
def kronStates : Option (Pkg ℚ × PEdge ℚ × PEdge ℚ) :=
  match Pkg.makeBasisStateS startMulCfg (startMulNew 3) 1 [false, true] 1 with
  | .ok x => match Pkg.makeBasisStateS startMulCfg x.1 1 [true] 0 with
    | .ok y => some (y.1, x.2, y.2)
    | _ => none
  | _ => none

/-- The gate `X` on qubit 2 over the qubits 1 and 2, and then `X` on qubit 0, in a new package. -/
def kronGates : Option (Pkg ℚ × PEdge ℚ × PEdge ℚ) :=
  match Pkg.makeGateDDS startMulCfg (startMulNew 3) Pkg.XmatS 2 [] 2 1 with
  | some x => match Pkg.makeGateDDS startMulCfg x.1 Pkg.XmatS 1 [] 0 0 with
    | some y => some (y.1, x.2, y.2)
    | _ => none
  | _ => none

/-- What the first run shows. -/
def kronStatesCheck (r : Pkg ℚ × PEdge ℚ × PEdge ℚ) : Bool :=
  let m := Pkg.kroneckerI startMulCfg .v r.1 r.2.1 r.2.2
  let f := Pkg.kronecker startMulCfg .v r.1 r.2.1 r.2.2
  let g := Pkg.kroneckerI startMulCfg .v f.1 r.2.1 r.2.2
  spanB (r.1.ut .v) 1 1 r.2.1 && spanB (r.1.ut .v) 0 1 r.2.2 &&
  decide (Pkg.valueByPath (m.1.ut .v) m.2 (fun q => if q = 2 then 0 else 1) = 1) &&
  decide (Pkg.valueByPath (g.1.ut .v) g.2 (fun q => if q = 2 then 0 else 1) = 0)

set_option maxRecDepth 100000 in
theorem kronStates_run : kronStates.any kronStatesCheck = true := by decide +kernel

/-- What the second run shows. -/
def kronGatesCheck (r : Pkg ℚ × PEdge ℚ × PEdge ℚ) : Bool :=
  let m := Pkg.kroneckerI startMulCfg .m r.1 r.2.1 r.2.2
  let d : Nat → Fin 4 := fun q => if q = 1 then rc 0 0 else rc 0 1
  spanB (r.1.ut .m) 1 2 r.2.1 && spanB (r.1.ut .m) 0 1 r.2.2 &&
  decide (Pkg.valueByPath (r.1.ut .m) r.2.1 d = 1) && decide (Pkg.valueByPath (r.1.ut .m) r.2.2 d = 1) &&
  decide (Pkg.valueByPath (m.1.ut .m) m.2 d = 0)

set_option maxRecDepth 100000 in
theorem kronGates_run : kronGates.any kronGatesCheck = true := by decide +kernel

/-- The tensor product of states without a shift is wrong if the ordinary one has been formed before: for the state 1 of
qubit 1 and the state 1 of qubit 0, the amplitude of 1 on both qubits is 1, but 0 after `kronecker` with a shift. -/
theorem C91_cached_false : ∃ (s : Pkg ℚ) (x y : PEdge ℚ), SpanReach startMulCfg s ∧ Span (s.ut .v) 1 1 x ∧ Span (s.ut .v) 0 1 y ∧
    (let r := Pkg.kroneckerI startMulCfg .v s x y
     Pkg.valueByPath (r.1.ut .v) r.2 (fun q => if q = 2 then 0 else 1) = 1) ∧
    let r := Pkg.kroneckerI startMulCfg .v (Pkg.kronecker startMulCfg .v s x y).1 x y
    Pkg.valueByPath (r.1.ut .v) r.2 (fun q => if q = 2 then 0 else 1) = 0 := by
  have h := kronStates_run
  cases hX : kronStates with
  | none => rw [hX] at h; exact absurd h (by simp)
  | some r =>
    rw [hX] at h
    simp only [Option.any_some, kronStatesCheck, Bool.and_eq_true, decide_eq_true_eq] at h
    obtain ⟨⟨⟨h1, h2⟩, h3⟩, h4⟩ := h
    refine ⟨r.1, r.2.1, r.2.2, ?_, spanB_sound h1, spanB_sound h2, h3, h4⟩
    unfold kronStates at hX
    cases e1 : Pkg.makeBasisStateS startMulCfg (startMulNew 3) 1 [false, true] 1 with
    | ok x =>
      rw [e1] at hX
      dsimp only at hX
      cases e2 : Pkg.makeBasisStateS startMulCfg x.1 1 [true] 0 with
      | ok y =>
        rw [e2] at hX
        obtain rfl := Option.some.inj hX
        exact .bits (.bits (startMulNew_reach (by decide)) e1) e2
      | _ => rw [e2] at hX; simp at hX
    | _ => rw [e1] at hX; simp at hX

/-- For matrices the result is wrong if the left operand contains an identity: for `X` on qubit 2 over the qubits 1 and 2, and
`X` on qubit 0, the entry of the tensor product that flips the qubits 0 and 2 is 1, but the diagram has 0, since the shortcut
for the identity on qubit 1 puts its node on qubit 0. -/
theorem C91_matrix_false : ∃ (s : Pkg ℚ) (x y : PEdge ℚ) (d : Nat → Fin 4), SpanReach startMulCfg s ∧ Span (s.ut .m) 1 2 x ∧
    Span (s.ut .m) 0 1 y ∧ Pkg.valueByPath (s.ut .m) x d = 1 ∧ Pkg.valueByPath (s.ut .m) y d = 1 ∧
    let r := Pkg.kroneckerI startMulCfg .m s x y
    Pkg.valueByPath (r.1.ut .m) r.2 d = 0 := by
  have h := kronGates_run
  cases hX : kronGates with
  | none => rw [hX] at h; exact absurd h (by simp)
  | some r =>
    rw [hX] at h
    simp only [Option.any_some, kronGatesCheck, Bool.and_eq_true, decide_eq_true_eq] at h
    obtain ⟨⟨⟨⟨h1, h2⟩, h3⟩, h4⟩, h5⟩ := h
    refine ⟨r.1, r.2.1, r.2.2, _, ?_, spanB_sound h1, spanB_sound h2, h3, h4, h5⟩
    unfold kronGates at hX
    cases e1 : Pkg.makeGateDDS startMulCfg (startMulNew 3) Pkg.XmatS 2 [] 2 1 with
    | some x =>
      rw [e1] at hX
      dsimp only at hX
      cases e2 : Pkg.makeGateDDS startMulCfg x.1 Pkg.XmatS 1 [] 0 0 with
      | some y =>
        rw [e2] at hX
        obtain rfl := Option.some.inj hX
        exact .gate (.gate (startMulNew_reach (by decide)) (by decide) (by decide) e1) (by decide) (by decide) e2
      | _ => rw [e2] at hX; simp at hX
    | _ => rw [e1] at hX; simp at hX

end

end DD

namespace DD.Ex

/-- The hypotheses of `C91_state_partial` and `C91_basis_partial` are met: a package for five qubits or more in which other
diagrams have been built, with basis states of the qubits 2 .. 4 and 0 .. 1. -/
example : ∃ (s : Pkg ℝ) (x y : PEdge ℝ), SpanReach (PR ℝ) s ∧ Span (s.ut .v) (0 + 2) 3 x ∧ Span (s.ut .v) 0 2 y := by
  obtain ⟨h, x, y, A, B, hr, hn, vx, vy, vA, vB, hx, hA, ax, ay, aA, aB, wx, wy, wA, wB⟩ := setup (R := ℝ)
  have hC := PR_good ℝ
  have hs : SpanReach (PR ℝ) h.pkg := .base hr
  obtain ⟨x, e1, e2, e3, e4⟩ := makeBasisStateS_swf hC.growth (hs.awf hC).swf (n := 3) (start := 2) (by rw [hn]; omega)
    (state := [true, false, true, true, false]) (by simp)
  have hs1 := SpanReach.bits hs e1
  obtain ⟨y, f1, f2, f3, f4⟩ := makeBasisStateS_swf hC.growth e3 (n := 2) (start := 0) (by rw [(e4 .v).2, hn]; omega)
    (state := [true, false, true, true, false]) (by simp)
  exact ⟨y.1, x.2, y.2, .bits hs1 f1, ((C90_span hC hs).2.1 _ e1).mono (f4 .v).1, (C90_span hC hs1).2.1 _ f1⟩

/-- The hypotheses of `C91_gate_partial` are met: in such a package, a gate over the qubits 0 .. 3, and a bit flip on qubit 4 to
be put on top of it. -/
example : ∃ (s : Pkg ℝ) (y : PEdge ℝ), SpanReach (PR ℝ) s ∧ Span (s.ut .m) 0 4 y ∧ 1 + (0 + 4) ≤ (s.ut .m).nvars ∧
    ¬((![0, 1, 1, 0] : Fin 4 → Cx ℝ) 1 = 0 ∧ (![0, 1, 1, 0] : Fin 4 → Cx ℝ) 2 = 0 ∧
      (![0, 1, 1, 0] : Fin 4 → Cx ℝ) 0 = (![0, 1, 1, 0] : Fin 4 → Cx ℝ) 3) := by
  obtain ⟨h, x, y, A, B, hr, hn, vx, vy, vA, vB, hx, hA, ax, ay, aA, aB, wx, wy, wA, wB⟩ := setup (R := ℝ)
  have hC := PR_good ℝ
  have hs : SpanReach (PR ℝ) h.pkg := .base hr
  obtain ⟨g, e1, _, e3, _⟩ := makeGateDDS_swf hC.growth (hs.awf hC).swf ![1, 0, 0, -1] (n := 4) (target := 2) (start := 0)
    (by omega) (by omega) (by rw [hn]; omega)
  exact ⟨_, _, .gate hs (by omega) (by omega) e1, (C90_span hC hs).2.2.2.1 _ _ (by omega) (by omega) e1,
    by rw [(e3 .m).2, hn]; omega, fun ⟨h1, _⟩ => by simp at h1⟩

end DD.Ex
