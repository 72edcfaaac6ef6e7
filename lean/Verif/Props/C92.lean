import Verif.Model.Literal
import Verif.Props.C71

/-!
# C92: control literals

`q_pc` and `q_nc` are meant to denote a positive and a negative control on qubit `q`. They do exactly for `q < 128`. Other numbers are not
rejected: the conversion to the qubit type makes them negative or maps them to another qubit. A negative qubit comes first in every set and
matches no line, so that all controls of the set are ignored.
-/

namespace DD

variable {R : Type} [Field R] [LinearOrder R] [IsStrictOrderedRing R] [HasSqrt R] [LawfulSqrt R] {P : PCfg R}
  {h : PHist R}

/-! ## Literals -/

/-- A literal denotes a control on the qubit that is written, of the right type, exactly for numbers below 128. -/
theorem C92_literal (c : Ctrl) : (lit c).neg = c.neg ∧ ((lit c).qubit = c.qubit ↔ c.qubit < 128) := by
  refine ⟨rfl, ?_⟩
  unfold lit Pkg.toQubit
  dsimp only
  rw [Int.bmod_def]
  split_ifs <;> omega

/-- The qubit of any literal: numbers that are equal modulo 256 denote the same control, and half of them a negative qubit. -/
theorem C92_wrap (c : Ctrl) : (lit c).qubit = if c.qubit % 256 < 128 then ((c.qubit % 256 : Nat) : Int) else (c.qubit % 256 : Nat) - 256 := by
  unfold lit Pkg.toQubit
  dsimp only
  rw [Int.bmod_def]
  split_ifs <;> omega

/-! ## Sets -/

theorem QCtrl.ext' {a b : QCtrl} (h1 : a.qubit = b.qubit) (h2 : a.neg = b.neg) : a = b := by
  cases a; cases b; simp_all

/-- A control with an unbounded qubit as a stored one. -/
def Ctrl.up (c : Ctrl) : QCtrl := ⟨c.qubit, c.neg⟩

theorem Ctrl.up_lt (a b : Ctrl) : a.up.lt b.up = a.lt b := by
  unfold Ctrl.up QCtrl.lt Ctrl.lt
  dsimp only
  congr 1
  · simp
  · congr 2
    rw [Bool.eq_iff_iff]
    simp

theorem qctrlInsert_up (x : Ctrl) (l : List Ctrl) : qctrlInsert x.up (l.map Ctrl.up) = (ctrlInsert x l).map Ctrl.up := by
  induction l with
  | nil => rfl
  | cons c l ih =>
    rw [List.map_cons]
    unfold qctrlInsert ctrlInsert
    rw [Ctrl.up_lt, Ctrl.up_lt, ih]
    split_ifs <;> rfl

theorem qctrlSet_up (cs : List Ctrl) : qctrlSet (cs.map Ctrl.up) = (ctrlSet cs).map Ctrl.up := by
  have aux : ∀ (cs l : List Ctrl), (cs.map Ctrl.up).foldl (fun s c => qctrlInsert c s) (l.map Ctrl.up) =
      (cs.foldl (fun s c => ctrlInsert c s) l).map Ctrl.up := by
    intro cs
    induction cs with
    | nil => intro l; rfl
    | cons c cs ih => intro l; rw [List.map_cons, List.foldl_cons, List.foldl_cons, qctrlInsert_up, ih]
  exact aux cs []

theorem QCtrl.lt_iff {a b : QCtrl} : a.lt b = true ↔ a.qubit < b.qubit ∨ a.qubit = b.qubit ∧ a.neg = true ∧ b.neg = false := by
  simp [QCtrl.lt, and_assoc]

theorem QCtrl.lt_trans' {a b c : QCtrl} (h1 : a.lt b = true) (h2 : b.lt c = true) : a.lt c = true := by
  rw [QCtrl.lt_iff] at *
  rcases h1 with h1 | ⟨h1, h3, h4⟩ <;> rcases h2 with h2 | ⟨h2, h5, h6⟩
  · left; omega
  · left; omega
  · left; omega
  · rw [h4] at h5; contradiction

theorem QCtrl.lt_total {a b : QCtrl} (h1 : ¬a.lt b = true) (h2 : ¬b.lt a = true) : a = b := by
  rw [QCtrl.lt_iff] at *
  obtain ⟨q, x⟩ := a
  obtain ⟨r, y⟩ := b
  dsimp only at *
  have : q = r := by omega
  subst this
  cases x <;> cases y <;> simp_all

theorem mem_qctrlInsert {x y : QCtrl} : ∀ {cs : List QCtrl}, y ∈ qctrlInsert x cs ↔ y = x ∨ y ∈ cs := by
  intro cs
  induction cs with
  | nil => simp [qctrlInsert]
  | cons c cs ih =>
    unfold qctrlInsert
    split_ifs with h1 h2
    · simp
    · rw [List.mem_cons, ih, List.mem_cons]; tauto
    · obtain rfl := QCtrl.lt_total h1 h2
      rw [List.mem_cons]; tauto

theorem qctrlInsert_sorted (x : QCtrl) : ∀ cs : List QCtrl, cs.Pairwise (fun a b => a.lt b = true) →
    (qctrlInsert x cs).Pairwise (fun a b => a.lt b = true) := by
  intro cs
  induction cs with
  | nil => intro _; simp [qctrlInsert]
  | cons c cs ih =>
    intro h
    rw [List.pairwise_cons] at h
    unfold qctrlInsert
    split_ifs with h1 h2
    · refine List.pairwise_cons.2 ⟨fun b hb => ?_, List.pairwise_cons.2 h⟩
      rcases List.mem_cons.1 hb with rfl | hb
      · exact h1
      · exact QCtrl.lt_trans' h1 (h.1 b hb)
    · refine List.pairwise_cons.2 ⟨fun b hb => ?_, ih h.2⟩
      rcases mem_qctrlInsert.1 hb with rfl | hb
      · exact h2
      · exact h.1 b hb
    · exact List.pairwise_cons.2 h

/-- The content of a set of stored controls: sorted, without repetitions, exactly what was inserted. -/
theorem C92_content (cs : List QCtrl) : (qctrlSet cs).Pairwise (fun a b => a.lt b = true) ∧ ∀ x, x ∈ qctrlSet cs ↔ x ∈ cs := by
  have aux : ∀ (cs s : List QCtrl), s.Pairwise (fun a b => a.lt b = true) →
      (cs.foldl (fun s c => qctrlInsert c s) s).Pairwise (fun a b => a.lt b = true) ∧
        ∀ x, x ∈ cs.foldl (fun s c => qctrlInsert c s) s ↔ x ∈ s ∨ x ∈ cs := by
    intro cs
    induction cs with
    | nil => intro s h; exact ⟨h, by simp⟩
    | cons c cs ih =>
      intro s h
      obtain ⟨a, b⟩ := ih _ (qctrlInsert_sorted c s h)
      refine ⟨a, fun x => ?_⟩
      rw [List.foldl_cons, b, mem_qctrlInsert, List.mem_cons]
      tauto
  obtain ⟨a, b⟩ := aux cs [] List.Pairwise.nil
  exact ⟨a, fun x => by rw [qctrlSet, b]; simp⟩

/-- Looking a qubit up in a set finds a control on it exactly if one was inserted. -/
theorem C92_find (q : Int) (cs : List QCtrl) :
    (∀ c, qctrlFind q (qctrlSet cs) = some c → c ∈ cs ∧ c.qubit = q) ∧
      (qctrlFind q (qctrlSet cs) = none ↔ ∀ c ∈ cs, c.qubit ≠ q) := by
  obtain ⟨h1, h2⟩ := C92_content cs
  have aux : ∀ l : List QCtrl, l.Pairwise (fun a b => a.lt b = true) →
      (∀ c, qctrlFind q l = some c → c ∈ l ∧ c.qubit = q) ∧ (qctrlFind q l = none ↔ ∀ c ∈ l, c.qubit ≠ q) := by
    intro l
    induction l with
    | nil => intro _; simp [qctrlFind]
    | cons a l ih =>
      intro hl
      rw [List.pairwise_cons] at hl
      have hle : ∀ c ∈ l, a.qubit ≤ c.qubit := fun c hc => by
        have := hl.1 c hc
        rw [QCtrl.lt_iff] at this
        omega
      obtain ⟨i1, i2⟩ := ih hl.2
      unfold qctrlFind at i1 i2 ⊢
      by_cases ha : a.qubit < q
      · rw [List.find?_cons_of_neg (by simpa using ha)]
        refine ⟨fun c hc => ⟨List.mem_cons_of_mem _ (i1 c hc).1, (i1 c hc).2⟩, i2.trans ⟨fun hh c hc => ?_, fun hh c hc => hh c (List.mem_cons_of_mem _ hc)⟩⟩
        rcases List.mem_cons.1 hc with rfl | hc
        · omega
        · exact hh c hc
      · rw [List.find?_cons_of_pos (by simpa using ha)]
        dsimp only
        split_ifs with hq
        · refine ⟨by simp, ?_⟩
          simp only [true_iff]
          intro c hc
          rcases List.mem_cons.1 hc with rfl | hc
          · omega
          · have := hle c hc; omega
        · have hqa : a.qubit = q := by omega
          refine ⟨fun c hc => ?_, ?_⟩
          · obtain rfl := Option.some.inj hc
            exact ⟨List.mem_cons_self .., hqa⟩
          · simp only [reduceCtorEq, false_iff, not_forall]
            exact ⟨a, List.mem_cons_self .., fun hh => hh hqa⟩
  obtain ⟨a, b⟩ := aux _ h1
  exact ⟨fun c hc => ⟨(h2 c).1 (a c hc).1, (a c hc).2⟩, b.trans ⟨fun hh c hc => hh c ((h2 c).2 hc), fun hh c hc => hh c ((h2 c).1 hc)⟩⟩

/-! ## Gates -/

/-- Iterators that behave alike: the same controls, or one that is stuck at a negative qubit. -/
def SameQ (it : List QCtrl) (l : List Ctrl) : Prop := it = l.map Ctrl.up ∨ l = [] ∧ ∃ c r, it = c :: r ∧ c.qubit < 0

omit [LawfulSqrt R] in
theorem gateBelowQ_same {z : Nat} {it : List QCtrl} {l : List Ctrl} (h : SameQ it l) (s : Pkg R) (em : Fin 4 → PEdge R) :
    (Pkg.gateBelowQ P z s em it).1 = (Pkg.gateBelow P z s em l).1 ∧ SameQ (Pkg.gateBelowQ P z s em it).2 (Pkg.gateBelow P z s em l).2 := by
  rcases h with rfl | ⟨rfl, c, r, rfl, hc⟩
  · cases l with
    | nil => exact ⟨rfl, .inl rfl⟩
    | cons c l =>
      unfold Pkg.gateBelowQ Pkg.gateBelow
      rw [List.map_cons]
      by_cases hz : c.qubit = z
      · have hz' : c.up.qubit = z := by rw [Ctrl.up, hz]
        simp only [if_pos hz, if_pos hz']
        exact ⟨rfl, .inl rfl⟩
      · have hz' : c.up.qubit ≠ z := fun e => hz (Int.ofNat_inj.1 e)
        simp only [if_neg hz, if_neg hz']
        exact ⟨trivial, .inl rfl⟩
  · unfold Pkg.gateBelowQ Pkg.gateBelow
    have : c.qubit ≠ z := by omega
    simp only [if_neg this]
    exact ⟨trivial, .inr ⟨rfl, c, r, rfl, hc⟩⟩

omit [LawfulSqrt R] in
theorem gateBelowLoopQ_same {it : List QCtrl} {l : List Ctrl} (h : SameQ it l) (s : Pkg R) (em : Fin 4 → PEdge R) : ∀ z,
    (Pkg.gateBelowLoopQ P z s em it).1 = (Pkg.gateBelowLoop P z s em l).1 ∧
      SameQ (Pkg.gateBelowLoopQ P z s em it).2 (Pkg.gateBelowLoop P z s em l).2 := by
  intro z
  induction z with
  | zero => exact ⟨rfl, h⟩
  | succ z ih =>
    unfold Pkg.gateBelowLoopQ Pkg.gateBelowLoop
    dsimp only
    rw [ih.1]
    exact gateBelowQ_same ih.2 _ _

omit [LawfulSqrt R] in
theorem gateAboveQ_same {z : Nat} {it : List QCtrl} {l : List Ctrl} (h : SameQ it l) (s : Pkg R) (e : PEdge R) :
    (Pkg.gateAboveQ P z s e it).1 = (Pkg.gateAbove P z s e l).1 ∧ SameQ (Pkg.gateAboveQ P z s e it).2 (Pkg.gateAbove P z s e l).2 := by
  rcases h with rfl | ⟨rfl, c, r, rfl, hc⟩
  · cases l with
    | nil => exact ⟨rfl, .inl rfl⟩
    | cons c l =>
      unfold Pkg.gateAboveQ Pkg.gateAbove
      rw [List.map_cons]
      by_cases hz : c.qubit = z
      · have hz' : c.up.qubit = z := by rw [Ctrl.up, hz]
        simp only [if_pos hz, if_pos hz']
        exact ⟨rfl, .inl rfl⟩
      · have hz' : c.up.qubit ≠ z := fun e => hz (Int.ofNat_inj.1 e)
        simp only [if_neg hz, if_neg hz']
        exact ⟨trivial, .inl rfl⟩
  · unfold Pkg.gateAboveQ Pkg.gateAbove
    have : c.qubit ≠ z := by omega
    simp only [if_neg this]
    exact ⟨trivial, .inr ⟨rfl, c, r, rfl, hc⟩⟩

omit [LawfulSqrt R] in
theorem gateAboveLoopQ_same {q0 : Nat} {it : List QCtrl} {l : List Ctrl} (h : SameQ it l) (s : Pkg R) (e : PEdge R) : ∀ n,
    (Pkg.gateAboveLoopQ P q0 n s e it).1 = (Pkg.gateAboveLoop P q0 n s e l).1 ∧
      SameQ (Pkg.gateAboveLoopQ P q0 n s e it).2 (Pkg.gateAboveLoop P q0 n s e l).2 := by
  intro n
  induction n with
  | zero => exact ⟨rfl, h⟩
  | succ n ih =>
    unfold Pkg.gateAboveLoopQ Pkg.gateAboveLoop
    dsimp only
    rw [ih.1]
    exact gateAboveQ_same ih.2 _ _

omit [LawfulSqrt R] in
theorem makeGateDDQ_same {it : List QCtrl} {l : List Ctrl} (h : SameQ it l) (s : Pkg R) (U : Fin 4 → Cx R) (n t : Nat) :
    Pkg.makeGateDDQ P s U n it t = Pkg.makeGateDD P s U n l t := by
  unfold Pkg.makeGateDDQ Pkg.makeGateDD
  split_ifs with hn
  · rfl
  obtain ⟨a, b⟩ := gateBelowLoopQ_same (P := P) h s (fun i => Pkg.gateEntry (U i)) t
  dsimp only
  rw [a, (gateAboveLoopQ_same b _ _ _).1]

/-- A gate with controls given by literals for qubits of the register, at most one for each and none for the target, after any history: it is
applied exactly if the controls on the qubits that are written are satisfied. Missing for the full property: an error, or any sensible
meaning, for literals above 127 (`C92_negative_false`, `C92_wrap`). -/
theorem C92_gate_partial (hC : P.C.Good) (hr : PReach P h) {n : Nat} (hn : n ≤ (h.pkg.ut .m).nvars) (h128 : n ≤ 128) (U : Fin 4 → Cx R)
    (cs : List Ctrl) (target : Fin n) (h1 : ∀ c ∈ cs, c.qubit ≠ target ∧ c.qubit < n)
    (h2 : ∀ c ∈ cs, ∀ c' ∈ cs, c.qubit = c'.qubit → c = c') :
    ∃ r, Pkg.makeGateDDQ P h.pkg U n (qctrlSet (cs.map lit)) target = some r ∧ Valid (r.1.ut .m) n r.2 ∧
      mat (r.1.ut .m) n r.2 = gateMat (fun a b => U (rc a b)) cs target ∧ Unchanged h.pkg r.1 := by
  have hm : cs.map lit = cs.map Ctrl.up := List.map_congr_left fun c hc => by
    have := (C92_literal c).2.2 (by have := (h1 c hc).2; omega)
    exact QCtrl.ext' this (C92_literal c).1
  rw [hm, makeGateDDQ_same (.inl (qctrlSet_up cs))]
  obtain ⟨r, e1, e2, e3, e4⟩ := C71_gate hC hr hn U cs target
  rw [(C71_all target n cs).2 ⟨h1, h2⟩] at e3
  refine ⟨r, e1, e2, ?_, e4⟩
  rw [e3]
  have hc : (CtrlOK (ctrlSet cs) : (Fin n → Fin 2) → Prop) = CtrlOK cs := by
    funext x
    exact propext ⟨fun hh c hc => hh c (((C71_content cs).2 c).2 hc), fun hh c hc => hh c (((C71_content cs).2 c).1 hc)⟩
  funext i j
  unfold gateMat
  rw [hc]

/-- If the number of any of the literals has a remainder modulo 256 of 128 or more, all the controls are ignored: the gate is applied to every
state. -/
theorem C92_negative_false (hC : P.C.Good) (hr : PReach P h) {n : Nat} (hn : n ≤ (h.pkg.ut .m).nvars) (U : Fin 4 → Cx R)
    (cs : List Ctrl) (target : Fin n) (h1 : ∃ c ∈ cs, 128 ≤ c.qubit % 256) :
    ∃ r, Pkg.makeGateDDQ P h.pkg U n (qctrlSet (cs.map lit)) target = some r ∧ Valid (r.1.ut .m) n r.2 ∧
      mat (r.1.ut .m) n r.2 = gateMat (fun a b => U (rc a b)) [] target ∧ Unchanged h.pkg r.1 := by
  obtain ⟨c, hc, hq⟩ := h1
  obtain ⟨s1, s2⟩ := C92_content (cs.map lit)
  have hl : SameQ (qctrlSet (cs.map lit)) [] := by
    refine .inr ⟨rfl, ?_⟩
    have hm : lit c ∈ qctrlSet (cs.map lit) := (s2 _).2 (List.mem_map_of_mem hc)
    have hneg : (lit c).qubit < 0 := by rw [C92_wrap, if_neg (by omega)]; omega
    cases hs : qctrlSet (cs.map lit) with
    | nil => rw [hs] at hm; simp at hm
    | cons a l =>
      refine ⟨a, l, rfl, ?_⟩
      rw [hs] at hm s1
      rcases List.mem_cons.1 hm with e | hm
      · rw [← e]; exact hneg
      · have := (List.pairwise_cons.1 s1).1 _ hm
        rw [QCtrl.lt_iff] at this
        omega
  rw [makeGateDDQ_same hl]
  exact C31_gate hC hr hn U ⟨List.Pairwise.nil, by simp, by simp⟩

/-! ## Examples -/

namespace Ex

/-- `{3_pc, 200_nc, 0_pc}`: the literal for qubit 200 comes first, with qubit -56. -/
example : qctrlSet ([⟨3, false⟩, ⟨200, true⟩, ⟨0, false⟩].map lit) = [⟨-56, true⟩, ⟨0, false⟩, ⟨3, false⟩] := by decide +kernel

/-- `257_pc` is a control on qubit 1. -/
example : lit ⟨257, false⟩ = lit ⟨1, false⟩ := by decide +kernel

/-- The hypotheses of `C92_gate_partial` are met: a package of at least four qubits in which other diagrams have been built, and the controls
`{3_pc, 0_nc}`; those of `C92_negative_false` with `130_pc` in addition. -/
example : ∃ h : PHist ℝ, PReach (PR ℝ) h ∧ 4 ≤ (h.pkg.ut .m).nvars ∧
    (∀ c ∈ [(⟨3, false⟩ : Ctrl), ⟨0, true⟩], c.qubit ≠ ((1 : Fin 4) : Nat) ∧ c.qubit < 4) ∧
    (∀ c ∈ [(⟨3, false⟩ : Ctrl), ⟨0, true⟩], ∀ c' ∈ [(⟨3, false⟩ : Ctrl), ⟨0, true⟩], c.qubit = c'.qubit → c = c') ∧
    ∃ c ∈ [(⟨3, false⟩ : Ctrl), ⟨0, true⟩, ⟨130, false⟩], 128 ≤ c.qubit % 256 := by
  obtain ⟨h, x, y, A, B, hr, hn, -⟩ := setup (R := ℝ)
  exact ⟨h, hr, by rw [hn]; omega, by decide, by decide, by decide⟩

end Ex

end DD
