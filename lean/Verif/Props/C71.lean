import Verif.Proofs.RealEx
import Verif.Proofs.Ctrl2
import Verif.Props.C31

/-!
# C71: gates with any set of controls

`Controls` is a `std::set`, so the order in which controls are inserted does not matter. `makeGateDD` does not check them: a control on the
target, a second (positive) control on the same qubit and a control beyond the last qubit stop the iterator, so that this control and all
controls on higher qubits are silently ignored. The theorems say exactly which gate results from any set of controls.
-/

namespace DD

variable {R : Type} [Field R] [LinearOrder R] [IsStrictOrderedRing R] [HasSqrt R] [LawfulSqrt R] {P : PCfg R}
  {h : PHist R}

/-! ## Specification -/

/-- The controls that take effect, given the controls of a set in order: all up to the first one that is on the target `t`, on a qubit that
already has a control (`prev` is the qubit of the last control), or not below `n`. -/
def honoured (t n : Nat) : Option Nat → List Ctrl → List Ctrl
  | _, [] => []
  | prev, c :: cs => if c.qubit = t ∨ prev = some c.qubit ∨ n ≤ c.qubit then [] else c :: honoured t n (some c.qubit) cs

/-- The content of a set into which the given controls are inserted one after the other, in order. -/
def ctrlSet (cs : List Ctrl) : List Ctrl := cs.foldl (fun s c => ctrlInsert c s) []

/-! ## Sets -/

theorem Ctrl.lt_iff {a b : Ctrl} : a.lt b = true ↔ a.qubit < b.qubit ∨ a.qubit = b.qubit ∧ a.neg = true ∧ b.neg = false := by
  simp [Ctrl.lt, and_assoc]

theorem Ctrl.lt_trans' {a b c : Ctrl} (h1 : a.lt b = true) (h2 : b.lt c = true) : a.lt c = true := by
  rw [Ctrl.lt_iff] at *
  rcases h1 with h1 | ⟨h1, h3, h4⟩ <;> rcases h2 with h2 | ⟨h2, h5, h6⟩
  · left; omega
  · left; omega
  · left; omega
  · rw [h4] at h5; contradiction

theorem Ctrl.lt_total {a b : Ctrl} (h1 : ¬a.lt b = true) (h2 : ¬b.lt a = true) : a = b := by
  rw [Ctrl.lt_iff] at *
  obtain ⟨q, x⟩ := a
  obtain ⟨r, y⟩ := b
  dsimp only at *
  have : q = r := by omega
  subst this
  cases x <;> cases y <;> simp_all

theorem ctrlInsert_sorted (x : Ctrl) : ∀ cs : List Ctrl, cs.Pairwise (fun a b => a.lt b = true) →
    (ctrlInsert x cs).Pairwise (fun a b => a.lt b = true) := by
  intro cs
  induction cs with
  | nil => intro _; simp [ctrlInsert]
  | cons c cs ih =>
    intro h
    rw [List.pairwise_cons] at h
    unfold ctrlInsert
    split_ifs with h1 h2
    · refine List.pairwise_cons.2 ⟨fun b hb => ?_, List.pairwise_cons.2 h⟩
      rcases List.mem_cons.1 hb with rfl | hb
      · exact h1
      · exact Ctrl.lt_trans' h1 (h.1 b hb)
    · refine List.pairwise_cons.2 ⟨fun b hb => ?_, ih h.2⟩
      rcases mem_ctrlInsert.1 hb with rfl | hb
      · exact h2
      · exact h.1 b hb
    · exact List.pairwise_cons.2 h

theorem ctrlSet_aux (cs : List Ctrl) : ∀ s : List Ctrl, s.Pairwise (fun a b => a.lt b = true) →
    (cs.foldl (fun s c => ctrlInsert c s) s).Pairwise (fun a b => a.lt b = true) ∧
      ∀ x, x ∈ cs.foldl (fun s c => ctrlInsert c s) s ↔ x ∈ s ∨ x ∈ cs := by
  induction cs with
  | nil => intro s h; exact ⟨h, by simp⟩
  | cons c cs ih =>
    intro s h
    obtain ⟨a, b⟩ := ih _ (ctrlInsert_sorted c s h)
    refine ⟨a, fun x => ?_⟩
    rw [List.foldl_cons, b, mem_ctrlInsert, List.mem_cons]
    tauto

/-- The content of a set of controls: sorted, without repetitions, exactly what was inserted. -/
theorem C71_content (cs : List Ctrl) : (ctrlSet cs).Pairwise (fun a b => a.lt b = true) ∧ ∀ x, x ∈ ctrlSet cs ↔ x ∈ cs := by
  obtain ⟨a, b⟩ := ctrlSet_aux cs [] List.Pairwise.nil
  exact ⟨a, fun x => by rw [ctrlSet, b]; simp⟩

theorem sorted_unique : ∀ {s s' : List Ctrl}, s.Pairwise (fun a b => a.lt b = true) → s'.Pairwise (fun a b => a.lt b = true) →
    (∀ x, x ∈ s ↔ x ∈ s') → s = s' := by
  have irr : ∀ a : Ctrl, ¬a.lt a = true := fun a h => by rw [Ctrl.lt_iff] at h; rcases h with h | ⟨-, h, h'⟩; omega; rw [h] at h'; contradiction
  intro s
  induction s with
  | nil =>
    intro s' _ _ h
    cases s' with
    | nil => rfl
    | cons c cs => have := (h c).2 (List.mem_cons_self ..); simp at this
  | cons a s ih =>
    intro s' h1 h2 h
    cases s' with
    | nil => have := (h a).1 (List.mem_cons_self ..); simp at this
    | cons b s' =>
      rw [List.pairwise_cons] at h1 h2
      have hab : a = b := by
        rcases List.mem_cons.1 ((h a).1 (List.mem_cons_self ..)) with e | e
        · exact e
        · rcases List.mem_cons.1 ((h b).2 (List.mem_cons_self ..)) with e' | e'
          · exact e'.symm
          · exact absurd (Ctrl.lt_trans' (h1.1 b e') (h2.1 a e)) (irr a)
      subst hab
      rw [ih h1.2 h2.2 fun x => ⟨fun hx => ?_, fun hx => ?_⟩]
      · rcases List.mem_cons.1 ((h x).1 (List.mem_cons_of_mem _ hx)) with e | e
        · subst e; exact absurd (h1.1 x hx) (irr x)
        · exact e
      · rcases List.mem_cons.1 ((h x).2 (List.mem_cons_of_mem _ hx)) with e | e
        · subst e; exact absurd (h2.1 x hx) (irr x)
        · exact e

/-- The order and the number of insertions of a control do not matter. -/
theorem C71_order {cs cs' : List Ctrl} (h : ∀ x, x ∈ cs ↔ x ∈ cs') : ctrlSet cs = ctrlSet cs' :=
  sorted_unique (C71_content cs).1 (C71_content cs').1 fun x => by rw [(C71_content cs).2, (C71_content cs').2, h]

/-! ## Gates -/

/-- Iterators that behave alike from line `z` on. -/
def SameIt (t n : Nat) : Nat → List Ctrl → List Ctrl → Prop
  | z, it, [] => ∀ c ∈ it.head?, c.qubit < z ∨ c.qubit = t ∨ n ≤ c.qubit
  | z, it, c :: l => ∃ r, it = c :: r ∧ SameIt t n (max z (c.qubit + 1)) r l

theorem SameIt.mono {t n : Nat} : ∀ {l it : List Ctrl} {z z' : Nat}, z ≤ z' → SameIt t n z it l → SameIt t n z' it l := by
  intro l
  induction l with
  | nil => intro it z z' hz h c hc; have := h c hc; omega
  | cons c l ih =>
    rintro it z z' hz ⟨r, e, h⟩
    exact ⟨r, e, ih (by omega) h⟩

theorem honoured_same (t n : Nat) : ∀ (cs : List Ctrl) (prev : Option Nat) (z : Nat), (∀ q, prev = some q → q < z) →
    SameIt t n z cs (honoured t n prev cs) := by
  intro cs
  induction cs with
  | nil => intro prev z _; simp [honoured, SameIt]
  | cons c cs ih =>
    intro prev z hz
    unfold honoured
    split_ifs with hc
    · intro c' hc'
      rw [List.head?_cons, Option.mem_some_iff] at hc'
      subst hc'
      rcases hc with hc | hc | hc
      · exact .inr (.inl hc)
      · exact .inl (hz _ hc)
      · exact .inr (.inr hc)
    · exact ⟨cs, rfl, ih _ _ fun q hq => by rw [Option.some.injEq] at hq; omega⟩

theorem honoured_sorted (t n : Nat) : ∀ (cs : List Ctrl), cs.Pairwise (fun a b => a.lt b = true) → ∀ prev : Option Nat,
    (∀ q, prev = some q → ∀ c ∈ cs, q ≤ c.qubit) → (honoured t n prev cs).Pairwise (fun a b => a.qubit < b.qubit) ∧
      ∀ c ∈ honoured t n prev cs, c ∈ cs ∧ c.qubit ≠ t ∧ c.qubit < n ∧ ∀ q, prev = some q → q < c.qubit := by
  intro cs
  induction cs with
  | nil => intro _ prev _; simp [honoured]
  | cons a cs ih =>
    intro h prev hp
    rw [List.pairwise_cons] at h
    unfold honoured
    split_ifs with hc
    · simp
    push Not at hc
    have hle : ∀ c ∈ cs, a.qubit ≤ c.qubit := fun c hcs => by
      have := h.1 c hcs
      rw [Ctrl.lt_iff] at this
      omega
    have ha : ∀ q, prev = some q → q < a.qubit := fun q hq => by
      have h1 := hp q hq a (List.mem_cons_self ..)
      have h2 : q ≠ a.qubit := fun e => hc.2.1 (by rw [hq, e])
      omega
    obtain ⟨i1, i2⟩ := ih h.2 (some a.qubit) (fun q hq c hcs => by rw [Option.some.injEq] at hq; rw [← hq]; exact hle c hcs)
    refine ⟨List.pairwise_cons.2 ⟨fun b hb => (i2 b hb).2.2.2 _ rfl, i1⟩, fun c hcm => ?_⟩
    rcases List.mem_cons.1 hcm with rfl | hcm
    · exact ⟨List.mem_cons_self .., hc.1, by omega, ha⟩
    · obtain ⟨j1, j2, j3, j4⟩ := i2 c hcm
      exact ⟨List.mem_cons_of_mem _ j1, j2, j3, fun q hq => (ha q hq).trans (j4 _ rfl)⟩

omit [LawfulSqrt R] in
theorem gateBelow_same {t n z : Nat} (hz : z < t) (htn : t < n) {it l : List Ctrl} (h : SameIt t n z it l) (s : Pkg R)
    (em : Fin 4 → PEdge R) : (Pkg.gateBelow P z s em it).1 = (Pkg.gateBelow P z s em l).1 ∧
      SameIt t n (z + 1) (Pkg.gateBelow P z s em it).2 (Pkg.gateBelow P z s em l).2 := by
  cases l with
  | nil =>
    cases it with
    | nil => exact ⟨rfl, by simp [Pkg.gateBelow, SameIt]⟩
    | cons c r =>
      have hq := h c (by simp)
      have : c.qubit ≠ z := by omega
      unfold Pkg.gateBelow
      simp only [if_neg this]
      exact ⟨trivial, fun c' hc' => by rw [List.head?_cons, Option.mem_some_iff] at hc'; subst hc'; omega⟩
  | cons c l =>
    obtain ⟨r, rfl, h⟩ := h
    unfold Pkg.gateBelow
    by_cases hq : c.qubit = z
    · simp only [if_pos hq]
      exact ⟨trivial, h.mono (by omega)⟩
    · simp only [if_neg hq]
      exact ⟨trivial, r, rfl, h.mono (by omega)⟩

omit [LawfulSqrt R] in
theorem gateBelowLoop_same {t n : Nat} (htn : t < n) {it l : List Ctrl} (h : SameIt t n 0 it l) (s : Pkg R) (em : Fin 4 → PEdge R) :
    ∀ z ≤ t, (Pkg.gateBelowLoop P z s em it).1 = (Pkg.gateBelowLoop P z s em l).1 ∧
      SameIt t n z (Pkg.gateBelowLoop P z s em it).2 (Pkg.gateBelowLoop P z s em l).2 := by
  intro z
  induction z with
  | zero => intro _; exact ⟨rfl, h⟩
  | succ z ih =>
    intro hz
    obtain ⟨a, b⟩ := ih (by omega)
    unfold Pkg.gateBelowLoop
    dsimp only
    rw [a]
    exact gateBelow_same (by omega) htn b _ _

omit [LawfulSqrt R] in
theorem gateAbove_same {t n z : Nat} (hz : t < z) (htn : z < n) {it l : List Ctrl} (h : SameIt t n z it l) (s : Pkg R)
    (e : PEdge R) : (Pkg.gateAbove P z s e it).1 = (Pkg.gateAbove P z s e l).1 ∧
      SameIt t n (z + 1) (Pkg.gateAbove P z s e it).2 (Pkg.gateAbove P z s e l).2 := by
  cases l with
  | nil =>
    cases it with
    | nil => exact ⟨rfl, by simp [Pkg.gateAbove, SameIt]⟩
    | cons c r =>
      have hq := h c (by simp)
      have : c.qubit ≠ z := by omega
      unfold Pkg.gateAbove
      simp only [if_neg this]
      exact ⟨trivial, fun c' hc' => by rw [List.head?_cons, Option.mem_some_iff] at hc'; subst hc'; omega⟩
  | cons c l =>
    obtain ⟨r, rfl, h⟩ := h
    unfold Pkg.gateAbove
    by_cases hq : c.qubit = z
    · simp only [if_pos hq]
      exact ⟨trivial, h.mono (by omega)⟩
    · simp only [if_neg hq]
      exact ⟨trivial, r, rfl, h.mono (by omega)⟩

omit [LawfulSqrt R] in
theorem gateAboveLoop_same {t n : Nat} {it l : List Ctrl} (h : SameIt t n (t + 1) it l) (s : Pkg R) (e : PEdge R) :
    ∀ k, t + 1 + k ≤ n → (Pkg.gateAboveLoop P (t + 1) k s e it).1 = (Pkg.gateAboveLoop P (t + 1) k s e l).1 ∧
      SameIt t n (t + 1 + k) (Pkg.gateAboveLoop P (t + 1) k s e it).2 (Pkg.gateAboveLoop P (t + 1) k s e l).2 := by
  intro k
  induction k with
  | zero => intro _; exact ⟨rfl, h⟩
  | succ k ih =>
    intro hz
    obtain ⟨a, b⟩ := ih (by omega)
    unfold Pkg.gateAboveLoop
    dsimp only
    rw [a]
    exact gateAbove_same (by omega) (by omega) b _ _

omit [LawfulSqrt R] in
/-- Whatever the set of controls: the call does exactly what it does for the honoured ones. -/
theorem C71_same (s : Pkg R) (U : Fin 4 → Cx R) {n t : Nat} (ht : t < n) (cs : List Ctrl) :
    Pkg.makeGateDD P s U n (ctrlSet cs) t = Pkg.makeGateDD P s U n (honoured t n none (ctrlSet cs)) t := by
  unfold Pkg.makeGateDD
  split_ifs with hn
  · rfl
  obtain ⟨a, b⟩ := gateBelowLoop_same (P := P) ht (honoured_same t n (ctrlSet cs) none 0 (by simp)) s (fun i => Pkg.gateEntry (U i)) t (le_refl t)
  dsimp only
  rw [a, (gateAboveLoop_same (b.mono (Nat.le_succ t)) _ _ (n - 1 - t) (by omega)).1]

/-- For every set of controls, after any history, the gate is applied if the honoured controls are satisfied, and no diagram changes. -/
theorem C71_gate (hC : P.C.Good) (hr : PReach P h) {n : Nat} (hn : n ≤ (h.pkg.ut .m).nvars) (U : Fin 4 → Cx R) (cs : List Ctrl)
    (target : Fin n) :
    ∃ r, Pkg.makeGateDD P h.pkg U n (ctrlSet cs) target = some r ∧ Valid (r.1.ut .m) n r.2 ∧
      mat (r.1.ut .m) n r.2 = gateMat (fun a b => U (rc a b)) (honoured target n none (ctrlSet cs)) target ∧ Unchanged h.pkg r.1 := by
  obtain ⟨h1, h2⟩ := honoured_sorted target n (ctrlSet cs) (C71_content cs).1 none (by simp)
  rw [C71_same h.pkg U target.isLt cs]
  exact C31_gate hC hr hn U ⟨h1, fun c hc => (h2 c hc).2.1, fun c hc => (h2 c hc).2.2.1⟩

/-- All controls are honoured if there is at most one on each qubit, none on the target and none beyond the last qubit; only then. -/
theorem C71_all (t n : Nat) (cs : List Ctrl) : honoured t n none (ctrlSet cs) = ctrlSet cs ↔
    (∀ c ∈ cs, c.qubit ≠ t ∧ c.qubit < n) ∧ ∀ c ∈ cs, ∀ c' ∈ cs, c.qubit = c'.qubit → c = c' := by
  obtain ⟨h1, h2⟩ := honoured_sorted t n (ctrlSet cs) (C71_content cs).1 none (by simp)
  obtain ⟨c1, c2⟩ := C71_content cs
  constructor
  · intro e
    rw [e] at h1 h2
    refine ⟨fun c hc => ⟨(h2 c ((c2 c).2 hc)).2.1, (h2 c ((c2 c).2 hc)).2.2.1⟩, fun c hc c' hc' hq => ?_⟩
    by_contra hne
    haveI : Std.Symm (fun a b : Ctrl => a.qubit ≠ b.qubit) := ⟨fun _ _ h => h.symm⟩
    have key := (h1.imp (S := fun a b : Ctrl => a.qubit ≠ b.qubit) fun h => by omega).forall ((c2 c).2 hc) ((c2 c').2 hc') hne
    exact key hq
  · rintro ⟨g1, g2⟩
    have aux : ∀ (l : List Ctrl) (prev : Option Nat), l.Pairwise (fun a b => a.lt b = true) → (∀ x ∈ l, x ∈ cs) →
        (∀ q, prev = some q → ∀ c ∈ l, q ≠ c.qubit) → honoured t n prev l = l := by
      intro l
      induction l with
      | nil => intro _ _ _ _; rfl
      | cons a l ih =>
        intro prev hs hm hp
        rw [List.pairwise_cons] at hs
        unfold honoured
        have ha := g1 a (hm a (List.mem_cons_self ..))
        rw [if_neg, ih _ hs.2 (fun x hx => hm x (List.mem_cons_of_mem _ hx))]
        · intro q hq c hc e
          rw [Option.some.injEq] at hq
          have hac := g2 a (hm a (List.mem_cons_self ..)) c (hm c (List.mem_cons_of_mem _ hc)) (hq.trans e)
          have := hs.1 c hc
          rw [← hac, Ctrl.lt_iff] at this
          rcases this with h | ⟨-, h, h'⟩
          · omega
          · rw [h] at h'; contradiction
        · push Not
          exact ⟨ha.1, fun h => hp _ h a (List.mem_cons_self ..) rfl, by omega⟩
    exact aux _ none c1 (fun x hx => (c2 x).1 hx) (by simp)

/-! ## Examples -/

namespace Ex

/-- A control on qubit 0, both controls on qubit 1, one on qubit 3; the target is qubit 2: only the first two in order take effect. -/
example : honoured 2 4 none (ctrlSet [⟨3, false⟩, ⟨1, false⟩, ⟨0, false⟩, ⟨1, true⟩]) = [⟨0, false⟩, ⟨1, true⟩] := by decide +kernel

/-- A control on the target switches off the controls above it. -/
example : honoured 1 3 none (ctrlSet [⟨1, false⟩, ⟨2, true⟩, ⟨0, false⟩]) = [⟨0, false⟩] := by decide +kernel

/-- Valid controls in any order. -/
example : honoured 1 3 none (ctrlSet [⟨2, true⟩, ⟨0, false⟩, ⟨2, true⟩]) = cs0 := by decide +kernel

end Ex

/-- A gate is not always applied exactly if all controls are satisfied: with a positive control on the target as well as one on a higher qubit,
the gate is applied although both are not satisfied. -/
theorem C71_target_false : ∃ h : PHist ℝ, PReach (Ex.PR ℝ) h ∧ ∃ r,
    Pkg.makeGateDD (Ex.PR ℝ) h.pkg Ex.U0 2 (ctrlSet [⟨0, false⟩, ⟨1, false⟩]) 0 = some r ∧ Valid (r.1.ut .m) 2 r.2 ∧
      mat (r.1.ut .m) 2 r.2 ![1, 0] ![0, 0] = ⟨0, 3⟩ ∧ ¬CtrlOK [⟨0, false⟩, ⟨1, false⟩] (![0, 0] : Fin 2 → Fin 2) := by
  obtain ⟨h, x, y, A, B, hr, hn, -⟩ := Ex.setup (R := ℝ)
  obtain ⟨r, e, v, m, -⟩ := C71_gate (Ex.PR_good ℝ) hr (n := 2) (by rw [hn]; omega) Ex.U0 [⟨0, false⟩, ⟨1, false⟩] 0
  refine ⟨h, hr, r, e, v, ?_, fun hc => ?_⟩
  · rw [m]
    have : honoured ((0 : Fin 2) : Nat) 2 none (ctrlSet [⟨0, false⟩, ⟨1, false⟩]) = [] := by decide +kernel
    rw [this]
    unfold gateMat
    rw [if_pos (by intro i hi; fin_cases i <;> simp_all), if_pos (by simp [CtrlOK])]
    rfl
  · have := hc ⟨1, false⟩ (by simp) (by decide)
    simp at this

end DD
