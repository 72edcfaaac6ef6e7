import Verif.Model.Identity
import Verif.Proofs.RealEx
import Mathlib.Analysis.SpecialFunctions.Complex.Arg

/-!
# C51: closeness to the identity

With tolerance 0, `isCloseToIdentity` accepts exactly the multiples of the identity and of the identities with ancillary
qubits (the comments in the source call them `[ ~1 0 0 ~0 ]`): diagonal matrices whose entries are 0 or a common value,
such that with an index all indices obtained by clearing lower bits carry the value too. With a larger tolerance, the
entries of an accepted matrix deviate by a corresponding amount.
-/

namespace DD

variable {R : Type} [Field R] [LinearOrder R] [IsStrictOrderedRing R]

/-- Specification of the argument function: it is zero exactly on the nonnegative real axis. -/
def LawfulArg (arg : Cx R → R) : Prop := ∀ z, arg z = 0 ↔ z.im = 0 ∧ 0 ≤ z.re

/-- The bits below `k` cleared. -/
def clearLow {l : Nat} (k : Nat) (d : Fin l → Fin 2) : Fin l → Fin 2 := fun i => if (i : Nat) < k then 0 else d i

open Classical in
/-- Specification: `M` is `c` times a diagonal matrix of zeros and ones; the entry of the all-zeros index is one, and with an
index every index obtained by clearing lower bits belongs to the ones. (Without zeros, this is `c` times the identity.) -/
def AncillaIdentity {l : Nat} (c : Cx R) (M : Matrix (Fin l → Fin 2) (Fin l → Fin 2) (Cx R)) : Prop :=
  ∃ S : Set (Fin l → Fin 2), (fun _ => 0) ∈ S ∧ (∀ d ∈ S, ∀ k, clearLow k d ∈ S) ∧
    ∀ r s, M r s = if r = s ∧ r ∈ S then c else 0

/-- The block of a matrix selected by the highest row and column bit. -/
def blk {l : Nat} (M : Matrix (Fin (l + 1) → Fin 2) (Fin (l + 1) → Fin 2) (Cx R)) (i j : Fin 2) :
    Matrix (Fin l → Fin 2) (Fin l → Fin 2) (Cx R) :=
  fun r s => M (Fin.snoc (α := fun _ => Fin 2) r i) (Fin.snoc (α := fun _ => Fin 2) s j)

theorem clearLow_snoc {l : Nat} (k : Nat) (hk : k ≤ l) (d : Fin l → Fin 2) (b : Fin 2) :
    clearLow k (Fin.snoc (α := fun _ => Fin 2) d b) = Fin.snoc (α := fun _ => Fin 2) (clearLow k d) b := by
  funext i
  refine Fin.lastCases ?_ (fun i => ?_) i
  · simp [clearLow, Nat.not_lt.2 hk]
  · simp [clearLow]

theorem clearLow_all {l : Nat} (k : Nat) (hk : l ≤ k) (d : Fin l → Fin 2) : clearLow k d = fun _ => 0 := by
  funext i
  have := i.isLt
  simp [clearLow, show (i : Nat) < k by omega]

theorem snoc_zero {l : Nat} : (Fin.snoc (α := fun _ => Fin 2) (fun _ : Fin l => (0 : Fin 2)) 0 : Fin (l + 1) → Fin 2) = fun _ => 0 := by
  funext i
  refine Fin.lastCases ?_ (fun i => ?_) i <;> simp

omit [IsStrictOrderedRing R] [LinearOrder R] in
theorem ite_iff {p q : Prop} {dp : Decidable p} {dq : Decidable q} (h : p ↔ q) (c : Cx R) :
    @ite _ p dp c 0 = @ite _ q dq c 0 := by
  by_cases hp : p
  · rw [if_pos hp, if_pos (h.1 hp)]
  · rw [if_neg hp, if_neg (fun hq => hp (h.2 hq))]

open Classical in
/-- Ancilla identities block by block. -/
theorem ancilla_succ {l : Nat} {c : Cx R} {M : Matrix (Fin (l + 1) → Fin 2) (Fin (l + 1) → Fin 2) (Cx R)} :
    AncillaIdentity c M ↔ AncillaIdentity c (blk M 0 0) ∧ blk M 0 1 = 0 ∧ blk M 1 0 = 0 ∧
      (blk M 1 1 = 0 ∨ AncillaIdentity c (blk M 1 1)) := by
  constructor
  · rintro ⟨S, h0, h1, h2⟩
    refine ⟨⟨{d | Fin.snoc (α := fun _ => Fin 2) d 0 ∈ S}, ?_, ?_, ?_⟩, ?_, ?_, ?_⟩
    · show _ ∈ S
      rw [snoc_zero]; exact h0
    · intro d hd k
      by_cases hk : k ≤ l
      · show _ ∈ S
        rw [← clearLow_snoc k hk]; exact h1 _ hd k
      · rw [clearLow_all k (by omega)]
        show _ ∈ S
        rw [snoc_zero]; exact h0
    · intro r s
      show M _ _ = _
      rw [h2]
      exact ite_iff (and_congr (by rw [snoc_inj]; simp) Iff.rfl) c
    · funext r s
      show M _ _ = 0
      rw [h2, if_neg]; rw [snoc_inj]; simp
    · funext r s
      show M _ _ = 0
      rw [h2, if_neg]; rw [snoc_inj]; simp
    · by_cases hS : ∃ d, Fin.snoc (α := fun _ => Fin 2) d 1 ∈ S
      · right
        obtain ⟨d, hd⟩ := hS
        refine ⟨{d | Fin.snoc (α := fun _ => Fin 2) d 1 ∈ S}, ?_, ?_, ?_⟩
        · show _ ∈ S
          rw [← clearLow_all l le_rfl d, ← clearLow_snoc l le_rfl]; exact h1 _ hd l
        · intro d hd k
          show _ ∈ S
          by_cases hk : k ≤ l
          · rw [← clearLow_snoc k hk]; exact h1 _ hd k
          · rw [clearLow_all k (by omega), ← clearLow_all l le_rfl d, ← clearLow_snoc l le_rfl]; exact h1 _ hd l
        · intro r s
          show M _ _ = _
          rw [h2]
          exact ite_iff (and_congr (by rw [snoc_inj]; simp) Iff.rfl) c
      · left
        funext r s
        show M _ _ = 0
        rw [h2, if_neg]
        exact fun h => hS ⟨_, h.2⟩
  · rintro ⟨⟨S, h0, h1, h2⟩, hz1, hz2, h3⟩
    have key : ∀ T : Set (Fin l → Fin 2), (∀ d ∈ T, ∀ k ≤ l, clearLow k d ∈ T) →
        (∀ r s, blk M 1 1 r s = if r = s ∧ r ∈ T then c else 0) → AncillaIdentity c M := by
      intro T hT hM
      refine ⟨{d | if d (Fin.last l) = 0 then Fin.init d ∈ S else Fin.init d ∈ T}, ?_, ?_, ?_⟩
      · rw [Set.mem_ofPred_eq, if_pos rfl]; exact h0
      · intro d
        obtain ⟨d, b, rfl⟩ : ∃ d' b, d = Fin.snoc (α := fun _ => Fin 2) d' b := ⟨Fin.init d, d (Fin.last l), by simp⟩
        intro hd k
        by_cases hk : k ≤ l
        · rw [clearLow_snoc k hk]
          simp only [Set.mem_ofPred_eq, Fin.snoc_last, Fin.init_snoc] at hd ⊢
          split_ifs at hd ⊢ with hb
          · exact h1 _ hd k
          · exact hT _ hd k hk
        · rw [clearLow_all k (by omega)]
          rw [Set.mem_ofPred_eq, if_pos rfl]; exact h0
      · intro r s
        obtain ⟨r, i, rfl⟩ : ∃ d' b, r = Fin.snoc (α := fun _ => Fin 2) d' b := ⟨Fin.init r, r (Fin.last l), by simp⟩
        obtain ⟨s, j, rfl⟩ : ∃ d' b, s = Fin.snoc (α := fun _ => Fin 2) d' b := ⟨Fin.init s, s (Fin.last l), by simp⟩
        have hb : M (Fin.snoc (α := fun _ => Fin 2) r i) (Fin.snoc (α := fun _ => Fin 2) s j) = blk M i j r s := rfl
        rw [hb]
        fin_cases i <;> fin_cases j
        · refine (h2 r s).trans (ite_iff (and_congr ?_ ?_) c)
          · rw [snoc_inj]; simp
          · rw [Set.mem_ofPred_eq]; simp
        · rw [if_neg (by rw [snoc_inj]; simp)]
          exact congrFun (congrFun hz1 r) s
        · rw [if_neg (by rw [snoc_inj]; simp)]
          exact congrFun (congrFun hz2 r) s
        · refine (hM r s).trans (ite_iff (and_congr ?_ ?_) c)
          · rw [snoc_inj]; simp
          · rw [Set.mem_ofPred_eq]; simp
    rcases h3 with h3 | ⟨T, g0, g1, g2⟩
    · exact key ∅ (by simp) (by intro r s; rw [h3]; simp)
    · exact key T (fun d hd k _ => g1 d hd k) g2

theorem ancilla_smul {l : Nat} {c u : Cx R} {M : Matrix (Fin l → Fin 2) (Fin l → Fin 2) (Cx R)}
    (h : AncillaIdentity c M) : AncillaIdentity (u * c) (u • M) := by
  obtain ⟨S, h0, h1, h2⟩ := h
  refine ⟨S, h0, h1, fun r s => ?_⟩
  rw [Matrix.smul_apply, h2, smul_eq_mul]
  split_ifs <;> simp

/-- The recursive test without the set of visited nodes. -/
def Close (arg : Cx R → R) (tol : R) (t : UTable (Cx R) 4) : Nat → PEdge R → Prop
  | 0, _ => True
  | l + 1, m =>
    match m.p with
    | none => True
    | some a =>
      (t.mem a).ident = true ∨
      (((t.mem a).e 1).w.mag2 ≤ tol ∧ ((t.mem a).e 2).w.mag2 ≤ tol ∧ |((t.mem a).e 0).w.mag2 - 1| ≤ tol ∧
        |arg ((t.mem a).e 0).w| ≤ tol ∧
        (tol < ((t.mem a).e 3).w.mag2 → |((t.mem a).e 3).w.mag2 - 1| ≤ tol ∧ |arg ((t.mem a).e 3).w| ≤ tol) ∧
        Close arg tol t l ((t.mem a).e 0) ∧ Close arg tol t l ((t.mem a).e 3))

theorem close_ptr {arg : Cx R → R} {tol : R} {t : UTable (Cx R) 4} {l : Nat} {e e' : PEdge R} (h : e.p = e'.p) :
    Close arg tol t l e ↔ Close arg tol t l e' := by
  cases l with
  | zero => simp [Close]
  | succ l => unfold Close; rw [h]

theorem isCloseF_spec {arg : Cx R → R} {tol : R} {t : UTable (Cx R) 4} (hc : Children t) : ∀ (l : Nat) (e : PEdge R)
    (vis : List (Option Nat)), Valid t l e →
    (∀ a, some a ∈ vis → ∀ l', (t.mem a).v + 1 = l' → Close arg tol t l' ⟨some a, 1⟩) →
    ((Pkg.isCloseF arg tol t l vis e).2 = true ↔ Close arg tol t l e) ∧
    ((Pkg.isCloseF arg tol t l vis e).2 = true →
      ∀ a, some a ∈ (Pkg.isCloseF arg tol t l vis e).1 → ∀ l', (t.mem a).v + 1 = l' → Close arg tol t l' ⟨some a, 1⟩) := by
  intro l
  induction l with
  | zero => intro e vis _ hv; exact ⟨⟨fun _ => trivial, fun _ => rfl⟩, fun _ => hv⟩
  | succ l ih =>
    intro e vis hv hvis
    unfold Pkg.isCloseF
    by_cases hm : e.p ∈ vis
    · rw [if_pos hm]
      refine ⟨⟨fun _ => ?_, fun _ => rfl⟩, fun _ => hvis⟩
      cases hp : e.p with
      | none => unfold Close; rw [hp]; trivial
      | some a =>
        rw [hp] at hm
        rw [close_ptr (e' := ⟨some a, 1⟩) hp]
        exact hvis a hm _ ((valid_some hp).1 hv).2.1
    · rw [if_neg hm]
      cases hp : e.p with
      | none =>
        dsimp only
        refine ⟨⟨fun _ => ?_, fun _ => rfl⟩, fun _ => hvis⟩
        unfold Close; rw [hp]; trivial
      | some a =>
        dsimp only
        obtain ⟨v1, v2, v3⟩ := (valid_some hp).1 hv
        have hch : ∀ q, Valid t l ((t.mem a).e q) := fun q => by
          have := hc a v1 q; rwa [show (t.mem a).v = l by omega] at this
        have hCl : Close arg tol t (l + 1) e = ((t.mem a).ident = true ∨
            (((t.mem a).e 1).w.mag2 ≤ tol ∧ ((t.mem a).e 2).w.mag2 ≤ tol ∧ |((t.mem a).e 0).w.mag2 - 1| ≤ tol ∧
              |arg ((t.mem a).e 0).w| ≤ tol ∧
              (tol < ((t.mem a).e 3).w.mag2 → |((t.mem a).e 3).w.mag2 - 1| ≤ tol ∧ |arg ((t.mem a).e 3).w| ≤ tol) ∧
              Close arg tol t l ((t.mem a).e 0) ∧ Close arg tol t l ((t.mem a).e 3))) := by rw [Close.eq_def]; dsimp only; rw [hp]
        rw [hCl]
        by_cases hid : (t.mem a).ident = true
        · rw [if_pos hid]; exact ⟨by simp [hid], fun _ => hvis⟩
        rw [if_neg hid]
        have hid' : (t.mem a).ident = false := by simpa using hid
        by_cases h1 : ((t.mem a).e 1).w.mag2 > tol ∨ ((t.mem a).e 2).w.mag2 > tol
        · rw [if_pos h1]
          refine ⟨⟨by simp, fun h => ?_⟩, by simp⟩
          rcases h with h | h
          · exact absurd h hid
          · exfalso; rcases h1 with h1 | h1
            · exact absurd h.1 (not_le.2 h1)
            · exact absurd h.2.1 (not_le.2 h1)
        rw [if_neg h1]
        push Not at h1
        by_cases h2 : |((t.mem a).e 0).w.mag2 - 1| > tol
        · rw [if_pos h2]
          refine ⟨⟨by simp, fun h => ?_⟩, by simp⟩
          rcases h with h | h
          · exact absurd h hid
          · exact absurd h.2.2.1 (not_le.2 h2)
        rw [if_neg h2]
        push Not at h2
        by_cases h3 : |arg ((t.mem a).e 0).w| > tol
        · rw [if_pos h3]
          refine ⟨⟨by simp, fun h => ?_⟩, by simp⟩
          rcases h with h | h
          · exact absurd h hid
          · exact absurd h.2.2.2.1 (not_le.2 h3)
        rw [if_neg h3]
        push Not at h3
        by_cases h4 : ((t.mem a).e 3).w.mag2 > tol ∧ |((t.mem a).e 3).w.mag2 - 1| > tol
        · rw [if_pos h4]
          refine ⟨⟨by simp, fun h => ?_⟩, by simp⟩
          rcases h with h | h
          · exact absurd h hid
          · exact absurd (h.2.2.2.2.1 h4.1).1 (not_le.2 h4.2)
        rw [if_neg h4]
        push Not at h4
        by_cases h5 : ((t.mem a).e 3).w.mag2 > tol ∧ |arg ((t.mem a).e 3).w| > tol
        · rw [if_pos h5]
          refine ⟨⟨by simp, fun h => ?_⟩, by simp⟩
          rcases h with h | h
          · exact absurd h hid
          · exact absurd (h.2.2.2.2.1 h5.1).2 (not_le.2 h5.2)
        rw [if_neg h5]
        push Not at h5
        obtain ⟨i1, i2⟩ := ih ((t.mem a).e 0) vis (hch 0) hvis
        generalize Pkg.isCloseF arg tol t l vis ((t.mem a).e 0) = r0 at i1 i2
        by_cases h6 : r0.2 = true
        · rw [if_neg (by simp [h6])]
          obtain ⟨j1, j2⟩ := ih ((t.mem a).e 3) r0.1 (hch 3) (i2 h6)
          generalize Pkg.isCloseF arg tol t l r0.1 ((t.mem a).e 3) = r3 at j1 j2
          have iff : r3.2 = true ↔ ((t.mem a).ident = true ∨
              (((t.mem a).e 1).w.mag2 ≤ tol ∧ ((t.mem a).e 2).w.mag2 ≤ tol ∧ |((t.mem a).e 0).w.mag2 - 1| ≤ tol ∧
                |arg ((t.mem a).e 0).w| ≤ tol ∧
                (tol < ((t.mem a).e 3).w.mag2 → |((t.mem a).e 3).w.mag2 - 1| ≤ tol ∧ |arg ((t.mem a).e 3).w| ≤ tol) ∧
                Close arg tol t l ((t.mem a).e 0) ∧ Close arg tol t l ((t.mem a).e 3))) := by
            constructor
            · intro h
              exact Or.inr ⟨h1.1, h1.2, h2, h3, fun h => ⟨h4 h, h5 h⟩, i1.1 h6, j1.1 h⟩
            · rintro (h | h)
              · exact absurd h hid
              · exact j1.2 h.2.2.2.2.2.2
          refine ⟨iff, fun h b hb l' hl' => ?_⟩
          rcases List.mem_cons.1 hb with hb | hb
          · have hab : b = a := Option.some.inj (by first | exact hb.trans hp | exact hb)
            subst hab
            have : l' = l + 1 := by omega
            subst this
            rw [← close_ptr (e := e) hp, hCl]
            exact iff.1 h
          · exact j2 h b hb l' hl'
        · rw [if_pos (by simpa using h6)]
          refine ⟨⟨by simp, fun h => ?_⟩, by simp⟩
          rcases h with h | h
          · exact absurd h hid
          · exact absurd (i1.2 h.2.2.2.2.2.1) h6

theorem isClose_iff {arg : Cx R → R} {tol : R} {H : (Fin 4 → PEdge R) → Nat} {t : UTable (Cx R) 4} (hd : DDWF (k := .m) H t)
    {l : Nat} {e : PEdge R} (hv : Valid t l e) : Pkg.isCloseToIdentity arg tol t e = true ↔ Close arg tol t l e := by
  unfold Pkg.isCloseToIdentity
  by_cases hw : e.w = 0
  · have hp := hv.p_none hw
    have h0 : t.lvl e = 0 := by simp [UTable.lvl, hp]
    rw [h0]
    constructor
    · intro _
      cases l with
      | zero => trivial
      | succ l => unfold Close; rw [hp]; trivial
    · intro _; rfl
  · rw [hv.lvl hw]
    exact (isCloseF_spec hd.child l e [] hv (by simp)).1

section exact
variable {arg : Cx R → R} {t : UTable (Cx R) 4}

theorem mag2_le_zero {z : Cx R} (h : z.mag2 ≤ 0) : z = 0 := Cx.mag2_eq_zero.1 (le_antisymm h (Cx.mag2_nonneg z))

theorem eq_one_of {z : Cx R} (ha : LawfulArg arg) (h1 : |z.mag2 - 1| ≤ 0) (h2 : |arg z| ≤ 0) : z = 1 := by
  have h1' : z.mag2 = 1 := by
    have := abs_eq_zero.1 (le_antisymm h1 (abs_nonneg _)); linarith
  obtain ⟨hi, hr⟩ := (ha z).1 (abs_eq_zero.1 (le_antisymm h2 (abs_nonneg _)))
  refine mag2_one_real h1' hi (lt_of_le_of_ne hr fun h0 => ?_)
  rw [Cx.mag2, hi, ← h0] at h1'
  simp at h1'

theorem mat_blk {l a : Nat} {e : PEdge R} (hp : e.p = some a) (i j : Fin 2) :
    blk (mat t (l + 1) e) i j = e.w • mat t l ((t.mem a).e (rc i j)) := by
  funext r s
  exact mat_block hp r s i j

theorem close_ancilla {H : (Fin 4 → PEdge R) → Nat} (hd : DDWF (k := .m) H t) (hm : Marks t ∅) (ha : LawfulArg arg) :
    ∀ (l : Nat) (e : PEdge R), Valid t l e → (Close arg 0 t l e → AncillaIdentity e.w (mat t l e)) ∧
      (∀ c, c ≠ 0 → AncillaIdentity c (mat t l e) → Close arg 0 t l e ∧ e.w = c) := by
  intro l
  induction l with
  | zero =>
    intro e _
    have hz : ∀ d : Fin 0 → Fin 2, d = fun _ => 0 := fun d => Subsingleton.elim _ _
    refine ⟨fun _ => ⟨Set.univ, trivial, fun _ _ _ => trivial, fun r s => ?_⟩, fun c hc hA => ⟨trivial, ?_⟩⟩
    · rw [if_pos ⟨Subsingleton.elim _ _, trivial⟩]; rfl
    · obtain ⟨S, h0, _, h2⟩ := hA
      have := h2 (fun _ => 0) (fun _ => 0)
      rw [if_pos ⟨rfl, h0⟩] at this
      exact this
  | succ l ih =>
    intro e hv
    cases hp : e.p with
    | none =>
      have hw : e.w = 0 := ((valid_none hp).1 hv).resolve_left (by omega)
      have hM : mat t (l + 1) e = 0 := by funext r s; exact amp_w_zero hw _
      refine ⟨fun _ => ?_, fun c hc hA => ?_⟩
      · rw [hM, hw]
        refine ⟨Set.univ, trivial, fun _ _ _ => trivial, fun r s => by simp⟩
      · obtain ⟨S, h0, _, h2⟩ := hA
        have := h2 (fun _ => 0) (fun _ => 0)
        rw [if_pos ⟨rfl, h0⟩, hM] at this
        exact absurd this.symm hc
    | some a =>
      obtain ⟨v1, v2, v3⟩ := (valid_some hp).1 hv
      have hva : (t.mem a).v = l := by omega
      have hch : ∀ q, Valid t l ((t.mem a).e q) := fun q => by
        have := hd.child a v1 q; rwa [hva] at this
      have zero_mat : ∀ q, ((t.mem a).e q).w = 0 → mat t l ((t.mem a).e q) = 0 := by
        intro q hq; funext r s; exact amp_w_zero hq _
      have mat_zero : ∀ q, mat t l ((t.mem a).e q) = 0 → ((t.mem a).e q).w = 0 := by
        intro q hq
        refine hd.w_zero (hch q) (fun d => ?_)
        have := congrFun (congrFun hq (fun i => ![0, 0, 1, 1] (d i))) (fun i => ![0, 1, 0, 1] (d i))
        unfold mat at this
        rw [rc_surj] at this
        exact this
      have hCl : Close arg 0 t (l + 1) e = ((t.mem a).ident = true ∨
          (((t.mem a).e 1).w.mag2 ≤ 0 ∧ ((t.mem a).e 2).w.mag2 ≤ 0 ∧ |((t.mem a).e 0).w.mag2 - 1| ≤ 0 ∧
            |arg ((t.mem a).e 0).w| ≤ 0 ∧
            (0 < ((t.mem a).e 3).w.mag2 → |((t.mem a).e 3).w.mag2 - 1| ≤ 0 ∧ |arg ((t.mem a).e 3).w| ≤ 0) ∧
            Close arg 0 t l ((t.mem a).e 0) ∧ Close arg 0 t l ((t.mem a).e 3))) := by rw [Close.eq_def]; dsimp only; rw [hp]
      constructor
      · intro h
        rw [hCl] at h
        rcases h with h | ⟨h1, h2, h3, h4, h5, h6, h7⟩
        · have hI := (nodeIdent_at hva).1 (hm.ident a v1 h)
          have hM : mat t (l + 1) e = e.w • 1 := by rw [mat_smul, hp, hI]
          rw [hM]
          refine ⟨Set.univ, trivial, fun _ _ _ => trivial, fun r s => ?_⟩
          by_cases hrs : r = s
          · subst hrs; simp
          · simp [hrs]
        · have w1 := mag2_le_zero h1
          have w2 := mag2_le_zero h2
          have w0 := eq_one_of ha h3 h4
          rw [ancilla_succ]
          rw [mat_blk hp, mat_blk hp, mat_blk hp, mat_blk hp]
          have key : ∀ q, ((t.mem a).e q).w = 1 → Close arg 0 t l ((t.mem a).e q) →
              AncillaIdentity e.w (e.w • mat t l ((t.mem a).e q)) := by
            intro q hq hcl
            have := (ih _ (hch q)).1 hcl
            rw [hq] at this
            simpa using ancilla_smul (u := e.w) this
          refine ⟨key _ w0 h6, ?_, ?_, ?_⟩
          · show e.w • mat t l ((t.mem a).e 1) = 0
            rw [zero_mat _ w1, smul_zero]
          · show e.w • mat t l ((t.mem a).e 2) = 0
            rw [zero_mat _ w2, smul_zero]
          · by_cases h8 : (0 : R) < ((t.mem a).e 3).w.mag2
            · right
              exact key _ (eq_one_of ha (h5 h8).1 (h5 h8).2) h7
            · left
              show e.w • mat t l ((t.mem a).e 3) = 0
              rw [zero_mat _ (mag2_le_zero (not_lt.1 h8)), smul_zero]
      · intro c hc hA
        rw [ancilla_succ, mat_blk hp, mat_blk hp, mat_blk hp, mat_blk hp] at hA
        obtain ⟨a0, a1, a2, a3⟩ := hA
        have unscale : ∀ q, AncillaIdentity c (e.w • mat t l ((t.mem a).e q)) →
            AncillaIdentity (e.w⁻¹ * c) (mat t l ((t.mem a).e q)) := by
          intro q hq
          have := ancilla_smul (u := e.w⁻¹) hq
          rwa [smul_smul, inv_mul_cancel₀ v3, one_smul] at this
        have hc' : e.w⁻¹ * c ≠ 0 := mul_ne_zero (inv_ne_zero v3) hc
        have zsmul : ∀ q, e.w • mat t l ((t.mem a).e q) = 0 → ((t.mem a).e q).w = 0 := by
          intro q hq
          exact mat_zero q ((smul_eq_zero.1 hq).resolve_left v3)
        have w1 : ((t.mem a).e 1).w = 0 := zsmul 1 a1
        have w2 : ((t.mem a).e 2).w = 0 := zsmul 2 a2
        obtain ⟨c0, w0⟩ := (ih _ (hch 0)).2 _ hc' (unscale 0 a0)
        have h3 : ((t.mem a).e 3).w = 0 ∨ (Close arg 0 t l ((t.mem a).e 3) ∧ ((t.mem a).e 3).w = e.w⁻¹ * c) := by
          rcases a3 with a3 | a3
          · exact Or.inl (zsmul 3 a3)
          · exact Or.inr ((ih _ (hch 3)).2 _ hc' (unscale 3 a3))
        have hone : e.w⁻¹ * c = 1 := by
          obtain ⟨j, j1, _⟩ : IsNormM (fun i => ((t.mem a).e i).w) := hd.norm a v1
          fin_cases j
          · exact w0.symm.trans j1
          · exact absurd (w1.symm.trans j1) zero_ne_one
          · exact absurd (w2.symm.trans j1) zero_ne_one
          · rcases h3 with h3 | h3
            · exact absurd (h3.symm.trans j1) zero_ne_one
            · exact h3.2.symm.trans j1
        have arg1 : arg (1 : Cx R) = 0 := (ha 1).2 ⟨by simp, by simp⟩
        refine ⟨?_, ?_⟩
        · rw [hCl]
          right
          rw [w1, w2, w0, hone]
          refine ⟨by simp [Cx.mag2], by simp [Cx.mag2], by simp [Cx.mag2], by simp [arg1], ?_, c0, ?_⟩
          · intro hpos
            rcases h3 with h3 | h3
            · rw [h3] at hpos; simp [Cx.mag2] at hpos
            · rw [h3.2, hone]; simp [Cx.mag2, arg1]
          · rcases h3 with h3 | h3
            · have := (hch 3).p_none h3
              cases l with
              | zero => trivial
              | succ l => unfold Close; rw [this]; trivial
            · exact h3.1
        · field_simp at hone
          exact hone.symm

end exact

variable [HasSqrt R] [LawfulSqrt R] {P : PCfg R} {h : PHist R}

/-- With tolerance 0 exactly the ancilla identities, up to a factor, are accepted. -/
theorem C51_exact (hC : P.C.Good) (hr : PReach P h) {arg : Cx R → R} (ha : LawfulArg arg) {l : Nat} {x : PEdge R}
    (hx : Valid (h.pkg.ut .m) l x) :
    Pkg.isCloseToIdentity arg 0 (h.pkg.ut .m) x = true ↔ ∃ c, AncillaIdentity c (mat (h.pkg.ut .m) l x) := by
  have hw := (hr.inv hC).wf
  rw [isClose_iff (hw.tab .m) hx]
  have hA := close_ancilla (hw.tab .m) hw.marks ha l x hx
  refine ⟨fun hc => ⟨_, hA.1 hc⟩, ?_⟩
  rintro ⟨c, hc⟩
  by_cases h0 : c = 0
  · -- the zero matrix
    have : x.w = 0 := by
      refine (hw.tab .m).w_zero hx (fun d => ?_)
      obtain ⟨S, _, _, h2⟩ := hc
      have := h2 (fun i => ![0, 0, 1, 1] (d i)) (fun i => ![0, 1, 0, 1] (d i))
      rw [h0, ite_self] at this
      unfold mat at this
      rw [rc_surj] at this
      exact this
    have hp := hx.p_none this
    cases l with
    | zero => trivial
    | succ l => unfold Close; rw [hp]; trivial
  · exact (hA.2 c h0 hc).1

/-- In particular, a matrix without zeros on the diagonal is accepted exactly if it is a multiple of the identity. -/
theorem C51_identity (hC : P.C.Good) (hr : PReach P h) {arg : Cx R → R} (ha : LawfulArg arg) {l : Nat} {x : PEdge R}
    (hx : Valid (h.pkg.ut .m) l x) (hz : ∀ d, mat (h.pkg.ut .m) l x d d ≠ 0) :
    Pkg.isCloseToIdentity arg 0 (h.pkg.ut .m) x = true ↔ ∃ c : Cx R, mat (h.pkg.ut .m) l x = c • 1 := by
  rw [C51_exact hC hr ha hx]
  constructor
  · rintro ⟨c, S, _, _, h2⟩
    refine ⟨c, ?_⟩
    funext r s
    have hS : ∀ d, d ∈ S := by
      intro d
      by_contra hd
      have := h2 d d
      rw [if_neg (fun h => hd h.2)] at this
      exact hz d this
    rw [h2]
    by_cases hrs : r = s
    · subst hrs; simp [hS]
    · simp [hrs]
  · rintro ⟨c, hc⟩
    refine ⟨c, Set.univ, trivial, fun _ _ _ => trivial, fun r s => ?_⟩
    rw [hc]
    by_cases hrs : r = s
    · subst hrs; simp
    · simp [hrs]

/-- A larger tolerance accepts more. -/
theorem C51_mono (hC : P.C.Good) (hr : PReach P h) (arg : Cx R → R) {tol tol' : R} (ht : tol ≤ tol') {l : Nat} {x : PEdge R}
    (hx : Valid (h.pkg.ut .m) l x) (ha : Pkg.isCloseToIdentity arg tol (h.pkg.ut .m) x = true) :
    Pkg.isCloseToIdentity arg tol' (h.pkg.ut .m) x = true := by
  have hw := (hr.inv hC).wf
  rw [isClose_iff (hw.tab .m) hx] at ha ⊢
  have : ∀ (l : Nat) (x : PEdge R), Close arg tol (h.pkg.ut .m) l x → Close arg tol' (h.pkg.ut .m) l x := by
    intro l
    induction l with
    | zero => intro _ _; trivial
    | succ l ih =>
      intro x hx
      unfold Close at hx ⊢
      cases hp : x.p with
      | none => trivial
      | some a =>
        rw [hp] at hx
        dsimp only at hx ⊢
        rcases hx with hx | ⟨h1, h2, h3, h4, h5, h6, h7⟩
        · exact Or.inl hx
        · exact Or.inr ⟨h1.trans ht, h2.trans ht, h3.trans ht, h4.trans ht,
            fun h8 => ⟨(h5 (lt_of_le_of_lt ht h8)).1.trans ht, (h5 (lt_of_le_of_lt ht h8)).2.trans ht⟩, ih _ h6, ih _ h7⟩
  exact this l x ha

omit [HasSqrt R] [LawfulSqrt R] in
/-- The entries of a matrix whose largest weights are 1 have magnitude at most 1. -/
theorem entry_le {H : (Fin 4 → PEdge R) → Nat} {t : UTable (Cx R) 4} (hd : DDWF (k := .m) H t) : ∀ (l : Nat) (e : PEdge R),
    Valid t l e → ∀ d, (amp t l e d).mag2 ≤ e.w.mag2 := by
  intro l
  induction l with
  | zero => intro e _ d; exact le_rfl
  | succ l ih =>
    intro e hv d
    cases hp : e.p with
    | none => rw [amp_none hp]
    | some a =>
      obtain ⟨v1, v2, v3⟩ := (valid_some hp).1 hv
      have hch : ∀ q, Valid t l ((t.mem a).e q) := fun q => by
        have := hd.child a v1 q; rwa [show (t.mem a).v = l by omega] at this
      obtain ⟨j, _, j2, _⟩ : IsNormM (fun i => ((t.mem a).e i).w) := hd.norm a v1
      rw [amp_some hp, Cx.mag2_mul]
      have h1 := ih _ (hch (d (Fin.last l))) (Fin.init d)
      have h2 := j2 (d (Fin.last l))
      calc e.w.mag2 * _ ≤ e.w.mag2 * 1 := mul_le_mul_of_nonneg_left (h1.trans h2) (Cx.mag2_nonneg _)
        _ = _ := mul_one _

/-- Deviations: if a matrix is accepted with tolerance `tol`, then relative to the weight of its root edge the squared
magnitude of an entry outside the diagonal is at most `tol`, and that of a diagonal entry is at most `tol` (ancillary) or
at least `(1 - tol) ^ l`; and never more than 1. -/
theorem C51_tolerance (hC : P.C.Good) (hr : PReach P h) (arg : Cx R → R) {tol : R} (h0 : 0 ≤ tol) (h1 : tol ≤ 1) {l : Nat}
    {x : PEdge R} (hx : Valid (h.pkg.ut .m) l x) (ha : Pkg.isCloseToIdentity arg tol (h.pkg.ut .m) x = true) :
    (∀ r s, r ≠ s → (mat (h.pkg.ut .m) l x r s).mag2 ≤ tol * x.w.mag2) ∧
    (∀ r, (mat (h.pkg.ut .m) l x r r).mag2 ≤ x.w.mag2 ∧ ((mat (h.pkg.ut .m) l x r r).mag2 ≤ tol * x.w.mag2 ∨
      (1 - tol) ^ l * x.w.mag2 ≤ (mat (h.pkg.ut .m) l x r r).mag2)) := by
  have hw := (hr.inv hC).wf
  have hd := hw.tab .m
  rw [isClose_iff hd hx] at ha
  suffices hs : ∀ (l : Nat) (x : PEdge R), Valid (h.pkg.ut .m) l x → Close arg tol (h.pkg.ut .m) l x →
      (∀ r s, r ≠ s → (mat (h.pkg.ut .m) l x r s).mag2 ≤ tol * x.w.mag2) ∧
      (∀ r, (mat (h.pkg.ut .m) l x r r).mag2 ≤ tol * x.w.mag2 ∨
        (1 - tol) ^ l * x.w.mag2 ≤ (mat (h.pkg.ut .m) l x r r).mag2) from
    ⟨(hs l x hx ha).1, fun r => ⟨entry_le hd l x hx _, (hs l x hx ha).2 r⟩⟩
  intro l
  induction l with
  | zero =>
    intro x _ _
    refine ⟨fun r s hrs => absurd (Subsingleton.elim r s) hrs, fun r => Or.inr ?_⟩
    rw [pow_zero, one_mul]; exact le_rfl
  | succ l ih =>
    intro x hx ha
    have hmn : ∀ {l : Nat} {e : PEdge R} r s, (mat (h.pkg.ut .m) l e r s).mag2 = (mat (h.pkg.ut .m) l e r s).mag2 := fun _ _ => rfl
    unfold Close at ha
    cases hp : x.p with
    | none =>
      have hw : x.w = 0 := ((valid_none hp).1 hx).resolve_left (by omega)
      have hz : ∀ r s, (mat (h.pkg.ut .m) (l + 1) x r s).mag2 = 0 := by
        intro r s; unfold mat; rw [amp_w_zero hw]; simp [Cx.mag2]
      have hz' : x.w.mag2 = 0 := by rw [hw]; simp [Cx.mag2]
      refine ⟨fun r s _ => by rw [hz, hz', mul_zero], fun r => Or.inl (by rw [hz, hz', mul_zero])⟩
    | some a =>
      obtain ⟨v1, v2, v3⟩ := (valid_some hp).1 hx
      have hva : ((h.pkg.ut .m).mem a).v = l := by omega
      have hch : ∀ q, Valid (h.pkg.ut .m) l (((h.pkg.ut .m).mem a).e q) := fun q => by
        have := hd.child a v1 q; rwa [hva] at this
      rw [hp] at ha
      dsimp only at ha
      have xn := Cx.mag2_nonneg x.w
      rcases ha with ha | ⟨g1, g2, g3, g4, g5, g6, g7⟩
      · have hI := (nodeIdent_at hva).1 (hw.marks.ident a v1 ha)
        have hM : mat (h.pkg.ut .m) (l + 1) x = x.w • 1 := by rw [mat_smul, hp, hI]
        rw [hM]
        refine ⟨fun r s hrs => ?_, fun r => Or.inr ?_⟩
        · simp only [Matrix.smul_apply, Matrix.one_apply, if_neg hrs, smul_eq_mul, mul_zero]
          rw [show (0 : Cx R).mag2 = 0 by simp [Cx.mag2]]
          positivity
        · simp only [Matrix.smul_apply, Matrix.one_apply_eq, smul_eq_mul, mul_one]
          have : (1 - tol) ^ (l + 1) ≤ 1 := pow_le_one₀ (by linarith) (by linarith)
          nlinarith
      · have blkmag : ∀ (r s : Fin l → Fin 2) (i j : Fin 2),
            (mat (h.pkg.ut .m) (l + 1) x (Fin.snoc (α := fun _ => Fin 2) r i) (Fin.snoc (α := fun _ => Fin 2) s j)).mag2 =
              x.w.mag2 * (mat (h.pkg.ut .m) l (((h.pkg.ut .m).mem a).e (rc i j)) r s).mag2 := by
          intro r s i j; rw [mat_block hp, Cx.mag2_mul]
        have small : ∀ q, (((h.pkg.ut .m).mem a).e q).w.mag2 ≤ tol → ∀ r s,
            x.w.mag2 * (mat (h.pkg.ut .m) l (((h.pkg.ut .m).mem a).e q) r s).mag2 ≤ tol * x.w.mag2 := by
          intro q hq r s
          rw [mul_comm tol]
          exact mul_le_mul_of_nonneg_left ((entry_le hd l _ (hch q) _).trans hq) xn
        obtain ⟨j, _, j2, _⟩ : IsNormM (fun i => (((h.pkg.ut .m).mem a).e i).w) := hd.norm a v1
        have off : ∀ q, Close arg tol (h.pkg.ut .m) l (((h.pkg.ut .m).mem a).e q) → ∀ r s, r ≠ s →
            x.w.mag2 * (mat (h.pkg.ut .m) l (((h.pkg.ut .m).mem a).e q) r s).mag2 ≤ tol * x.w.mag2 := by
          intro q hq r s hrs
          have h1 := (ih _ (hch q) hq).1 r s hrs
          have h2 : tol * (((h.pkg.ut .m).mem a).e q).w.mag2 ≤ tol * 1 := mul_le_mul_of_nonneg_left (j2 q) h0
          rw [mul_comm tol]
          exact mul_le_mul_of_nonneg_left (by linarith) xn
        have dia : ∀ q, |(((h.pkg.ut .m).mem a).e q).w.mag2 - 1| ≤ tol → Close arg tol (h.pkg.ut .m) l (((h.pkg.ut .m).mem a).e q) → ∀ r,
            x.w.mag2 * (mat (h.pkg.ut .m) l (((h.pkg.ut .m).mem a).e q) r r).mag2 ≤ tol * x.w.mag2 ∨
            (1 - tol) ^ (l + 1) * x.w.mag2 ≤ x.w.mag2 * (mat (h.pkg.ut .m) l (((h.pkg.ut .m).mem a).e q) r r).mag2 := by
          intro q hq hcl r
          rcases (ih _ (hch q) hcl).2 r with h2 | h2
          · left
            have h3 : tol * (((h.pkg.ut .m).mem a).e q).w.mag2 ≤ tol * 1 := mul_le_mul_of_nonneg_left (j2 q) h0
            rw [mul_comm tol]
            exact mul_le_mul_of_nonneg_left (by linarith) xn
          · right
            have h3 : 1 - tol ≤ (((h.pkg.ut .m).mem a).e q).w.mag2 := by
              have := (abs_le.1 hq).1; linarith
            have h4 : (1 - tol) ^ (l + 1) ≤ (1 - tol) ^ l * (((h.pkg.ut .m).mem a).e q).w.mag2 := by
              rw [pow_succ]
              exact mul_le_mul_of_nonneg_left h3 (pow_nonneg (by linarith) _)
            rw [mul_comm _ x.w.mag2]
            exact mul_le_mul_of_nonneg_left (h4.trans h2) xn
        refine ⟨?_, ?_⟩
        · intro r s
          obtain ⟨r, i, rfl⟩ : ∃ d' b, r = Fin.snoc (α := fun _ => Fin 2) d' b := ⟨Fin.init r, r (Fin.last l), by simp⟩
          obtain ⟨s, j, rfl⟩ : ∃ d' b, s = Fin.snoc (α := fun _ => Fin 2) d' b := ⟨Fin.init s, s (Fin.last l), by simp⟩
          intro hrs
          rw [blkmag]
          fin_cases i <;> fin_cases j
          · exact off 0 g6 r s (fun h => hrs (by rw [h]))
          · exact small 1 g1 r s
          · exact small 2 g2 r s
          · exact off 3 g7 r s (fun h => hrs (by rw [h]))
        · intro r
          obtain ⟨r, i, rfl⟩ : ∃ d' b, r = Fin.snoc (α := fun _ => Fin 2) d' b := ⟨Fin.init r, r (Fin.last l), by simp⟩
          rw [blkmag]
          fin_cases i
          · exact dia 0 g3 g6 r
          · by_cases h8 : tol < (((h.pkg.ut .m).mem a).e 3).w.mag2
            · exact dia 3 (g5 h8).1 g7 r
            · exact Or.inl (small 3 (not_lt.1 h8) r r)

end DD

namespace DD.Ex

/-- The argument function of the real model. -/
noncomputable def argR (z : Cx ℝ) : ℝ := Complex.arg ⟨z.re, z.im⟩

/-- It meets the specification. -/
theorem argR_lawful : LawfulArg argR := by
  intro z
  unfold argR
  rw [Complex.arg_eq_zero_iff]
  exact and_comm

/-- Projection onto state 0. -/
noncomputable def proj : Fin 4 → Cx ℝ := ![1, 0, 0, 0]

/-- Being accepted does not mean being a multiple of the identity: the projector of the highest qubit onto state 0 is
accepted. -/
theorem C51_scalar_false : ∃ (h : PHist ℝ) (x : PEdge ℝ), PReach (PR ℝ) h ∧ Valid (h.pkg.ut .m) 3 x ∧
    Pkg.isCloseToIdentity argR 0 (h.pkg.ut .m) x = true ∧ ¬ ∃ c : Cx ℝ, mat (h.pkg.ut .m) 3 x = c • 1 := by
  obtain ⟨h, _, _, _, _, hr, hn, _⟩ := setup (R := ℝ)
  obtain ⟨h', x, hr', _, _, vx, mx⟩ := gate_step hr hn 3 (by omega) proj [] (2 : Fin 3) ⟨by simp, by simp, by simp⟩
  have hM : ∀ r s, mat (h'.pkg.ut .m) 3 x r s = if (∀ i, i ≠ 2 → r i = s i) then proj (rc (r 2) (s 2)) else 0 := by
    intro r s
    rw [mx]
    unfold gateMat
    simp [CtrlOK]
  refine ⟨h', x, hr', vx, (C51_exact (PR_good ℝ) hr' argR_lawful vx).2 ⟨1, {d | d 2 = 0}, rfl, ?_, ?_⟩, ?_⟩
  · intro d hd k
    show clearLow k d 2 = 0
    have : d 2 = 0 := hd
    simp [clearLow, this]
  · intro r s
    rw [hM]
    by_cases hrs : r = s
    · subst hrs
      by_cases h2 : r 2 = 0
      · simp [h2, proj, rc]
      · have h2 : r 2 = 1 := by omega
        simp [h2, proj, rc]
    · rw [if_neg (c := r = s ∧ _) (fun h => hrs h.1)]
      split_ifs with h1
      · have : r 2 ≠ s 2 := by
          intro h2
          refine hrs (funext fun i => ?_)
          by_cases hi : i = 2
          · rw [hi, h2]
          · exact h1 i hi
        rcases (show (r 2 = 0 ∧ s 2 = 1) ∨ (r 2 = 1 ∧ s 2 = 0) by omega) with ⟨e1, e2⟩ | ⟨e1, e2⟩ <;> simp [e1, e2, proj, rc]
      · rfl
  · rintro ⟨c, hc⟩
    have e0 := hM (fun _ => 0) (fun _ => 0)
    have e1 := hM (fun _ => 1) (fun _ => 1)
    rw [hc] at e0 e1
    simp [proj, rc] at e0 e1
    rw [e0] at e1
    exact one_ne_zero e1

/-- Both answers occur: the identity is accepted, a gate is not. -/
example : ∃ (h : PHist ℝ) (A B : PEdge ℝ), PReach (PR ℝ) h ∧ Valid (h.pkg.ut .m) 3 A ∧ Valid (h.pkg.ut .m) 3 B ∧
    Pkg.isCloseToIdentity argR 0 (h.pkg.ut .m) A = true ∧ Pkg.isCloseToIdentity argR 0 (h.pkg.ut .m) B = false := by
  obtain ⟨h, x, y, A, B, hr, hn, vx, vy, vA, vB, hx, hA, ax, ay, aA, aB, wx, wy, wA, wB⟩ := setup (R := ℝ)
  have hC := PR_good ℝ
  obtain ⟨h', x, hr', _, u, vx, mx⟩ := gate_step hr hn 3 (by omega) ![1, 0, 0, 1] [] (1 : Fin 3) ⟨by simp, by simp, by simp⟩
  have vB' := (u .m 3 B vB).1
  have mB : mat (h'.pkg.ut .m) 3 B = mat (h.pkg.ut .m) 3 B := (mat_ext_amp).2 (congrFun (u .m 3 B vB).2)
  refine ⟨h', x, B, hr', vx, vB', (C51_exact hC hr' argR_lawful vx).2 ⟨1, Set.univ, trivial, fun _ _ _ => trivial, ?_⟩, ?_⟩
  · intro r s
    rw [mx]
    unfold gateMat
    by_cases hrs : r = s
    · subst hrs
      rcases (show r 1 = 0 ∨ r 1 = 1 by omega) with h2 | h2 <;> simp [CtrlOK, h2, rc]
    · rw [if_neg (c := r = s ∧ _) (fun h => hrs h.1)]
      split_ifs with h1 h2 h3
      · have : r 1 ≠ s 1 := by
          intro h2
          refine hrs (funext fun i => ?_)
          by_cases hi : i = 1
          · rw [hi, h2]
          · exact h1 i hi
        rcases (show (r 1 = 0 ∧ s 1 = 1) ∨ (r 1 = 1 ∧ s 1 = 0) by omega) with ⟨e1, e2⟩ | ⟨e1, e2⟩ <;> simp [e1, e2, rc]
      · exact absurd (by simp [CtrlOK]) h2
      · rfl
      · rfl
  · rw [Bool.eq_false_iff]
    intro hB
    obtain ⟨c, S, _, _, h2⟩ := (C51_exact hC hr' argR_lawful vB').1 hB
    have := h2 (fun _ => 0) (Function.update (fun _ => 0) 0 1)
    rw [if_neg (fun h => by simpa using congrFun h.1 0), mB, aB] at this
    unfold gateMat at this
    rw [if_pos (by intro i hi; simp [Function.update_of_ne hi]), if_pos (by simp [CtrlOK])] at this
    simp [U0, rc, Cx.ext_iff] at this

end DD.Ex
