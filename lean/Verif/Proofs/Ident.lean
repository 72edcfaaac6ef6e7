import Verif.Proofs.Kron
import Verif.Model.Build

/-! # `makeIdent` and general facts about building diagrams line by line -/

namespace DD

variable {R : Type} [Field R] [LinearOrder R] [IsStrictOrderedRing R]

/-- The edge `e` is a diagram over `l` qubits with the values `f`. -/
def HasVal (s : Pkg R) (k : Kind) (l : Nat) (e : PEdge R) (f : (Fin l → Fin (ar k)) → Cx R) : Prop :=
  Valid (s.ut k) l e ∧ ∀ d, amp (s.ut k) l e d = f d

theorem HasVal.ext {P : PCfg R} {X : Set Nat} {s s' : Pkg R} {k : Kind} {l : Nat} {e : PEdge R}
    {f : (Fin l → Fin (ar k)) → Cx R} (h : HasVal s k l e f) (hw : PWF P s X) (he : PExt s s') : HasVal s' k l e f :=
  ⟨h.1.mono (he.le k), fun d => by rw [amp_mono (he.le k) (hw.tab k).child h.1]; exact h.2 d⟩

theorem hasVal_zero (s : Pkg R) (k : Kind) (l : Nat) : HasVal s k l zeroE (fun _ => 0) :=
  ⟨valid_zeroE _ _, fun d => amp_zeroE _ _ d⟩

theorem HasVal.congr {s : Pkg R} {k : Kind} {l : Nat} {e : PEdge R} {f g : (Fin l → Fin (ar k)) → Cx R}
    (h : HasVal s k l e f) (hfg : ∀ d, f d = g d) : HasVal s k l e g := ⟨h.1, fun d => (h.2 d).trans (hfg d)⟩

/-- Changing the identity table keeps the state well formed. -/
theorem PWF.setId {P : PCfg R} {s : Pkg R} (h : PWF P s ∅) {m : Nat} {e : PEdge R} (he : IdRel (s.ut .m) m e) :
    PWF P { s with idTab := Function.update s.idTab m (some e) } ∅ :=
  { h with
    idTab := by
      intro i r hr
      by_cases hi : i = m
      · subst hi
        simp only [Function.update_self, Option.some.injEq] at hr
        subst hr; exact he
      · dsimp only at hr
        rw [Function.update_of_ne hi] at hr
        exact h.idTab i r hr }

/-- A digit selects a diagonal block. -/
def dg (x : Fin 4) : Prop := x = 0 ∨ x = 3

instance (x : Fin 4) : Decidable (dg x) := inferInstanceAs (Decidable (_ ∨ _))

variable [HasSqrt R] [LawfulSqrt R]

theorem OpSpec.hasVal {P : PCfg R} {X : Set Nat} {s : Pkg R} {k : Kind} {l : Nat} {f : (Fin l → Fin (ar k)) → Cx R}
    {r : Pkg R × PEdge R} (h : OpSpec P X s k l f r) : HasVal r.1 k l r.2 f := ⟨h.valid, h.val⟩

theorem HasVal.op {P : PCfg R} {X : Set Nat} {s s' : Pkg R} {k : Kind} {l : Nat} {f : (Fin l → Fin (ar k)) → Cx R}
    {e : PEdge R} (h : HasVal s' k l e f) (hw : PWF P s' X) (he : PExt s s') : OpSpec P X s k l f (s', e) :=
  ⟨hw, he, h.1, h.2⟩

/-- `makeDDNode` puts the values of its edges together. -/
theorem node_spec {P : PCfg R} (hC : 0 < P.C.growth) {s : Pkg R} {k : Kind} {v : Nat} {es : Fin (ar k) → PEdge R}
    {f : Fin (ar k) → (Fin v → Fin (ar k)) → Cx R} (cached : Bool) (h : PWF P s ∅) (hv : v < (s.ut k).nvars)
    (hes : ∀ i, HasVal s k v (es i) (f i)) :
    OpSpec P ∅ s k (v + 1) (fun d => f (d (Fin.last v)) (Fin.init d)) (Pkg.makeDDNode P k s v es cached) :=
  (makeDDNode_spec hC cached h hv noX (fun i => (hes i).1)).congr (fun d => (hes _).2 _)

/-- Four edges given one by one. -/
theorem hasVal4 {s : Pkg R} {v : Nat} {e0 e1 e2 e3 : PEdge R} {f0 f1 f2 f3 : (Fin v → Fin 4) → Cx R}
    (h0 : HasVal s .m v e0 f0) (h1 : HasVal s .m v e1 f1) (h2 : HasVal s .m v e2 f2) (h3 : HasVal s .m v e3 f3) :
    ∀ i : Fin (ar .m), HasVal s .m v ((![e0, e1, e2, e3] : Fin 4 → PEdge R) i) ((![f0, f1, f2, f3] : Fin 4 → _) i) := by
  intro i
  fin_cases i
  · exact h0
  · exact h1
  · exact h2
  · exact h3

/-- The line `[e 0; 0 e']`. -/
theorem diag_spec {P : PCfg R} (hC : 0 < P.C.growth) {s : Pkg R} {v : Nat} {e0 e3 : PEdge R}
    {f0 f3 : (Fin v → Fin 4) → Cx R} (cached : Bool) (h : PWF P s ∅) (hv : v < (s.ut .m).nvars)
    (h0 : HasVal s .m v e0 f0) (h3 : HasVal s .m v e3 f3) :
    OpSpec P ∅ s .m (v + 1) (fun d => if d (Fin.last v) = 0 then f0 (Fin.init d) else if d (Fin.last v) = 3 then
      f3 (Fin.init d) else 0) (Pkg.makeDDNode P .m s v ![e0, zeroE, zeroE, e3] cached) := by
  refine (node_spec (k := .m) hC cached h hv (hasVal4 h0 (hasVal_zero s .m v) (hasVal_zero s .m v) h3)).congr (fun d => ?_)
  generalize (Fin.init d : Fin v → Fin 4) = d'
  generalize d (Fin.last v) = x
  change Fin 4 at x
  fin_cases x <;> simp

omit [LinearOrder R] [IsStrictOrderedRing R] [HasSqrt R] [LawfulSqrt R] in
theorem idD_step {l : Nat} (d : Fin (l + 1) → Fin 4) : (if d (Fin.last l) = 0 then idD l (Fin.init d) else
    if d (Fin.last l) = 3 then idD l (Fin.init d) else 0) = (idD (l + 1) d : Cx R) := by
  show _ = (if d (Fin.last l) = 0 ∨ d (Fin.last l) = 3 then 1 else 0) * idD l (Fin.init d)
  generalize (idD l (Fin.init d) : Cx R) = y
  generalize d (Fin.last l) = x
  fin_cases x <;> simp

theorem identLoop_spec {P : PCfg R} (hC : 0 < P.C.growth) : ∀ (n v : Nat) (s : Pkg R) (e : PEdge R), PWF P s ∅ →
    HasVal s .m v e (idD v) → v + n ≤ (s.ut .m).nvars →
    OpSpec P ∅ s .m (v + n) (idD (v + n)) (Pkg.identLoop P n v s e) := by
  intro n
  induction n with
  | zero => intro v s e h he _; exact he.op h (PExt.refl _)
  | succ n ih =>
    intro v s e h he hn
    unfold Pkg.identLoop
    dsimp only
    have h1 := diag_spec hC false h (by omega) he he
    generalize Pkg.makeDDNode P .m s v ![e, zeroE, zeroE, e] false = r at h1
    have h2 : HasVal r.1 .m (v + 1) r.2 (idD (v + 1)) := h1.hasVal.congr (fun d => idD_step d)
    have h3 := ih (v + 1) r.1 r.2 h1.wf h2 (by rw [(h1.ext .m).nvars]; omega)
    have hlen : v + 1 + n = v + (n + 1) := by omega
    rw [hlen] at h3
    exact ⟨h3.wf, h1.ext.trans h3.ext, h3.valid, h3.val⟩

theorem idRel_iff {t : UTable (Cx R) 4} {i : Nat} {e : PEdge R} :
    IdRel t i e ↔ Valid t (i + 1) e ∧ ∀ d, amp t (i + 1) e d = idD (i + 1) d := by
  unfold IdRel; rw [mat_one_iff]

/-- `makeIdent(0, n - 1)` is the identity on `n` qubits. -/
theorem makeIdent_spec {P : PCfg R} (hC : 0 < P.C.growth) {s : Pkg R} {n : Nat} (h : PWF P s ∅)
    (hn : n ≤ (s.ut .m).nvars) : OpSpec P ∅ s .m n (idD n) (Pkg.makeIdentR P s 0 n) := by
  unfold Pkg.makeIdentR
  cases n with
  | zero => exact .pure h (valid_term _ _) (fun d => rfl)
  | succ m =>
    simp only [Nat.not_lt_zero, if_false, if_true]
    cases hm : s.idTab m with
    | some e =>
      dsimp only
      have := idRel_iff.1 (h.idTab m e hm)
      exact .pure h this.1 this.2
    | none =>
      dsimp only
      cases hm1 : (if 1 ≤ m then s.idTab (m - 1) else none) with
      | some e =>
        dsimp only
        obtain ⟨m', rfl⟩ : ∃ m', m = m' + 1 := by
          cases m with
          | zero => simp at hm1
          | succ m' => exact ⟨m', rfl⟩
        simp only [Nat.le_add_left, if_true, Nat.add_sub_cancel] at hm1
        have he := idRel_iff.1 (h.idTab m' e hm1)
        have h1 := diag_spec hC false h (v := m' + 1) (by omega) (e0 := e) (e3 := e) he he
        generalize Pkg.makeDDNode P .m s (m' + 1) ![e, zeroE, zeroE, e] false = r at h1
        have h2 : HasVal r.1 .m (m' + 1 + 1) r.2 (idD (m' + 1 + 1)) := h1.hasVal.congr (fun d => idD_step d)
        exact ⟨h1.wf.setId (idRel_iff.2 h2), h1.ext, h2.1, h2.2⟩
      | none =>
        dsimp only
        have hone : HasVal s .m 0 oneE (idD 0) := ⟨valid_term _ _, fun d => rfl⟩
        have h1 := diag_spec hC false h (v := 0) (by omega) hone hone
        generalize Pkg.makeDDNode P .m s 0 ![oneE, zeroE, zeroE, oneE] false = r at h1
        have h2 : HasVal r.1 .m (0 + 1) r.2 (idD (0 + 1)) := h1.hasVal.congr (fun d => idD_step d)
        have h3 := identLoop_spec hC (m - 0) (0 + 1) r.1 r.2 h1.wf h2 (by rw [(h1.ext .m).nvars]; omega)
        have hlen : 0 + 1 + (m - 0) = m + 1 := by omega
        rw [hlen] at h3
        generalize Pkg.identLoop P (m - 0) (0 + 1) r.1 r.2 = q at h3
        exact ⟨h3.wf.setId (idRel_iff.2 h3.hasVal), h1.ext.trans h3.ext, h3.valid, h3.val⟩

end DD
