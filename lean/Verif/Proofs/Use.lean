import Verif.Proofs.History
import Verif.PkgSpec

/-! # From the specifications by digits to the specifications by bits -/

namespace DD

variable {R : Type} [Field R] [LinearOrder R] [IsStrictOrderedRing R]

section
variable [HasSqrt R]

/-- The package `s'` results from the package `s` by calls of the interface that neither take nor release references. -/
def Built (P : PCfg R) (s s' : Pkg R) : Prop := ∀ held, Relation.ReflTransGen (PStep P) ⟨s, held⟩ ⟨s', held⟩

theorem Built.refl (P : PCfg R) (s : Pkg R) : Built P s s := fun _ => .refl

theorem Built.trans {P : PCfg R} {s s' s'' : Pkg R} (h : Built P s s') (h' : Built P s' s'') : Built P s s'' :=
  fun held => (h held).trans (h' held)

end

theorem PExt.unchanged {P : PCfg R} {s s' : Pkg R} (hw : PWF P s ∅) (h : PExt s s') : Unchanged s s' :=
  fun k _ _ hv => ⟨hv.mono (h.le k), funext fun d => amp_mono (h.le k) (hw.tab k).child hv d⟩

theorem Unchanged.vec {s s' : Pkg R} (h : Unchanged s s') {l : Nat} {e : PEdge R} (hv : Valid (s.ut .v) l e) :
    vec (s'.ut .v) l e = vec (s.ut .v) l e := (h .v l e hv).2

theorem Unchanged.mat {s s' : Pkg R} (h : Unchanged s s') {l : Nat} {e : PEdge R} (hv : Valid (s.ut .m) l e) :
    mat (s'.ut .m) l e = mat (s.ut .m) l e := by
  funext r c; unfold DD.mat; rw [(h .m l e hv).2]

theorem dg_rc (a b : Fin 2) : dg (rc a b) ↔ a = b := by
  revert a b; unfold dg rc; decide

theorem rc_dig (c : Ctrl) (a b : Fin 2) : rc a b = c.dig ↔ a = b ∧ b = if c.neg then 0 else 1 := by
  unfold Ctrl.dig rc
  cases c.neg <;> revert a b <;> decide

theorem dx_rc {n : Nat} (r c : Fin n → Fin 2) {j : Nat} (hj : j < n) :
    dx (fun i => rc (r i) (c i)) j = rc (r ⟨j, hj⟩) (c ⟨j, hj⟩) := by unfold dx; rw [dif_pos hj]

theorem highVal_gateMat {n : Nat} {U : Fin 4 → Cx R} {cs : List Ctrl} {t : Nat} (ht : t < n) (hct : ∀ c ∈ cs, c.qubit ≠ t)
    (r c : Fin n → Fin 2) :
    highVal U cs t n (dx (fun i => rc (r i) (c i))) = gateMat (fun a b => U (rc a b)) cs ⟨t, ht⟩ r c := by
  unfold highVal gateMat
  have h1 : (∀ j < n, j ≠ t → dg (dx (fun i => rc (r i) (c i)) j)) ↔ ∀ i : Fin n, i ≠ ⟨t, ht⟩ → r i = c i := by
    constructor
    · intro h i hi
      have := h i i.isLt (fun he => hi (Fin.ext he))
      rw [dx_rc r c i.isLt, dg_rc] at this
      exact this
    · intro h j hj hne
      rw [dx_rc r c hj, dg_rc]
      exact h _ (fun he => hne (congrArg Fin.val he))
  by_cases hA : ∀ i : Fin n, i ≠ ⟨t, ht⟩ → r i = c i
  · rw [if_pos (h1.2 hA), if_pos hA]
    have h2 : (∀ q ∈ cs, q.qubit < n → dx (fun i => rc (r i) (c i)) q.qubit = q.dig) ↔ CtrlOK cs c := by
      unfold CtrlOK
      refine forall_congr' fun q => forall_congr' fun hq => forall_congr' fun hn => ?_
      rw [dx_rc r c hn, rc_dig]
      refine and_iff_right (hA _ (fun he => hct q hq (congrArg Fin.val he)))
    rw [dx_rc r c ht]
    by_cases hB : CtrlOK cs c
    · rw [if_pos (h2.2 hB), if_pos hB]
    · rw [if_neg (fun h => hB (h2.1 h)), if_neg hB]
      exact if_congr (dg_rc _ _) rfl rfl
  · rw [if_neg (fun h => hA (h1.1 h)), if_neg hA]

theorem hi2_rc (a b : Fin 2) : Pkg.hi2 (rc a b) = a := by revert a b; decide
theorem lo2_rc (a b : Fin 2) : Pkg.lo2 (rc a b) = b := by revert a b; decide

theorem tw_twoMat {n : Nat} {U : Fin 4 → Fin 4 → Cx R} {t0 t1 : Nat} (h0 : t0 < n) (h1 : t1 < n) (r c : Fin n → Fin 2) :
    tw (fun j => j ≠ t0 ∧ j ≠ t1) n
      (fun D => U (Pkg.idx2 (Pkg.hi2 (D t0)) (Pkg.hi2 (D t1))) (Pkg.idx2 (Pkg.lo2 (D t0)) (Pkg.lo2 (D t1))))
      (dx (fun i => rc (r i) (c i))) = twoMat U ⟨t0, h0⟩ ⟨t1, h1⟩ r c := by
  unfold tw twoMat
  refine if_congr ?_ ?_ rfl
  · constructor
    · intro h i hi hj
      have := h i i.isLt ⟨fun he => hi (Fin.ext he), fun he => hj (Fin.ext he)⟩
      rw [dx_rc r c i.isLt, dg_rc] at this
      exact this
    · intro h j hj hne
      rw [dx_rc r c hj, dg_rc]
      exact h _ (fun he => hne.1 (congrArg Fin.val he)) (fun he => hne.2 (congrArg Fin.val he))
  · beta_reduce
    rw [dx_rc r c h0, dx_rc r c h1, hi2_rc, hi2_rc, lo2_rc, lo2_rc]; rfl

theorem keep_eq_pos (E : Nat → Bool) (l : Nat) : keep E l = pos E l := by
  induction l with
  | zero => rfl
  | succ l ih => rw [pos_succ, keep, ih]; split_ifs <;> rfl

/-- The closed form of the partial trace. -/
theorem tv_ptrace {E : Nat → Bool} {t : UTable (Cx R) 4} (hc : Children t) {l : Nat} {e : PEdge R} (hv : Valid t l e)
    (r c : Fin (pos E l) → Fin 2) :
    tv E t l e (dx (fun i => rc (r i) (c i))) = ptrace E (mat t l e) r c := by
  rw [tv_sum hc hv]
  unfold ptrace
  rw [← Finset.sum_filter]
  symm
  refine Finset.sum_bij (fun x _ i => if h : E (i : Fin l) = true then x ⟨i, h⟩ else 0) ?_ ?_ ?_ ?_
  · intro x _
    rw [Finset.mem_filter]
    refine ⟨Finset.mem_univ _, fun i hi => ?_⟩
    beta_reduce
    rw [dif_neg (by simp [hi])]
  · intro x _ y _ h
    funext ⟨i, hi⟩
    have := congrFun h i
    simpa only [dif_pos hi] using this
  · intro y hy
    rw [Finset.mem_filter] at hy
    refine ⟨fun i => y i.1, Finset.mem_univ _, ?_⟩
    funext i
    by_cases h : E (i : Fin l) = true
    · rw [dif_pos h]
    · rw [dif_neg h, hy.2 i (by simpa using h)]
  · intro x _
    unfold mat
    congr 1
    funext i
    unfold fill
    by_cases h : E (i : Fin l) = true
    · simp only [h, dif_pos, if_true]
    · simp only [h, dif_neg, Bool.false_eq_true, not_false_eq_true, if_false]
      rw [keep_eq_pos, dx_rc r c (pos_lt E i.isLt (by simpa using h))]

theorem OpSpec.mat_eq {P : PCfg R} {X : Set Nat} {s : Pkg R} {l : Nat} {f : (Fin l → Fin 4) → Cx R}
    {r : Pkg R × PEdge R} (h : OpSpec P X s .m l f r) : mat (r.1.ut .m) l r.2 = fun a b => f (fun i => rc (a i) (b i)) := by
  funext a b; exact h.val _

theorem OpSpec.vec_eq {P : PCfg R} {X : Set Nat} {s : Pkg R} {l : Nat} {f : (Fin l → Fin 2) → Cx R}
    {r : Pkg R × PEdge R} (h : OpSpec P X s .v l f r) : vec (r.1.ut .v) l r.2 = f := funext h.val

end DD
