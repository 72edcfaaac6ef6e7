import Verif.Proofs.Reduce
import Verif.Proofs.State
import Verif.Proofs.Use
import Verif.Proofs.Measure
import Verif.ReduceSpec

/-!
# The reductions in terms of rows and columns
-/

namespace DD

section
variable {R : Type} [Field R] [LinearOrder R] [IsStrictOrderedRing R]

/-- Digits from row and column bits. -/
def digs {l : Nat} (r c : Fin l → Fin 2) : Fin l → Fin 4 := fun i => rc (r i) (c i)

def digsEquiv (l : Nat) : (Fin l → Fin 2) × (Fin l → Fin 2) ≃ (Fin l → Fin 4) where
  toFun p := digs p.1 p.2
  invFun d := (rowD d, colD d)
  left_inv p := by
    refine Prod.ext ?_ ?_ <;> funext i
    · exact hi2_rc _ _
    · exact lo2_rc _ _
  right_inv d := by
    funext i
    show rc (Pkg.hi2 (d i)) (Pkg.lo2 (d i)) = d i
    generalize d i = x
    revert x; decide

theorem digs_inj {l : Nat} {r c r' c' : Fin l → Fin 2} : digs r c = digs r' c' ↔ r = r' ∧ c = c' := by
  rw [show digs r c = digsEquiv l (r, c) from rfl, show digs r' c' = digsEquiv l (r', c') from rfl, (digsEquiv l).apply_eq_iff_eq, Prod.mk.injEq]

theorem sum_digs {l : Nat} (F : (Fin l → Fin 4) → Cx R) : ∑ d, F d = ∑ r, ∑ c, F (digs r c) := by
  rw [← Fintype.sum_prod_type' (f := fun r c => F (digs r c))]
  exact ((digsEquiv l).sum_comp F).symm

theorem not_raised {l : Nat} {mask : List Bool} {b : Fin l → Fin 2} : ¬ Raised mask b ↔ ∀ i : Fin l, mask.getD i false = true → b i = 0 := by
  unfold Raised
  push Not
  refine forall_congr' fun i => imp_congr_right fun _ => ?_
  generalize b i = x
  revert x; decide

theorem hit_anc {l : Nat} {mask : List Bool} {regular : Bool} {r c : Fin l → Fin 2} {d' : Fin l → Fin 4} :
    Hit (fun i => mask.getD i false) (ancTau regular) (digs r c) d' ↔ d' = digs r c ∧ ¬ Raised mask (if regular then c else r) := by
  rw [not_raised, funext_iff, ← forall_and]
  unfold Hit
  refine forall_congr' fun i => ?_
  dsimp only
  rcases (Bool.eq_false_or_eq_true (mask.getD i false)).symm with hm | hm
  · simp only [hm]; simp
  · simp only [hm, if_true, forall_const]
    have hb : (if regular then c else r) i = if regular then c i else r i := by split <;> rfl
    rw [hb]
    unfold digs
    generalize d' i = x
    generalize r i = y
    generalize c i = z
    cases regular <;> revert x y z <;> decide

theorem redSum_anc {l : Nat} (mask : List Bool) (regular : Bool) (F : (Fin l → Fin 4) → Cx R) (r c : Fin l → Fin 2) :
    redSum (fun i => mask.getD i false) (ancTau regular) l F (digs r c) = ancMat mask regular (fun r c => F (digs r c)) r c := by
  classical
  unfold redSum ancMat
  by_cases hR : Raised mask (if regular then c else r)
  · rw [if_pos hR]
    exact Finset.sum_eq_zero fun d' _ => if_neg (fun h => (hit_anc.1 h).2 hR)
  · rw [if_neg hR, Finset.sum_eq_single (digs r c)]
    · exact if_pos (hit_anc.2 ⟨rfl, hR⟩)
    · intro d' _ hd; exact if_neg (fun h => hd (hit_anc.1 h).1)
    · intro h; exact absurd (Finset.mem_univ _) h

theorem hit_garbV {l : Nat} {mask : List Bool} {r d' : Fin l → Fin 2} :
    Hit (fun i => mask.getD i false) garbTauV r d' ↔ ¬ Raised mask r ∧ AgreeOff mask r d' := by
  rw [not_raised]
  unfold AgreeOff
  rw [← forall_and]
  unfold Hit
  refine forall_congr' fun i => ?_
  dsimp only
  rcases (Bool.eq_false_or_eq_true (mask.getD i false)).symm with hm | hm
  · simp only [hm]; simp
  · simp only [hm]; simp [garbTauV]

theorem redSum_garbV {l : Nat} (mask : List Bool) (F : (Fin l → Fin 2) → Cx R) (r : Fin l → Fin 2) :
    redSum (fun i => mask.getD i false) garbTauV l F r = garbVec mask F r := by
  classical
  unfold redSum garbVec
  by_cases hR : Raised mask r
  · rw [if_pos hR]
    exact Finset.sum_eq_zero fun d' _ => if_neg (fun h => (hit_garbV.1 h).1 hR)
  · rw [if_neg hR]
    refine Finset.sum_congr rfl fun d' _ => ?_
    by_cases h : AgreeOff mask r d'
    · rw [if_pos h, if_pos (hit_garbV.2 ⟨hR, h⟩)]
    · rw [if_neg h, if_neg (fun x => h (hit_garbV.1 x).2)]

theorem hit_garbM {l : Nat} {mask : List Bool} {regular : Bool} {r c r' c' : Fin l → Fin 2} :
    Hit (fun i => mask.getD i false) (garbTauM regular) (digs r c) (digs r' c') ↔
      if regular then c' = c ∧ ¬ Raised mask r ∧ AgreeOff mask r r' else r' = r ∧ ¬ Raised mask c ∧ AgreeOff mask c c' := by
  simp only [not_raised]
  cases regular
  all_goals
    simp only [if_true, Bool.false_eq_true, if_false]
    rw [funext_iff]
    unfold AgreeOff
    rw [← forall_and, ← forall_and]
    unfold Hit
    refine forall_congr' fun i => ?_
    dsimp only
    rcases (Bool.eq_false_or_eq_true (mask.getD i false)).symm with hm | hm
    · simp only [hm, Bool.false_eq_true, if_false, IsEmpty.forall_iff, forall_const, true_and]
      unfold digs
      generalize r i = x
      generalize c i = y
      generalize r' i = x'
      generalize c' i = y'
      revert x y x' y'; decide
    · simp only [hm, if_true, forall_const, Bool.true_eq_false, IsEmpty.forall_iff, and_true]
      unfold digs
      generalize r i = x
      generalize c i = y
      generalize r' i = x'
      generalize c' i = y'
      revert x y x' y'; decide

theorem redSum_garbM {l : Nat} (mask : List Bool) (regular : Bool) (F : (Fin l → Fin 4) → Cx R) (r c : Fin l → Fin 2) :
    redSum (fun i => mask.getD i false) (garbTauM regular) l F (digs r c) = garbMat mask regular (fun r c => F (digs r c)) r c := by
  classical
  unfold redSum garbMat garbVec
  rw [sum_digs]
  simp only [hit_garbM]
  cases regular
  · simp only [Bool.false_eq_true, if_false]
    rw [Finset.sum_eq_single r]
    · by_cases hR : Raised mask c
      · rw [if_pos hR]
        exact Finset.sum_eq_zero fun d' _ => if_neg (fun h => h.2.1 hR)
      · rw [if_neg hR]
        refine Finset.sum_congr rfl fun d' _ => ?_
        by_cases h : AgreeOff mask c d'
        · rw [if_pos h, if_pos ⟨rfl, hR, h⟩]
        · rw [if_neg h, if_neg (fun x => h x.2.2)]
    · intro r' _ hr
      exact Finset.sum_eq_zero fun d' _ => if_neg (fun h => hr h.1)
    · intro h; exact absurd (Finset.mem_univ _) h
  · simp only [if_true]
    by_cases hR : Raised mask r
    · rw [if_pos hR]
      exact Finset.sum_eq_zero fun d' _ => Finset.sum_eq_zero fun d'' _ => if_neg (fun h => h.2.1 hR)
    · rw [if_neg hR]
      refine Finset.sum_congr rfl fun r' _ => ?_
      rw [Finset.sum_eq_single c]
      · by_cases h : AgreeOff mask r r'
        · rw [if_pos h, if_pos ⟨rfl, hR, h⟩]
        · rw [if_neg h, if_neg (fun x => h x.2.2)]
      · intro c' _ hc; exact if_neg (fun h => hc h.1)
      · intro h; exact absurd (Finset.mem_univ _) h

theorem lowerbound_some {mask : List Bool} {lb : Nat} (h : Pkg.lowerbound mask = some lb) :
    mask.getD lb false = true ∧ ∀ i, i < lb → mask.getD i false = false := by
  unfold Pkg.lowerbound at h
  rw [List.findIdx?_eq_some_iff_getElem] at h
  obtain ⟨h1, h2, h3⟩ := h
  refine ⟨by rw [List.getD_eq_getElem?_getD, List.getElem?_eq_getElem h1]; exact h2, fun i hi => ?_⟩
  rw [List.getD_eq_getElem?_getD, List.getElem?_eq_getElem (by omega)]
  simpa using h3 i hi

theorem lowerbound_none {mask : List Bool} (h : Pkg.lowerbound mask = none) (i : Nat) : mask.getD i false = false := by
  unfold Pkg.lowerbound at h
  rw [List.findIdx?_eq_none_iff] at h
  rw [List.getD_eq_getElem?_getD]
  cases hi : mask[i]? with
  | none => rfl
  | some b =>
    have := h b (List.mem_of_getElem? hi)
    simpa using this

end

variable {R : Type} [Field R] [LinearOrder R] [IsStrictOrderedRing R] [HasSqrt R] [LawfulSqrt R] {P : PCfg R} {h : PHist R}

/-- The frame of the three public functions. -/
theorem reduce_moved (hC : P.C.Good) (hr : PReach P h) {k : Kind} {l : Nat} {e : PEdge R} (he : e ∈ h.held k)
    (hv : Valid (h.pkg.ut k) l e) {mask : List Bool} {rec : Nat → Pkg R × PEdge R}
    {F : Nat → (Fin l → Fin (ar k)) → Cx R}
    (hs : ∀ lb, PStep P h { h with pkg := (rec lb).1 })
    (ho : ∀ lb, Pkg.lowerbound mask = some lb → lb < l → OpSpec P ∅ h.pkg k l (F lb) (rec lb)) :
    ∃ r, Moved P h k l e (match Pkg.lowerbound mask with
      | none => some (h.pkg, e)
      | some lb => if h.pkg.lv k e ≤ lb then some (h.pkg, e) else Pkg.moveRef P k e (rec lb)) r ∧
      (((e.w = 0 ∨ ∀ i < l, mask.getD i false = false) ∧ r = (h.pkg, e)) ∨
        ∃ lb, e.w ≠ 0 ∧ Pkg.lowerbound mask = some lb ∧ lb < l ∧ r.2 = (rec lb).2 ∧ Unchanged (rec lb).1 r.1 ∧
          amp (r.1.ut k) l r.2 = F lb) := by
  have same : ∀ call, call = some (h.pkg, e) → Moved P h k l e call (h.pkg, e) := fun call hc =>
    ⟨hc, hv, fun _ _ _ hx => ⟨hx, rfl⟩, h, hr, rfl, List.perm_cons_erase he, fun _ _ => rfl⟩
  cases hl : Pkg.lowerbound mask with
  | none => exact ⟨_, same _ rfl, Or.inl ⟨Or.inr fun i _ => lowerbound_none hl i, rfl⟩⟩
  | some lb =>
    dsimp only
    by_cases hw : e.w = 0
    · have he0 := hv.eq_zeroE hw
      refine ⟨_, same _ (if_pos ?_), Or.inl ⟨Or.inl hw, rfl⟩⟩
      rw [he0]; exact Nat.zero_le _
    have hlv : h.pkg.lv k e = l := hv.lvl hw
    rw [hlv]
    by_cases hlb : l ≤ lb
    · exact ⟨_, same _ (if_pos hlb), Or.inl ⟨Or.inr fun i hi => (lowerbound_some hl).2 i (by omega), rfl⟩⟩
    · have o := ho lb hl (by omega)
      rw [if_neg hlb]
      have r1 := hr.step (hs lb)
      have u1 := o.ext.unchanged (hr.inv hC).wf
      obtain ⟨s, hd, u2⟩ := r1.dec_unchanged hC (k := k) (e := e) he
      have r2 := r1.step (.decRef k e s he hd)
      have v2 := u2 k l (rec lb).2 o.valid
      have r3 := r2.step (.incRef k l (rec lb).2 v2.1)
      have u3 := r2.inc_unchanged hC v2.1
      have v3 := u3 k l (rec lb).2 v2.1
      refine ⟨(s.incRef P k (rec lb).2, (rec lb).2), ⟨?_, v3.1, ?_, _, r3, rfl, ?_, ?_⟩, Or.inr ⟨lb, hw, rfl, by omega, rfl, ?_, ?_⟩⟩
      · unfold Pkg.moveRef
        dsimp only at hd
        rw [hd]; rfl
      · intro k' l' e' hv'
        have a1 := u1 k' l' e' hv'
        have a2 := u2 k' l' e' a1.1
        have a3 := u3 k' l' e' a2.1
        exact ⟨a3.1, a3.2.trans (a2.2.trans a1.2)⟩
      · simp
      · intro k' hk; simp [Function.update_of_ne hk]
      · intro k' l' e' hv'
        have a2 := u2 k' l' e' hv'
        have a3 := u3 k' l' e' a2.1
        exact ⟨a3.1, a3.2.trans a2.2⟩
      · dsimp only
        rw [v3.2, v2.2]
        exact funext o.val

omit [HasSqrt R] [LawfulSqrt R] in
/-- No entry of a vector or matrix is larger than the weight of the edge. -/
theorem amp_le_root {k : Kind} {H : (Fin (ar k) → PEdge R) → Nat} {t : UTable (Cx R) (ar k)} (h : DDWF H t) : ∀ {l : Nat} {e : PEdge R},
    Valid t l e → ∀ d, (amp t l e d).mag2 ≤ e.w.mag2 := by
  intro l
  induction l with
  | zero => intro e _ d; exact le_refl _
  | succ l ih =>
    intro e hv d
    cases hp : e.p with
    | none => rw [amp_none hp]
    | some a =>
      obtain ⟨ha, hl, hw⟩ := (valid_some hp).1 hv
      have hl : (t.mem a).v = l := by omega
      rw [amp_some hp, Cx.mag2_mul]
      have hn : ∀ i, ((t.mem a).e i).w.mag2 ≤ 1 := by
        intro i
        have := h.norm a ha
        cases k with
        | m => obtain ⟨_, _, hn, _⟩ := this; exact hn i
        | v =>
          have this : IsNormV (fun i => ((t.mem a).e i).w) := this
          have z0 : (0 : Cx R).mag2 = 0 := by simp [Cx.mag2]
          have z1 : (1 : Cx R).mag2 = 1 := by simp [Cx.mag2]
          rcases this with ⟨h0, h1⟩ | ⟨h0, h1⟩ | ⟨_, _, h2, _⟩
          · dsimp only at h0 h1
            change Fin 2 at i; fin_cases i
            · simp only [Fin.zero_eta]; rw [h0]; simp [z0]
            · simp only [Fin.mk_one]; rw [h1]; simp [z1]
          · dsimp only at h0 h1
            change Fin 2 at i; fin_cases i
            · simp only [Fin.zero_eta]; rw [h0]; simp [z1]
            · simp only [Fin.mk_one]; rw [h1]; simp [z0]
          · dsimp only at h2
            change Fin 2 at i
            have a0 := Cx.mag2_nonneg (((t.mem a).e 0).w)
            have a1 := Cx.mag2_nonneg (((t.mem a).e 1).w)
            fin_cases i
            · simp only [Fin.zero_eta]; linarith
            · simp only [Fin.mk_one]; linarith
      have h1 := (ih (h.childAt ha hl (d (Fin.last l))) (Fin.init d)).trans (hn (d (Fin.last l)))
      calc e.w.mag2 * _ ≤ e.w.mag2 * 1 := mul_le_mul_of_nonneg_left h1 (Cx.mag2_nonneg _)
        _ = e.w.mag2 := mul_one _

end DD
