import Verif.Proofs.Measure
import Mathlib.MeasureTheory.Measure.Lebesgue.Basic

/-!
# C40: measuring all qubits follows the Born rule
-/

namespace DD

variable {R : Type} [Field R] [LinearOrder R] [IsStrictOrderedRing R] [HasSqrt R] [LawfulSqrt R] {P : PCfg R}
  {h : PHist R}

theorem bitText_inj {l : Nat} {d d' : Fin l → Fin 2} (h : bitText d = bitText d') : d = d' := by
  unfold bitText at h
  have h1 := List.reverse_injective h
  rw [List.map_inj_left] at h1
  funext i
  have h2 := h1 i (List.mem_finRange i)
  have e1 : d i = 0 ∨ d i = 1 := by omega
  have e2 : d' i = 0 ∨ d' i = 1 := by omega
  rcases e1 with e1 | e1 <;> rcases e2 with e2 | e2 <;> rw [e1, e2] at h2 ⊢ <;> simp at h2

omit [Field R] [LinearOrder R] [IsStrictOrderedRing R] [HasSqrt R] [LawfulSqrt R] in
theorem resultString_eq {l : Nat} {r : Nat → Char} {d : Fin l → Fin 2} (hr : ∀ i : Fin l, r i = if d i = 1 then '1' else '0') :
    Pkg.resultString l r = bitText d := by
  unfold Pkg.resultString bitText
  congr 1
  apply List.ext_getElem
  · simp
  · intro i h1 h2
    simp only [List.length_map, List.length_range] at h1
    simp only [List.getElem_map, List.getElem_range, List.getElem_finRange]
    exact hr ⟨i, h1⟩

/-- The Born rule. For every state there are, for every bit string `d`, intervals within [0, 1) such that the string returned
is that of `d` exactly if all the random numbers drawn lie in these intervals. The product of their lengths is the squared
magnitude of the amplitude of `d` divided by that of the state. The function always returns a string, and it does not matter
what the diagram looks like, what tolerance is given and what is stored in the package. -/
theorem C40_born (hC : P.C.Good) (hr : PReach P h) {l : Nat} {x : PEdge R} (hx : Valid (h.pkg.ut .v) l x) (hw : x.w ≠ 0)
    {eps : R} (heps : 0 ≤ eps) :
    ∃ lo hi : (Fin l → Fin 2) → Fin l → R, (∀ d i, 0 ≤ lo d i ∧ lo d i ≤ hi d i ∧ hi d i ≤ 1) ∧
      (∀ d, ∏ i, (hi d i - lo d i) = (vec (h.pkg.ut .v) l x d).mag2 / ∑ d', (vec (h.pkg.ut .v) l x d').mag2) ∧
      ∀ draw : Nat → R, (∀ i < l, 0 ≤ draw i ∧ draw i < 1) →
        (∃ d : Fin l → Fin 2, h.pkg.measureAll x eps draw = some (bitText d)) ∧
        ∀ d : Fin l → Fin 2, h.pkg.measureAll x eps draw = some (bitText d) ↔ ∀ i : Fin l, lo d i ≤ draw i ∧ draw i < hi d i := by
  have hd := (hr.inv hC).wf.tab .v
  obtain ⟨lo, hi, h1, h2, h3⟩ := measureF_spec hd heps l x hx hw
  refine ⟨lo, hi, h1, fun d => ?_, fun draw hdr => ?_⟩
  · rw [h2]
    have e1 : vec (h.pkg.ut .v) l x d = x.w * amp (h.pkg.ut .v) l ⟨x.p, 1⟩ d := by unfold vec; rw [amp_eq_smul]
    have e2 : ∑ d', (vec (h.pkg.ut .v) l x d').mag2 = x.w.mag2 := by
      have := hd.mass_eq (q := l) (b := 0) le_rfl hx
      rw [← this]
      unfold mass
      refine Finset.sum_congr rfl fun d _ => ?_
      rw [if_pos (fun h => absurd h (lt_irrefl _))]
      rfl
    rw [e2, e1, Cx.mag2_mul]
    have := (Cx.mag2_pos hw).ne'
    field_simp
  · obtain ⟨d, r, e1, e2, _, e4⟩ := h3 draw (fun _ => '0') hdr (fun _ _ => rfl)
    have e : h.pkg.measureAll x eps draw = some (bitText d) := by
      unfold Pkg.measureAll
      rw [if_neg (fun h => hw h.2)]
      dsimp only
      rw [show h.pkg.lv .v x = l from hx.lvl hw, e1, Option.map_some, resultString_eq e2]
    refine ⟨⟨d, e⟩, fun d' => ?_⟩
    rw [e, ← e4 d']
    constructor
    · intro h; exact bitText_inj (Option.some.inj h).symm
    · intro h; rw [h]

/-- A string whose amplitude is zero is never returned. -/
theorem C40_possible (hC : P.C.Good) (hr : PReach P h) {l : Nat} {x : PEdge R} (hx : Valid (h.pkg.ut .v) l x) (hw : x.w ≠ 0)
    {eps : R} (heps : 0 ≤ eps) {draw : Nat → R} (hdr : ∀ i < l, 0 ≤ draw i ∧ draw i < 1) {d : Fin l → Fin 2}
    (hm : h.pkg.measureAll x eps draw = some (bitText d)) : vec (h.pkg.ut .v) l x d ≠ 0 := by
  obtain ⟨lo, hi, _, h2, h3⟩ := C40_born hC hr hx hw heps
  have h4 := ((h3 draw hdr).2 d).1 hm
  intro h0
  have h5 := h2 d
  rw [h0] at h5
  simp only [Cx.mag2_zero, zero_div] at h5
  obtain ⟨i, _, h6⟩ := Finset.prod_eq_zero_iff.1 h5
  have := h4 i
  linarith [this.1, this.2]

/-- The Born rule over the real numbers: if the random numbers are distributed uniformly and independently in [0, 1), a
string is returned with the probability given by the state. -/
theorem C40_probability {P : PCfg ℝ} {h : PHist ℝ} (hC : P.C.Good) (hr : PReach P h) {l : Nat} {x : PEdge ℝ}
    (hx : Valid (h.pkg.ut .v) l x) (hw : x.w ≠ 0) {eps : ℝ} (heps : 0 ≤ eps) (d : Fin l → Fin 2) :
    (MeasureTheory.volume {u : Fin l → ℝ | (∀ i, 0 ≤ u i ∧ u i < 1) ∧
      h.pkg.measureAll x eps (fun i => if hi : i < l then u ⟨i, hi⟩ else 0) = some (bitText d)}).toReal =
    (vec (h.pkg.ut .v) l x d).mag2 / ∑ d', (vec (h.pkg.ut .v) l x d').mag2 := by
  obtain ⟨lo, hi, h1, h2, h3⟩ := C40_born hC hr hx hw heps
  have hset : {u : Fin l → ℝ | (∀ i, 0 ≤ u i ∧ u i < 1) ∧
      h.pkg.measureAll x eps (fun i => if hi : i < l then u ⟨i, hi⟩ else 0) = some (bitText d)} =
      Set.pi Set.univ fun i => Set.Ico (lo d i) (hi d i) := by
    ext u
    simp only [Set.mem_ofPred_eq, Set.mem_pi, Set.mem_univ, true_imp_iff, Set.mem_Ico]
    constructor
    · rintro ⟨h4, h5⟩ i
      have := (((h3 _ (fun i hi => by rw [dif_pos hi]; exact h4 _)).2 d).1 h5) i
      rwa [dif_pos i.isLt] at this
    · intro h4
      have h5 : ∀ i, 0 ≤ u i ∧ u i < 1 := fun i =>
        ⟨le_trans (h1 d i).1 (h4 i).1, lt_of_lt_of_le (h4 i).2 (h1 d i).2.2⟩
      refine ⟨h5, ((h3 _ (fun i hi => by rw [dif_pos hi]; exact h5 _)).2 d).2 fun i => ?_⟩
      rw [dif_pos i.isLt]
      exact h4 i
  rw [hset, Real.volume_pi_Ico_toReal (fun i => (h1 d i).2.1), h2]

omit [LawfulSqrt R] [HasSqrt R] in
/-- The zero vector is refused (for tolerances below 1). -/
theorem C40_zero {s : Pkg R} {eps : R} (heps : eps < 1) (draw : Nat → R) (p : Option Nat) : s.measureAll ⟨p, 0⟩ eps draw = none := by
  unfold Pkg.measureAll
  rw [if_pos]
  simp
  exact heps

/-- With the collapse flag, the same string is returned; the caller's reference to the measured state is replaced by one to
the basis state of that string, and everything else the caller holds keeps its value. -/
theorem C40_collapse (hC : P.C.Good) (hr : PReach P h) {l : Nat} (hl : l < 128) {x : PEdge R} (hx : Valid (h.pkg.ut .v) l x) (hw : x.w ≠ 0)
    (hheld : x ∈ h.held .v) (g : GcEnv) {eps : R} (heps : 0 ≤ eps) {draw : Nat → R} (hdr : ∀ i < l, 0 ≤ draw i ∧ draw i < 1) :
    ∃ (d : Fin l → Fin 2) (h' : PHist R) (e : PEdge R),
      h.pkg.measureAllCollapse P g x eps draw = some (h'.pkg, e, bitText d) ∧
      h.pkg.measureAll x eps draw = some (bitText d) ∧ PReach P h' ∧
      h'.held = Function.update h.held .v (e :: (h.held .v).erase x) ∧
      Valid (h'.pkg.ut .v) l e ∧ vec (h'.pkg.ut .v) l e = (fun d' => if d' = d then 1 else 0) ∧
      ∀ k l' y, y ∈ h.held k → y ∈ h'.held k → Valid (h.pkg.ut k) l' y →
        Valid (h'.pkg.ut k) l' y ∧ amp (h'.pkg.ut k) l' y = amp (h.pkg.ut k) l' y := by
  have hi := hr.inv hC
  have hd := hi.wf.tab .v
  obtain ⟨lo, hi', h1, h2, h3⟩ := measureF_spec hd heps l x hx hw
  obtain ⟨d, r, e1, e2, _, e4⟩ := h3 draw (fun _ => '0') hdr (fun _ _ => rfl)
  have hlv : h.pkg.lv .v x = l := hx.lvl hw
  have hln : l ≤ (h.pkg.ut .v).nvars := valid_nvars hd.uwf hx hw
  -- releasing the state
  obtain ⟨s1, d1, u1⟩ := hr.dec_unchanged hC hheld
  have st1 := PStep.decRef (P := P) .v x s1 hheld d1
  have r1 := hr.step st1
  have n1 := hi.decRef_nvars hC hheld d1 .v
  -- the basis state
  let L : List Basis := (List.range l).map (fun i => if r i = '0' then .zero else .one)
  have hst : ∀ i < l, L.getD i .zero = if r i = '0' then .zero else .one := by
    intro i hi; simp [L, hi]
  obtain ⟨o2, w2⟩ := basisLoop_spec hC.growth (fun i => if r i = '0' then Basis.zero else .one) l s1 (r1.inv hC).wf (by rw [n1]; exact hln)
  have hloop : ∀ (n : Nat) (f g : Nat → Basis), (∀ i < n, f i = g i) → Pkg.basisLoop P f n s1 = Pkg.basisLoop P g n s1 := by
    intro n
    induction n with
    | zero => intro f g _; rfl
    | succ n ih =>
      intro f g hfg
      unfold Pkg.basisLoop
      rw [ih f g (fun i hi => hfg i (by omega)), hfg n (by omega)]
  have st2 := PStep.makeBasisStates (P := P) (h := ⟨s1, Function.update h.held .v ((h.held .v).erase x)⟩) l L
    (Pkg.basisLoop P (fun i => if r i = '0' then Basis.zero else .one) l s1) (by
      unfold Pkg.makeBasisStates
      dsimp only
      rw [if_neg (by rw [n1]; omega), if_neg (by simp [L])]
      rw [hloop l _ _ hst])
  have r2 := r1.step st2
  set b := Pkg.basisLoop P (fun i => if r i = '0' then Basis.zero else .one) l s1 with hb
  have u2 : Unchanged s1 b.1 := o2.ext.unchanged (r1.inv hC).wf
  -- taking a reference to it
  have st3 := PStep.incRef (P := P) (h := ⟨b.1, Function.update h.held .v ((h.held .v).erase x)⟩) .v l b.2 o2.valid
  have r3 := r2.step st3
  have u3 := r2.inc_unchanged hC o2.valid
  -- collecting garbage
  have st4 := PStep.garbageCollect (P := P) (h := ⟨b.1.incRef P .v b.2, Function.update (Function.update h.held .v ((h.held .v).erase x)) .v
    (b.2 :: (Function.update h.held .v ((h.held .v).erase x)) .v)⟩) { g with force := false }
  have r4 := r3.step st4
  have hheld' : Function.update (Function.update h.held .v ((h.held .v).erase x)) .v
      (b.2 :: (Function.update h.held .v ((h.held .v).erase x)) .v) = Function.update h.held .v (b.2 :: (h.held .v).erase x) := by
    rw [Function.update_idem, Function.update_self]
  have hmem : b.2 ∈ Function.update h.held .v (b.2 :: (h.held .v).erase x) .v := by simp
  have vb := (u3 .v l b.2 o2.valid)
  have fin := st4.value hC (r3.inv hC) (k := .v) vb.1 (by dsimp only; rw [hheld']; exact hmem) (by dsimp only; rw [hheld']; exact hmem)
  refine ⟨d, _, b.2, ?_, ?_, r4, hheld', fin.1, ?_, ?_⟩
  · unfold Pkg.measureAllCollapse
    rw [if_neg (fun h => hw h.2)]
    dsimp only
    rw [hlv, e1]
    dsimp only
    rw [if_neg (by omega), d1]
    dsimp only
    rw [← hb, resultString_eq e2]
  · unfold Pkg.measureAll
    rw [if_neg (fun h => hw h.2)]
    dsimp only
    rw [hlv, e1, Option.map_some, resultString_eq e2]
  · funext d'
    have : vec ((b.1.incRef P .v b.2).garbageCollect P { g with force := false } |>.1.ut .v) l b.2 d' = vec (b.1.ut .v) l b.2 d' :=
      (fin.2 d').trans (congrFun vb.2 d')
    rw [this, o2.vec_eq]
    dsimp only
    by_cases hdd : d' = d
    · rw [if_pos hdd, hdd]
      apply Finset.prod_eq_one
      intro i _
      rw [e2 i]
      have : d i = 0 ∨ d i = 1 := by omega
      rcases this with h | h <;> simp [h, basisAmp]
    · rw [if_neg hdd]
      obtain ⟨i, hi⟩ := Function.ne_iff.1 hdd
      apply Finset.prod_eq_zero (Finset.mem_univ i)
      rw [e2 i]
      have h1 : d i = 0 ∨ d i = 1 := by omega
      have h2 : d' i = 0 ∨ d' i = 1 := by omega
      rcases h1 with h1 | h1 <;> rcases h2 with h2 | h2 <;> rw [h1, h2] at hi ⊢ <;> simp [basisAmp] at hi ⊢
  · intro k l' y hy hy' hvy
    have v1 := u1 k l' y hvy
    have v2 := u2 k l' y v1.1
    have v3 := u3 k l' y v2.1
    have hy3 : y ∈ (Function.update (Function.update h.held .v ((h.held .v).erase x)) .v
      (b.2 :: (Function.update h.held .v ((h.held .v).erase x)) .v)) k := hy'
    have v4 := st4.value hC (r3.inv hC) (k := k) v3.1 hy3 hy3
    exact ⟨v4.1, (funext v4.2).trans (v3.2.trans (v2.2.trans v1.2))⟩

end DD

namespace DD.Ex

/-- The hypotheses are met by a held state of three qubits. -/
example : ∃ (h : PHist ℝ) (x : PEdge ℝ), PReach (PR ℝ) h ∧ Valid (h.pkg.ut .v) 3 x ∧ x.w ≠ 0 ∧ x ∈ h.held .v ∧
    (∀ i < 3, (0 : ℝ) ≤ (fun _ => 1 / 3 : Nat → ℝ) i ∧ (fun _ => 1 / 3 : Nat → ℝ) i < 1) ∧ (0 : ℝ) ≤ 1 / 1000 := by
  obtain ⟨h, x, y, A, B, hr, hn, vx, vy, vA, vB, hx, hA, ax, ay, aA, aB, wx, wy, wA, wB⟩ := setup (R := ℝ)
  exact ⟨h, x, hr, vx, wx, hx, fun _ _ => by norm_num, by norm_num⟩

end DD.Ex
