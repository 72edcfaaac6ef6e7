import Verif.Props.C38

/-!
# C57: reduction of garbage qubits

`reduceGarbage` is to add up the entries (of a vector, of each column of a matrix, or of each row if not `regular`) that
differ only in garbage qubits, and to put the sum where these qubits are 0 (`garbVec`, `garbMat`). It never throws, it moves
the caller's reference to the result and leaves all other diagrams alone. The result is right for basis states, and for
matrices with entries 0 and one number of magnitude at most 1 of which no two fall together; in particular for
permutations. It is wrong in general: successors with the same node get the same result although their weights differ, and
a root weight of magnitude greater than 1 is replaced by 1.
-/

namespace DD

variable {R : Type} [Field R] [LinearOrder R] [IsStrictOrderedRing R] [HasSqrt R] [LawfulSqrt R] {P : PCfg R} {h : PHist R}

omit [LinearOrder R] [IsStrictOrderedRing R] [HasSqrt R] [LawfulSqrt R] in
theorem garbVec_id {l : Nat} {mask : List Bool} {ψ : (Fin l → Fin 2) → Cx R}
    (h : (∀ r, ψ r = 0) ∨ ∀ i < l, mask.getD i false = false) : garbVec mask ψ = ψ := by
  classical
  funext r
  unfold garbVec
  rcases h with h | h
  · simp [h]
  · rw [if_neg, Finset.sum_eq_single r, if_pos]
    · intro i _; rfl
    · intro b _ hb
      refine if_neg fun h0 => hb ?_
      funext i
      exact h0 i (h i i.isLt)
    · intro h0; exact absurd (Finset.mem_univ _) h0
    · rintro ⟨i, h1, _⟩
      rw [h i i.isLt] at h1; cases h1

omit [LinearOrder R] [IsStrictOrderedRing R] [HasSqrt R] [LawfulSqrt R] in
theorem garbMat_id {l : Nat} {mask : List Bool} {regular : Bool} {M : QMat R l}
    (h : (∀ r c, M r c = 0) ∨ ∀ i < l, mask.getD i false = false) : garbMat mask regular M = M := by
  funext r c
  unfold garbMat
  cases regular
  · rw [garbVec_id (h.imp_left fun h c => h r c)]; rfl
  · rw [garbVec_id (h.imp_left fun h r => h r c)]; rfl

omit [LawfulSqrt R] in
/-- The "Quick-fix": no weight of magnitude greater than 1 is returned. -/
theorem reduceF_clamped {k : Kind} {step : Pkg R → Nat → PEdge R → Pkg R × PEdge R} {lb l a : Nat} {s : Pkg R} {e : PEdge R}
    (hp : e.p = some a) (hlb : lb ≤ ((s.ut k).mem a).v) : (Pkg.reduceF P k true step lb (l + 1) s e).2.w.mag2 ≤ 1 := by
  unfold Pkg.reduceF
  rw [hp]
  dsimp only
  rw [if_neg (by omega)]
  dsimp only
  split_ifs with hc
  · simp [Cx.mag2]
  · simpa using hc

/-! ## Vectors -/

theorem garbV_moved (hC : P.C.Good) (hr : PReach P h) {l : Nat} {e : PEdge R} (he : e ∈ h.held .v)
    (hv : Valid (h.pkg.ut .v) l e) (mask : List Bool) {F : Nat → (Fin l → Fin 2) → Cx R}
    (ho : ∀ lb, Pkg.lowerbound mask = some lb → lb < l →
      OpSpec P ∅ h.pkg .v l (F lb) (Pkg.reduceGarbageVRec P mask lb h.pkg e)) :
    ∃ r, Moved P h .v l e (Pkg.reduceGarbageV P h.pkg e mask) r ∧
      (((e.w = 0 ∨ ∀ i < l, mask.getD i false = false) ∧ r = (h.pkg, e)) ∨
        ∃ lb, e.w ≠ 0 ∧ Pkg.lowerbound mask = some lb ∧ lb < l ∧ r.2 = (Pkg.reduceGarbageVRec P mask lb h.pkg e).2 ∧
          Unchanged (Pkg.reduceGarbageVRec P mask lb h.pkg e).1 r.1 ∧ amp (r.1.ut .v) l r.2 = F lb) :=
  reduce_moved hC hr he hv (rec := fun lb => Pkg.reduceGarbageVRec P mask lb h.pkg e)
    (fun lb => .reduceGarbageVRec l e mask lb hv) ho

/-- The call always succeeds and moves the reference to a valid diagram; everything else in the package stays as it was. -/
theorem C57_vector_call (hC : P.C.Good) (hr : PReach P h) {l : Nat} {e : PEdge R} (he : e ∈ h.held .v)
    (hv : Valid (h.pkg.ut .v) l e) (mask : List Bool) :
    ∃ r, Moved P h .v l e (Pkg.reduceGarbageV P h.pkg e mask) r := by
  have hx : ∀ lb, ∃ f, OpSpec P ∅ h.pkg .v l f (Pkg.reduceGarbageVRec P mask lb h.pkg e) :=
    fun lb => reduce_valid hC.growth (garbStepV_spec hC.growth mask) true lb (hr.inv hC).wf hv
  choose F hF using hx
  obtain ⟨r, hm, _⟩ := garbV_moved hC hr he hv mask (F := F) (fun lb _ _ => hF lb)
  exact ⟨r, hm⟩

/-- Correctness from a condition under which the recursion is right. -/
theorem garbV_exact (hC : P.C.Good) (hr : PReach P h) {l : Nat} {e : PEdge R} (he : e ∈ h.held .v)
    (hv : Valid (h.pkg.ut .v) l e) {mask : List Bool}
    {G : (l : Nat) → Cx R → ((Fin l → Fin 2) → Cx R) → Prop}
    (hG : ∀ lb, Pkg.lowerbound mask = some lb → lb < l →
      RedOK P .v true (fun i => mask.getD i false) garbTauV lb G) (hg : G l e.w (amp (h.pkg.ut .v) l e)) :
    ∃ r, Moved P h .v l e (Pkg.reduceGarbageV P h.pkg e mask) r ∧
      vec (r.1.ut .v) l r.2 = garbVec mask (vec (h.pkg.ut .v) l e) := by
  obtain ⟨r, hm, hc⟩ := garbV_moved hC hr he hv mask
    (F := fun _ => redSum (fun i => mask.getD i false) garbTauV l (amp (h.pkg.ut .v) l e))
    (fun lb h1 h2 => reduce_exact hC.growth (garbStepV_spec hC.growth mask) (hG lb h1 h2) (hr.inv hC).wf hv hg)
  refine ⟨r, hm, ?_⟩
  rcases hc with ⟨h1, rfl⟩ | ⟨lb, _, _, _, _, _, h2⟩
  · exact (garbVec_id (h1.imp_left fun h0 r => amp_w_zero h0 _)).symm
  · funext a
    show amp (r.1.ut .v) l r.2 a = _
    rw [h2, redSum_garbV]; rfl

/-- Whatever the vector was, after a reduction that concerns at least one of its qubits no entry is larger than 1 in
magnitude: sums that exceed 1 are wrong. -/
theorem C57_vector_bounded (hC : P.C.Good) (hr : PReach P h) {l : Nat} {e : PEdge R} (he : e ∈ h.held .v)
    (hv : Valid (h.pkg.ut .v) l e) {mask : List Bool} (hq : ∃ i, i < l ∧ mask.getD i false = true) :
    ∃ r, Moved P h .v l e (Pkg.reduceGarbageV P h.pkg e mask) r ∧
      ∀ a, (vec (r.1.ut .v) l r.2 a).mag2 ≤ 1 := by
  have hx : ∀ lb, ∃ f, OpSpec P ∅ h.pkg .v l f (Pkg.reduceGarbageVRec P mask lb h.pkg e) :=
    fun lb => reduce_valid hC.growth (garbStepV_spec hC.growth mask) true lb (hr.inv hC).wf hv
  choose F hF using hx
  obtain ⟨r, hm, hc⟩ := garbV_moved hC hr he hv mask (F := F) (fun lb _ _ => hF lb)
  refine ⟨r, hm, ?_⟩
  suffices hs : ∀ d, (amp (r.1.ut .v) l r.2 d).mag2 ≤ 1 from hs
  intro d
  rcases hc with ⟨h1 | h1, rfl⟩ | ⟨lb, hw, _, h3, h4, h5, _⟩
  · rw [amp_w_zero h1]; simp [Cx.mag2]
  · obtain ⟨i, hi, hi'⟩ := hq
    rw [h1 i hi] at hi'; cases hi'
  · rw [h4, (h5 .v _ _ (hF lb).valid).2]
    refine (amp_le_root ((hF lb).wf.tab .v) (hF lb).valid d).trans ?_
    have hlv : h.pkg.lv .v e = l := hv.lvl hw
    unfold Pkg.reduceGarbageVRec
    rw [hlv]
    obtain ⟨l', rfl⟩ : ∃ l', l = l' + 1 := ⟨l - 1, by omega⟩
    obtain ⟨a, hp, ha, hal⟩ := hv.exists_node hw
    exact reduceF_clamped hp (by omega)

/-- If the two halves of a state are multiples of each other, they are equal in the result, if the highest qubit is not
garbage but another one is. -/
theorem C57_vector_shared (hC : P.C.Good) (hr : PReach P h) {l : Nat} {e : PEdge R} (he : e ∈ h.held .v)
    (hv : Valid (h.pkg.ut .v) (l + 1) e) {mask : List Bool} (hq : mask.getD l false = false)
    (hq' : ∃ i, i < l ∧ mask.getD i false = true) {i i' : Fin 2} {c : Cx R} (hc : c ≠ 0)
    (hb : ∀ a, vec (h.pkg.ut .v) (l + 1) e (Fin.snoc (α := fun _ => Fin 2) a i') = c * vec (h.pkg.ut .v) (l + 1) e (Fin.snoc (α := fun _ => Fin 2) a i))
    (hz : ∃ a, vec (h.pkg.ut .v) (l + 1) e (Fin.snoc (α := fun _ => Fin 2) a i) ≠ 0) :
    ∃ r, Moved P h .v (l + 1) e (Pkg.reduceGarbageV P h.pkg e mask) r ∧
      ∀ a, vec (r.1.ut .v) (l + 1) r.2 (Fin.snoc (α := fun _ => Fin 2) a i') = vec (r.1.ut .v) (l + 1) r.2 (Fin.snoc (α := fun _ => Fin 2) a i) := by
  have hst := garbStepV_spec hC.growth mask
  have hd := (hr.inv hC).wf.tab .v
  have hx : ∀ lb, ∃ f, OpSpec P ∅ h.pkg .v (l + 1) f (Pkg.reduceGarbageVRec P mask lb h.pkg e) :=
    fun lb => reduce_valid hC.growth hst true lb (hr.inv hC).wf hv
  choose F hF using hx
  obtain ⟨r, hm, hcs⟩ := garbV_moved hC hr he hv mask (F := F) (fun lb _ _ => hF lb)
  refine ⟨r, hm, ?_⟩
  obtain ⟨a0, ha0⟩ := hz
  have hw : e.w ≠ 0 := fun h0 => ha0 (amp_w_zero h0 _)
  obtain ⟨a, hp, ha, hal⟩ := hv.exists_node hw
  have hal : ((h.pkg.ut .v).mem a).v = l := by omega
  have hch := fun i => hd.childAt ha hal i
  have hblk : ∀ i a', vec (h.pkg.ut .v) (l + 1) e (Fin.snoc (α := fun _ => Fin 2) a' i) =
      e.w * amp (h.pkg.ut .v) l (((h.pkg.ut .v).mem a).e i) a' := fun i a' => amp_snoc (n := 2) hp a' i
  have hpp : (((h.pkg.ut .v).mem a).e i).p = (((h.pkg.ut .v).mem a).e i').p := by
    refine (hd.same_node (hch _) (hch _) hc fun d => ?_).symm
    have := hb d
    rw [hblk, hblk, mul_left_comm] at this
    exact mul_left_cancel₀ hw this
  have hl : 0 < l := by obtain ⟨i, hi, _⟩ := hq'; omega
  have hne : (((h.pkg.ut .v).mem a).e i).p ≠ none := by
    intro h0
    have h0 := ((valid_none h0).1 (hch _)).resolve_left (by omega)
    apply ha0
    rw [hblk, amp_w_zero h0, mul_zero]
  rcases hcs with ⟨h1 | h1, _⟩ | ⟨lb, _, h2, h3, h4, h5, h6⟩
  · exact absurd h1 hw
  · obtain ⟨i, hi, hi'⟩ := hq'
    rw [h1 i (by omega)] at hi'; cases hi'
  · have hlb : lb ≤ l := by omega
    have hlv : h.pkg.lv .v e = l + 1 := hv.lvl hw
    intro a'
    have hcp := reduceF_copies hC.growth hst true (hr.inv hC).wf hv hp hlb hq hpp hne a'
    show amp (r.1.ut .v) (l + 1) r.2 _ = amp (r.1.ut .v) (l + 1) r.2 _
    have hval := (hF lb).valid
    rw [h4, (h5 .v _ _ hval).2]
    unfold Pkg.reduceGarbageVRec
    rw [hlv]
    exact hcp.symm

/-- A state with at most one non-zero entry, of magnitude at most 1, is reduced correctly for all masks. Missing for the full
property: superpositions; for them the result is wrong in general (`C57_vector_shared_false`, `C57_vector_bounded`). -/
theorem C57_basis_partial (hC : P.C.Good) (hr : PReach P h) {l : Nat} {e : PEdge R} (he : e ∈ h.held .v)
    (hv : Valid (h.pkg.ut .v) l e) (h1 : ∀ a a', vec (h.pkg.ut .v) l e a ≠ 0 → vec (h.pkg.ut .v) l e a' ≠ 0 → a = a')
    (hb : ∀ a, (vec (h.pkg.ut .v) l e a).mag2 ≤ 1) (mask : List Bool) :
    ∃ r, Moved P h .v l e (Pkg.reduceGarbageV P h.pkg e mask) r ∧
      vec (r.1.ut .v) l r.2 = garbVec mask (vec (h.pkg.ut .v) l e) := by
  have hd := (hr.inv hC).wf.tab .v
  by_cases hw : e.w = 0
  · refine garbV_exact hC hr he hv (fun lb h1 _ => flat_ok true garb_tauV (lowerbound_some h1).2)
      ⟨fun d => Or.inl (amp_w_zero hw d), fun d d' d'' _ _ h2 => absurd (amp_w_zero hw d') h2, fun _ => h1, fun _ => ?_⟩
    rw [hw]; simp [Cx.mag2]
  · obtain ⟨d, hdne⟩ := hd.exists_ne hv hw
    have hF : ∀ a, amp (h.pkg.ut .v) l e a = 0 ∨ amp (h.pkg.ut .v) l e a = amp (h.pkg.ut .v) l e d := by
      intro a
      by_cases h0 : amp (h.pkg.ut .v) l e a = 0
      · exact Or.inl h0
      · rw [h1 a d h0 hdne]; exact Or.inr rfl
    have hew := (root_w hd hv hF (fun _ => h1)).resolve_left hw
    refine garbV_exact hC hr he hv (fun lb h1 _ => flat_ok true garb_tauV (lowerbound_some h1).2)
      ⟨fun a => by rw [hew]; exact hF a, fun a a' a'' _ _ h2 h3 => h1 a' a'' h2 h3, fun _ => h1, fun _ => ?_⟩
    rw [hew]; exact hb d

/-! ## Matrices -/

theorem garbM_moved (hC : P.C.Good) (hr : PReach P h) {l : Nat} {e : PEdge R} (he : e ∈ h.held .m)
    (hv : Valid (h.pkg.ut .m) l e) (mask : List Bool) (regular : Bool) {F : Nat → (Fin l → Fin 4) → Cx R}
    (ho : ∀ lb, Pkg.lowerbound mask = some lb → lb < l →
      OpSpec P ∅ h.pkg .m l (F lb) (Pkg.reduceGarbageMRec P mask regular lb h.pkg e)) :
    ∃ r, Moved P h .m l e (Pkg.reduceGarbageM P h.pkg e mask regular) r ∧
      (((e.w = 0 ∨ ∀ i < l, mask.getD i false = false) ∧ r = (h.pkg, e)) ∨
        ∃ lb, e.w ≠ 0 ∧ Pkg.lowerbound mask = some lb ∧ lb < l ∧ r.2 = (Pkg.reduceGarbageMRec P mask regular lb h.pkg e).2 ∧
          Unchanged (Pkg.reduceGarbageMRec P mask regular lb h.pkg e).1 r.1 ∧ amp (r.1.ut .m) l r.2 = F lb) :=
  reduce_moved hC hr he hv (rec := fun lb => Pkg.reduceGarbageMRec P mask regular lb h.pkg e)
    (fun lb => .reduceGarbageMRec l e mask regular lb hv) ho

/-- The call always succeeds and moves the reference to a valid diagram; everything else in the package stays as it was. -/
theorem C57_matrix_call (hC : P.C.Good) (hr : PReach P h) {l : Nat} {e : PEdge R} (he : e ∈ h.held .m)
    (hv : Valid (h.pkg.ut .m) l e) (mask : List Bool) (regular : Bool) :
    ∃ r, Moved P h .m l e (Pkg.reduceGarbageM P h.pkg e mask regular) r := by
  have hx : ∀ lb, ∃ f, OpSpec P ∅ h.pkg .m l f (Pkg.reduceGarbageMRec P mask regular lb h.pkg e) :=
    fun lb => reduce_valid hC.growth (garbStepM_spec hC.growth mask regular) true lb (hr.inv hC).wf hv
  choose F hF using hx
  obtain ⟨r, hm, _⟩ := garbM_moved hC hr he hv mask regular (F := F) (fun lb _ _ => hF lb)
  exact ⟨r, hm⟩

/-- Correctness from a condition under which the recursion is right. -/
theorem garbM_exact (hC : P.C.Good) (hr : PReach P h) {l : Nat} {e : PEdge R} (he : e ∈ h.held .m)
    (hv : Valid (h.pkg.ut .m) l e) {mask : List Bool} {regular : Bool}
    {G : (l : Nat) → Cx R → ((Fin l → Fin 4) → Cx R) → Prop}
    (hG : ∀ lb, Pkg.lowerbound mask = some lb → lb < l →
      RedOK P .m true (fun i => mask.getD i false) (garbTauM regular) lb G) (hg : G l e.w (amp (h.pkg.ut .m) l e)) :
    ∃ r, Moved P h .m l e (Pkg.reduceGarbageM P h.pkg e mask regular) r ∧
      mat (r.1.ut .m) l r.2 = garbMat mask regular (mat (h.pkg.ut .m) l e) := by
  obtain ⟨r, hm, hc⟩ := garbM_moved hC hr he hv mask regular
    (F := fun _ => redSum (fun i => mask.getD i false) (garbTauM regular) l (amp (h.pkg.ut .m) l e))
    (fun lb h1 h2 => reduce_exact hC.growth (garbStepM_spec hC.growth mask regular) (hG lb h1 h2) (hr.inv hC).wf hv hg)
  refine ⟨r, hm, ?_⟩
  rcases hc with ⟨h1, rfl⟩ | ⟨lb, _, _, _, _, _, h2⟩
  · exact (garbMat_id (h1.imp_left fun h0 r c => amp_w_zero h0 _)).symm
  · funext a b
    show amp (r.1.ut .m) l r.2 (digs a b) = _
    rw [h2, redSum_garbM]; rfl

/-- Whatever the matrix was, after a reduction that concerns at least one of its qubits no entry is larger than 1 in
magnitude: sums that exceed 1 are wrong. -/
theorem C57_matrix_bounded (hC : P.C.Good) (hr : PReach P h) {l : Nat} {e : PEdge R} (he : e ∈ h.held .m)
    (hv : Valid (h.pkg.ut .m) l e) {mask : List Bool} (hq : ∃ i, i < l ∧ mask.getD i false = true) (regular : Bool) :
    ∃ r, Moved P h .m l e (Pkg.reduceGarbageM P h.pkg e mask regular) r ∧
      ∀ a b, (mat (r.1.ut .m) l r.2 a b).mag2 ≤ 1 := by
  have hx : ∀ lb, ∃ f, OpSpec P ∅ h.pkg .m l f (Pkg.reduceGarbageMRec P mask regular lb h.pkg e) :=
    fun lb => reduce_valid hC.growth (garbStepM_spec hC.growth mask regular) true lb (hr.inv hC).wf hv
  choose F hF using hx
  obtain ⟨r, hm, hc⟩ := garbM_moved hC hr he hv mask regular (F := F) (fun lb _ _ => hF lb)
  refine ⟨r, hm, ?_⟩
  suffices hs : ∀ d, (amp (r.1.ut .m) l r.2 d).mag2 ≤ 1 from fun a b => hs _
  intro d
  rcases hc with ⟨h1 | h1, rfl⟩ | ⟨lb, hw, _, h3, h4, h5, _⟩
  · rw [amp_w_zero h1]; simp [Cx.mag2]
  · obtain ⟨i, hi, hi'⟩ := hq
    rw [h1 i hi] at hi'; cases hi'
  · rw [h4, (h5 .m _ _ (hF lb).valid).2]
    refine (amp_le_root ((hF lb).wf.tab .m) (hF lb).valid d).trans ?_
    have hlv : h.pkg.lv .m e = l := hv.lvl hw
    unfold Pkg.reduceGarbageMRec
    rw [hlv]
    obtain ⟨l', rfl⟩ : ∃ l', l = l' + 1 := ⟨l - 1, by omega⟩
    obtain ⟨a, hp, ha, hal⟩ := hv.exists_node hw
    exact reduceF_clamped hp (by omega)

/-- Two quadrants of the matrix that are multiples of each other are equal in the result, if the highest qubit is not
garbage but another one is. -/
theorem C57_matrix_shared (hC : P.C.Good) (hr : PReach P h) {l : Nat} {e : PEdge R} (he : e ∈ h.held .m)
    (hv : Valid (h.pkg.ut .m) (l + 1) e) {mask : List Bool} (hq : mask.getD l false = false)
    (hq' : ∃ i, i < l ∧ mask.getD i false = true) (regular : Bool) {i j i' j' : Fin 2} {c : Cx R} (hc : c ≠ 0)
    (hb : ∀ a b, blk (mat (h.pkg.ut .m) (l + 1) e) i' j' a b = c * blk (mat (h.pkg.ut .m) (l + 1) e) i j a b)
    (hz : blk (mat (h.pkg.ut .m) (l + 1) e) i j ≠ 0) :
    ∃ r, Moved P h .m (l + 1) e (Pkg.reduceGarbageM P h.pkg e mask regular) r ∧
      blk (mat (r.1.ut .m) (l + 1) r.2) i' j' = blk (mat (r.1.ut .m) (l + 1) r.2) i j := by
  have hst := garbStepM_spec hC.growth mask regular
  have hd := (hr.inv hC).wf.tab .m
  have hx : ∀ lb, ∃ f, OpSpec P ∅ h.pkg .m (l + 1) f (Pkg.reduceGarbageMRec P mask regular lb h.pkg e) :=
    fun lb => reduce_valid hC.growth hst true lb (hr.inv hC).wf hv
  choose F hF using hx
  obtain ⟨r, hm, hcs⟩ := garbM_moved hC hr he hv mask regular (F := F) (fun lb _ _ => hF lb)
  refine ⟨r, hm, ?_⟩
  have hw : e.w ≠ 0 := by
    intro h0
    apply hz
    funext a b
    exact amp_w_zero h0 _
  obtain ⟨a, hp, ha, hal⟩ := hv.exists_node hw
  have hal : ((h.pkg.ut .m).mem a).v = l := by omega
  have hch := fun i => hd.childAt ha hal i
  have hblk : ∀ i j a' b', blk (mat (h.pkg.ut .m) (l + 1) e) i j a' b' =
      e.w * amp (h.pkg.ut .m) l (((h.pkg.ut .m).mem a).e (rc i j)) (digs a' b') := by
    intro i j a' b'
    show amp (h.pkg.ut .m) (l + 1) e (digs _ _) = _
    rw [← digs_snoc, amp_snoc hp]
  have hpp : (((h.pkg.ut .m).mem a).e (rc i j)).p = (((h.pkg.ut .m).mem a).e (rc i' j')).p := by
    refine (hd.same_node (hch _) (hch _) hc fun d => ?_).symm
    obtain ⟨⟨a', b'⟩, rfl⟩ := (digsEquiv l).surjective d
    have := hb a' b'
    rw [hblk, hblk, mul_left_comm] at this
    exact mul_left_cancel₀ hw this
  have hl : 0 < l := by obtain ⟨i, hi, _⟩ := hq'; omega
  have hne : (((h.pkg.ut .m).mem a).e (rc i j)).p ≠ none := by
    intro h0
    have h0 := ((valid_none h0).1 (hch _)).resolve_left (by omega)
    apply hz
    funext a' b'
    rw [hblk, amp_w_zero h0, mul_zero]; rfl
  rcases hcs with ⟨h1 | h1, _⟩ | ⟨lb, _, h2, h3, h4, h5, h6⟩
  · exact absurd h1 hw
  · obtain ⟨i, hi, hi'⟩ := hq'
    rw [h1 i (by omega)] at hi'; cases hi'
  · have hlb : lb ≤ l := by omega
    have hlv : h.pkg.lv .m e = l + 1 := hv.lvl hw
    funext a' b'
    have hcp := reduceF_copies hC.growth hst true (hr.inv hC).wf hv hp hlb hq hpp hne (digs a' b')
    show amp (r.1.ut .m) (l + 1) r.2 (digs _ _) = amp (r.1.ut .m) (l + 1) r.2 (digs _ _)
    have hval := (hF lb).valid
    rw [← digs_snoc, ← digs_snoc, h4, (h5 .m _ _ hval).2]
    unfold Pkg.reduceGarbageMRec
    rw [hlv]
    exact hcp.symm

/-- A matrix with entries 0 and `c`, `|c| ≤ 1`, is reduced correctly if no two non-zero entries are added up: they are
neither in the same column (`regular`; otherwise row) nor agree in the rows (columns) up to garbage qubits. Missing for the
full property: other matrices, for which the result is wrong in general (`C57_matrix_shared`, `C57_matrix_bounded`). -/
theorem C57_flat_partial (hC : P.C.Good) (hr : PReach P h) {l : Nat} {e : PEdge R} (he : e ∈ h.held .m)
    (hv : Valid (h.pkg.ut .m) l e) {c : Cx R} (hc : c.mag2 ≤ 1)
    (hM : ∀ a b, mat (h.pkg.ut .m) l e a b = 0 ∨ mat (h.pkg.ut .m) l e a b = c) (mask : List Bool) (regular : Bool)
    (h1 : ∀ a b a' b', mat (h.pkg.ut .m) l e a b ≠ 0 → mat (h.pkg.ut .m) l e a' b' ≠ 0 →
      (if regular then b = b' ∧ AgreeOff mask a a' else a = a' ∧ AgreeOff mask b b') → a = a' ∧ b = b') :
    ∃ r, Moved P h .m l e (Pkg.reduceGarbageM P h.pkg e mask regular) r ∧
      mat (r.1.ut .m) l r.2 = garbMat mask regular (mat (h.pkg.ut .m) l e) := by
  have hF : ∀ d, amp (h.pkg.ut .m) l e d = 0 ∨ amp (h.pkg.ut .m) l e d = c := by
    intro d
    obtain ⟨⟨a, b⟩, rfl⟩ := (digsEquiv l).surjective d
    exact hM a b
  have hw := root_w ((hr.inv hC).wf.tab .m) hv hF (by simp)
  refine garbM_exact hC hr he hv (fun lb h1 h2 => flat_ok true (garb_tauM regular) (lowerbound_some h1).2) ⟨fun d => ?_, ?_, by simp, fun _ => ?_⟩
  · rcases hw with h0 | h0
    · exact Or.inl (amp_w_zero h0 d)
    · rw [h0]; exact hF d
  · intro d d' d'' e1 e2 n1 n2
    obtain ⟨⟨r, s⟩, rfl⟩ := (digsEquiv l).surjective d
    obtain ⟨⟨a, b⟩, rfl⟩ := (digsEquiv l).surjective d'
    obtain ⟨⟨a', b'⟩, rfl⟩ := (digsEquiv l).surjective d''
    have g1 := hit_garbM.1 e1
    have g2 := hit_garbM.1 e2
    have := h1 a b a' b' n1 n2 (by
      cases regular
      · simp only [Bool.false_eq_true, if_false] at g1 g2 ⊢
        exact ⟨g1.1.trans g2.1.symm, fun i hi => (g2.2.2 i hi).trans (g1.2.2 i hi).symm⟩
      · simp only [if_true] at g1 g2 ⊢
        exact ⟨g1.1.trans g2.1.symm, fun i hi => (g2.2.2 i hi).trans (g1.2.2 i hi).symm⟩)
    rw [this.1, this.2]
  · rcases hw with h0 | h0
    · rw [h0]; simp [Cx.mag2]
    · rw [h0]; exact hc

/-- In particular this holds for every matrix with entries 0 and 1 that has at most one 1 in each row and column
(permutations of the basis states), for all masks and both directions. -/
theorem C57_permutation (hC : P.C.Good) (hr : PReach P h) {l : Nat} {e : PEdge R} (he : e ∈ h.held .m)
    (hv : Valid (h.pkg.ut .m) l e) (hM : ∀ a b, mat (h.pkg.ut .m) l e a b = 0 ∨ mat (h.pkg.ut .m) l e a b = 1)
    (hcol : ∀ a a' b, mat (h.pkg.ut .m) l e a b = 1 → mat (h.pkg.ut .m) l e a' b = 1 → a = a')
    (hrow : ∀ a b b', mat (h.pkg.ut .m) l e a b = 1 → mat (h.pkg.ut .m) l e a b' = 1 → b = b') (mask : List Bool) (regular : Bool) :
    ∃ r, Moved P h .m l e (Pkg.reduceGarbageM P h.pkg e mask regular) r ∧
      mat (r.1.ut .m) l r.2 = garbMat mask regular (mat (h.pkg.ut .m) l e) := by
  refine C57_flat_partial hC hr he hv (c := 1) (by simp [Cx.mag2]) hM mask regular ?_
  intro a b a' b' n1 n2 hh
  have n1 := (hM a b).resolve_left n1
  have n2 := (hM a' b').resolve_left n2
  cases regular
  · simp only [Bool.false_eq_true, if_false] at hh
    obtain ⟨rfl, _⟩ := hh
    exact ⟨rfl, hrow _ _ _ n1 n2⟩
  · simp only [if_true] at hh
    obtain ⟨rfl, _⟩ := hh
    exact ⟨hcol _ _ _ n1 n2, rfl⟩

/-- A superposition (3/5, 0, 4/5, 0) with garbage qubit 0 would have to stay as it is; it does not. -/
theorem C57_vector_shared_false : ∃ (h : PHist R) (e : PEdge R), PReach (Ex.PR R) h ∧ e ∈ h.held .v ∧ Valid (h.pkg.ut .v) 2 e ∧
    garbVec [true, false] (vec (h.pkg.ut .v) 2 e) = vec (h.pkg.ut .v) 2 e ∧ inner (vec (h.pkg.ut .v) 2 e) (vec (h.pkg.ut .v) 2 e) = 1 ∧
    ∃ r, Moved (Ex.PR R) h .v 2 e (Pkg.reduceGarbageV (Ex.PR R) h.pkg e [true, false]) r ∧
      vec (r.1.ut .v) 2 r.2 ≠ garbVec [true, false] (vec (h.pkg.ut .v) 2 e) := by
  have hC := Ex.PR_good R
  obtain ⟨h, e, hr, he, hv, hM⟩ := Ex.vector_held (R := R) 2 (by decide) [⟨3 / 5, 0⟩, 0, ⟨4 / 5, 0⟩, 0] rfl
  have two : ∀ a : Fin 2 → Fin 2, ∃ x y, a = ![x, y] := fun a => ⟨a 0, a 1, by funext i; fin_cases i <;> rfl⟩
  have hE : ∀ x y, vec (h.pkg.ut .v) 2 e ![x, y] = if x = 0 then if y = 0 then ⟨3 / 5, 0⟩ else ⟨4 / 5, 0⟩ else 0 := by
    intro x y
    rw [hM]
    fin_cases x <;> fin_cases y <;> simp [bitIdx]
  have five : (5 : R) ≠ 0 := by norm_num
  have hid : garbVec [true, false] (vec (h.pkg.ut .v) 2 e) = vec (h.pkg.ut .v) 2 e := by
    classical
    funext a
    obtain ⟨x, y, rfl⟩ := two a
    have hrs : Raised [true, false] (![x, y] : Fin 2 → Fin 2) ↔ x ≠ 0 := by
      unfold Raised
      revert x y; decide
    unfold garbVec
    by_cases hx : x = 0
    · subst hx
      rw [if_neg (fun h0 => hrs.1 h0 rfl), Finset.sum_eq_single ![0, y], if_pos]
      · intro i _; rfl
      · intro b _ hb
        obtain ⟨x', y', rfl⟩ := two b
        by_cases hag : AgreeOff [true, false] ![0, y] ![x', y']
        · have hy : y' = y := hag 1 rfl
          subst hy
          rw [if_pos hag, hE, if_neg]
          rintro rfl
          exact hb rfl
        · exact if_neg hag
      · intro h0; exact absurd (Finset.mem_univ _) h0
    · rw [if_pos (hrs.2 hx), hE, if_neg hx]
  refine ⟨h, e, hr, he, hv, hid, ?_, ?_⟩
  · unfold inner
    have e1 : ∀ f : (Fin 2 → Fin 2) → Cx R, ∑ a, f a = f ![0, 0] + f ![1, 0] + (f ![0, 1] + f ![1, 1]) := by
      intro f
      rw [sum_snoc, Fin.sum_univ_two]
      simp only [sum_snoc, Fin.sum_univ_two]
      have s : ∀ (d : Fin 0 → Fin 2) (x y : Fin 2), (Fin.snoc (α := fun _ => Fin 2) (Fin.snoc (α := fun _ => Fin 2) d x : Fin 1 → Fin 2) y : Fin 2 → Fin 2) = ![x, y] := by decide
      simp [s]
    rw [e1]
    simp only [hE]
    ext
    · simp [Cx.conj]; field_simp; norm_num
    · simp [Cx.conj]
  · obtain ⟨r, hm, h1⟩ := C57_vector_shared hC hr he (l := 1) hv (mask := [true, false]) rfl ⟨0, by decide, rfl⟩ (i := 0) (i' := 1)
      (c := ⟨4 / 3, 0⟩) (fun h0 => by have := congrArg Cx.re h0; simp at this) (by
        intro a
        obtain ⟨x, rfl⟩ : ∃ x, a = ![x] := ⟨a 0, by funext i; fin_cases i; rfl⟩
        have s : ∀ (x i : Fin 2), (Fin.snoc (α := fun _ => Fin 2) (![x] : Fin 1 → Fin 2) i : Fin 2 → Fin 2) = ![x, i] := by decide
        rw [s, s, hE, hE]
        by_cases hx : x = 0
        · rw [if_pos hx, if_pos hx, if_neg (by decide), if_pos rfl]
          ext
          · simp; field_simp
          · simp
        · rw [if_neg hx, if_neg hx, mul_zero]) ⟨![0], by
        have s : ∀ (x i : Fin 2), (Fin.snoc (α := fun _ => Fin 2) (![x] : Fin 1 → Fin 2) i : Fin 2 → Fin 2) = ![x, i] := by decide
        rw [s, hE, if_pos rfl, if_pos rfl]
        intro h0
        have := congrArg Cx.re h0
        simp at this⟩
    refine ⟨r, hm, fun heq => ?_⟩
    rw [hid] at heq
    have := h1 ![0]
    have s : ∀ (x i : Fin 2), (Fin.snoc (α := fun _ => Fin 2) (![x] : Fin 1 → Fin 2) i : Fin 2 → Fin 2) = ![x, i] := by decide
    rw [heq, s, s, hE, hE, if_pos rfl, if_neg (by decide), if_pos rfl, if_pos rfl] at this
    have := congrArg Cx.re this
    field_simp at this
    norm_num at this

namespace Ex

/-- A basis state of two qubits. -/
example : ∃ (h : PHist ℝ) (e : PEdge ℝ), PReach (PR ℝ) h ∧ e ∈ h.held .v ∧ Valid (h.pkg.ut .v) 2 e ∧
    (∀ a a', vec (h.pkg.ut .v) 2 e a ≠ 0 → vec (h.pkg.ut .v) 2 e a' ≠ 0 → a = a') ∧ (∀ a, (vec (h.pkg.ut .v) 2 e a).mag2 ≤ 1) ∧
    vec (h.pkg.ut .v) 2 e ![1, 1] = ⟨0, 1⟩ := by
  obtain ⟨h, e, hr, he, hv, hM⟩ := vector_held (R := ℝ) 2 (by decide) [0, 0, 0, ⟨0, 1⟩] rfl
  have two : ∀ a : Fin 2 → Fin 2, ∃ x y, a = ![x, y] := fun a => ⟨a 0, a 1, by funext i; fin_cases i <;> rfl⟩
  have hE : ∀ x y, vec (h.pkg.ut .v) 2 e ![x, y] = if x = 1 ∧ y = 1 then ⟨0, 1⟩ else 0 := by
    intro x y
    rw [hM]
    fin_cases x <;> fin_cases y <;> simp [bitIdx]
  refine ⟨h, e, hr, he, hv, ?_, ?_, ?_⟩
  · intro a a' h1 h2
    obtain ⟨x, y, rfl⟩ := two a
    obtain ⟨x', y', rfl⟩ := two a'
    rw [hE] at h1 h2
    by_cases c1 : x = 1 ∧ y = 1
    · by_cases c2 : x' = 1 ∧ y' = 1
      · rw [c1.1, c1.2, c2.1, c2.2]
      · rw [if_neg c2] at h2; exact absurd rfl h2
    · rw [if_neg c1] at h1; exact absurd rfl h1
  · intro a
    obtain ⟨x, y, rfl⟩ := two a
    rw [hE]
    split_ifs <;> simp [Cx.mag2]
  · rw [hE, if_pos ⟨rfl, rfl⟩]

/-- A controlled not; the lower qubit is garbage. -/
example : ∃ (h : PHist ℝ) (e : PEdge ℝ), PReach (PR ℝ) h ∧ e ∈ h.held .m ∧ Valid (h.pkg.ut .m) 2 e ∧
    (∀ a b, mat (h.pkg.ut .m) 2 e a b = 0 ∨ mat (h.pkg.ut .m) 2 e a b = 1) ∧
    (∀ a a' b, mat (h.pkg.ut .m) 2 e a b = 1 → mat (h.pkg.ut .m) 2 e a' b = 1 → a = a') ∧
    (∀ a b b', mat (h.pkg.ut .m) 2 e a b = 1 → mat (h.pkg.ut .m) 2 e a b' = 1 → b = b') := by
  obtain ⟨h, e, hr, he, hv, hM⟩ := matrix_held (R := ℝ) 2 (by decide)
    [[1, 0, 0, 0], [0, 1, 0, 0], [0, 0, 0, 1], [0, 0, 1, 0]] rfl (by simp)
  have two : ∀ a : Fin 2 → Fin 2, ∃ x y, a = ![x, y] := fun a => ⟨a 0, a 1, by funext i; fin_cases i <;> rfl⟩
  have hE : ∀ a b, mat (h.pkg.ut .m) 2 e a b = if b 1 = a 1 ∧ b 0 = (if a 1 = 1 then (if a 0 = 1 then 0 else 1) else a 0) then 1 else 0 := by
    intro a b
    obtain ⟨x, y, rfl⟩ := two a
    obtain ⟨x', y', rfl⟩ := two b
    rw [hM]
    fin_cases x <;> fin_cases y <;> fin_cases x' <;> fin_cases y' <;> simp [bitIdx]
  have hE1 : ∀ a b, mat (h.pkg.ut .m) 2 e a b = 1 → b 1 = a 1 ∧ b 0 = (if a 1 = 1 then (if a 0 = 1 then 0 else 1) else a 0) := by
    intro a b h1
    rw [hE] at h1
    by_contra hc
    rw [if_neg hc] at h1
    exact zero_ne_one h1
  refine ⟨h, e, hr, he, hv, ?_, ?_, ?_⟩
  · intro a b
    rw [hE]
    by_cases hc : b 1 = a 1 ∧ b 0 = (if a 1 = 1 then (if a 0 = 1 then 0 else 1) else a 0)
    · rw [if_pos hc]; exact Or.inr rfl
    · rw [if_neg hc]; exact Or.inl rfl
  · intro a a' b h1 h2
    have k1 := hE1 _ _ h1
    have k2 := hE1 _ _ h2
    clear h1 h2
    revert a a' b; decide
  · intro a b b' h1 h2
    have k1 := hE1 _ _ h1
    have k2 := hE1 _ _ h2
    clear h1 h2
    revert a b b'; decide

end Ex

end DD
