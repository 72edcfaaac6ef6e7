import Verif.Proofs.ReduceMat
import Verif.Proofs.HeldEx
import Verif.Props.C51

/-!
# C38: reduction of ancillary qubits

`reduceAncillae(M, ancillary, regular)` is to set the columns (rows) of `M` to zero that belong to an ancilla with value 1
(`ancMat`). It never throws, it moves the caller's reference to the result and leaves all other diagrams alone. The result
is right for matrices whose entries are 0 or one number (in particular permutations), for any mask, and for one ancilla
as long as no two quadrants are different multiples of each other. It is wrong otherwise in general: two successors with
the same node get the same result although their weights differ, and the weight of the intermediate node is dropped when
columns are removed.
-/

namespace DD

variable {R : Type} [Field R] [LinearOrder R] [IsStrictOrderedRing R] [HasSqrt R] [LawfulSqrt R] {P : PCfg R} {h : PHist R}

/-- What the call does, whatever it computes. -/
theorem anc_moved (hC : P.C.Good) (hr : PReach P h) {l : Nat} {e : PEdge R} (he : e ∈ h.held .m)
    (hv : Valid (h.pkg.ut .m) l e) (mask : List Bool) (regular : Bool) {F : Nat → (Fin l → Fin 4) → Cx R}
    (ho : ∀ lb, Pkg.lowerbound mask = some lb → lb < l →
      OpSpec P ∅ h.pkg .m l (F lb) (Pkg.reduceAncillaeRec P mask regular lb h.pkg e)) :
    ∃ r, Moved P h .m l e (Pkg.reduceAncillae P h.pkg e mask regular) r ∧
      (((e.w = 0 ∨ ∀ i < l, mask.getD i false = false) ∧ r = (h.pkg, e)) ∨
        ∃ lb, e.w ≠ 0 ∧ Pkg.lowerbound mask = some lb ∧ lb < l ∧ r.2 = (Pkg.reduceAncillaeRec P mask regular lb h.pkg e).2 ∧
          Unchanged (Pkg.reduceAncillaeRec P mask regular lb h.pkg e).1 r.1 ∧ amp (r.1.ut .m) l r.2 = F lb) :=
  reduce_moved hC hr he hv (rec := fun lb => Pkg.reduceAncillaeRec P mask regular lb h.pkg e)
    (fun lb => .reduceAncillaeRec l e mask regular lb hv) ho

/-- The call always succeeds and moves the reference to a valid diagram; everything else in the package stays as it was. -/
theorem C38_call (hC : P.C.Good) (hr : PReach P h) {l : Nat} {e : PEdge R} (he : e ∈ h.held .m)
    (hv : Valid (h.pkg.ut .m) l e) (mask : List Bool) (regular : Bool) :
    ∃ r, Moved P h .m l e (Pkg.reduceAncillae P h.pkg e mask regular) r := by
  have hx : ∀ lb, ∃ f, OpSpec P ∅ h.pkg .m l f (Pkg.reduceAncillaeRec P mask regular lb h.pkg e) :=
    fun lb => reduce_valid hC.growth (ancStep_spec hC.growth mask regular) false lb (hr.inv hC).wf hv
  choose F hF using hx
  obtain ⟨r, hm, _⟩ := anc_moved hC hr he hv mask regular (F := F) (fun lb _ _ => hF lb)
  exact ⟨r, hm⟩

omit [LinearOrder R] [IsStrictOrderedRing R] [HasSqrt R] [LawfulSqrt R] in
theorem ancMat_id {l : Nat} {mask : List Bool} {regular : Bool} {M : QMat R l}
    (h : (∀ r c, M r c = 0) ∨ ∀ i < l, mask.getD i false = false) : ancMat mask regular M = M := by
  funext r c
  unfold ancMat
  rcases h with h | h
  · rw [h]; simp
  · refine if_neg ?_
    rintro ⟨i, h1, _⟩
    rw [h i i.isLt] at h1
    cases h1

/-- Correctness from a condition under which the recursion is right. -/
theorem anc_exact (hC : P.C.Good) (hr : PReach P h) {l : Nat} {e : PEdge R} (he : e ∈ h.held .m)
    (hv : Valid (h.pkg.ut .m) l e) {mask : List Bool} {regular : Bool}
    {G : (l : Nat) → Cx R → ((Fin l → Fin 4) → Cx R) → Prop}
    (hG : ∀ lb, Pkg.lowerbound mask = some lb → lb < l →
      RedOK P .m false (fun i => mask.getD i false) (ancTau regular) lb G) (hg : G l e.w (amp (h.pkg.ut .m) l e)) :
    ∃ r, Moved P h .m l e (Pkg.reduceAncillae P h.pkg e mask regular) r ∧
      mat (r.1.ut .m) l r.2 = ancMat mask regular (mat (h.pkg.ut .m) l e) := by
  obtain ⟨r, hm, hc⟩ := anc_moved hC hr he hv mask regular
    (F := fun _ => redSum (fun i => mask.getD i false) (ancTau regular) l (amp (h.pkg.ut .m) l e))
    (fun lb h1 h2 => reduce_exact hC.growth (ancStep_spec hC.growth mask regular) (hG lb h1 h2) (hr.inv hC).wf hv hg)
  refine ⟨r, hm, ?_⟩
  rcases hc with ⟨h1, rfl⟩ | ⟨lb, _, _, _, _, _, h2⟩
  · exact (ancMat_id (h1.imp_left fun h0 r c => amp_w_zero h0 _)).symm
  · funext a b
    show amp (r.1.ut .m) l r.2 (digs a b) = _
    rw [h2, redSum_anc]; rfl

omit [HasSqrt R] [LawfulSqrt R] in
theorem anc_noSum {l : Nat} {mask : List Bool} {regular : Bool} (F : (Fin l → Fin 4) → Cx R) :
    NoSum (fun i => mask.getD i false) (ancTau regular) F := by
  intro d d' d'' h1 h2 _ _
  obtain ⟨⟨r, c⟩, rfl⟩ := (digsEquiv l).surjective d
  rw [(hit_anc.1 h1).1, (hit_anc.1 h2).1]

/-- For a matrix with entries 0 and `c`, all ancilla masks and both directions, `reduceAncillae` is right. Missing for the
full property: matrices with other entries; for them the result is wrong in general (`C38_shared_false`,
`C38_nested_false`). -/
theorem C38_flat_partial (hC : P.C.Good) (hr : PReach P h) {l : Nat} {e : PEdge R} (he : e ∈ h.held .m)
    (hv : Valid (h.pkg.ut .m) l e) {c : Cx R} (hM : ∀ a b, mat (h.pkg.ut .m) l e a b = 0 ∨ mat (h.pkg.ut .m) l e a b = c)
    (mask : List Bool) (regular : Bool) :
    ∃ r, Moved P h .m l e (Pkg.reduceAncillae P h.pkg e mask regular) r ∧
      mat (r.1.ut .m) l r.2 = ancMat mask regular (mat (h.pkg.ut .m) l e) := by
  have hF : ∀ d, amp (h.pkg.ut .m) l e d = 0 ∨ amp (h.pkg.ut .m) l e d = c := by
    intro d
    obtain ⟨⟨a, b⟩, rfl⟩ := (digsEquiv l).surjective d
    exact hM a b
  refine anc_exact hC hr he hv (fun lb h1 h2 => flat_ok false (anc_tau regular) (lowerbound_some h1).2) ⟨fun d => ?_, anc_noSum _, by simp, by simp⟩
  rcases root_w ((hr.inv hC).wf.tab .m) hv hF (by simp) with h0 | h0
  · exact Or.inl (amp_w_zero h0 d)
  · rw [h0]; exact hF d

/-- No two quadrants of a block are different non-zero multiples of each other; the condition concerns blocks of at least
two rows and is not needed for blocks that lie on the qubits below `q`. -/
def DistinctQuadrants (q : Nat) : (l : Nat) → QMat R l → Prop
  | 0, _ => True
  | l + 1, M => l < q ∨ ((∀ i j, DistinctQuadrants q l (blk M i j)) ∧
    (0 < l → ∀ i j i' j' (c : Cx R), c ≠ 0 → (∀ a b, blk M i j a b = c * blk M i' j' a b) → blk M i j = blk M i' j'))

omit [HasSqrt R] [LawfulSqrt R] in
theorem digs_snoc {l : Nat} (a b : Fin l → Fin 2) (i j : Fin 2) :
    (Fin.snoc (α := fun _ => Fin 4) (digs a b) (rc i j) : Fin (l + 1) → Fin 4) =
      digs (Fin.snoc (α := fun _ => Fin 2) a i) (Fin.snoc (α := fun _ => Fin 2) b j) := by
  funext x
  refine Fin.lastCases ?_ (fun x => ?_) x <;> simp [digs]

omit [HasSqrt R] [LawfulSqrt R] in
theorem noMult_of {q : Nat} : ∀ {l : Nat} {F : (Fin l → Fin 4) → Cx R}, DistinctQuadrants q l (fun a b => F (digs a b)) → NoMult q l F := by
  intro l
  induction l with
  | zero => intro F _; trivial
  | succ l ih =>
    rintro F (h | ⟨h1, h2⟩)
    · exact Or.inl h
    · refine Or.inr ⟨fun x => ?_, fun hl x y c hc hxy d => ?_⟩
      · obtain ⟨⟨i, j⟩, rfl⟩ : ∃ p : Fin 2 × Fin 2, x = rc p.1 p.2 := by revert x; decide
        apply ih
        have := h1 i j
        simp only [digs_snoc]
        exact this
      · obtain ⟨⟨i, j⟩, rfl⟩ : ∃ p : Fin 2 × Fin 2, x = rc p.1 p.2 := by clear hxy; revert x; decide
        obtain ⟨⟨i', j'⟩, rfl⟩ : ∃ p : Fin 2 × Fin 2, y = rc p.1 p.2 := by clear hxy; revert y; decide
        obtain ⟨⟨a, b⟩, rfl⟩ := (digsEquiv l).surjective d
        have := h2 hl i j i' j' c hc (fun a b => by
          have := hxy (digs a b)
          rw [digs_snoc, digs_snoc] at this
          exact this)
        show F (Fin.snoc (α := fun _ => Fin 4) (digs a b) _) = F (Fin.snoc (α := fun _ => Fin 4) (digs a b) _)
        rw [digs_snoc, digs_snoc]
        exact congrFun (congrFun this a) b

/-- With a single ancilla `q` the result is right if no two quadrants are different multiples of each other. Missing for
the full property: several ancillas and matrices with such quadrants. -/
theorem C38_single_partial (hC : P.C.Good) (hr : PReach P h) {l : Nat} {e : PEdge R} (he : e ∈ h.held .m)
    (hv : Valid (h.pkg.ut .m) l e) {mask : List Bool} {q : Nat} (hq : ∀ i, mask.getD i false = true → i = q)
    (hM : DistinctQuadrants q l (mat (h.pkg.ut .m) l e)) (regular : Bool) :
    ∃ r, Moved P h .m l e (Pkg.reduceAncillae P h.pkg e mask regular) r ∧
      mat (r.1.ut .m) l r.2 = ancMat mask regular (mat (h.pkg.ut .m) l e) := by
  refine anc_exact hC hr he hv (G := fun l _ F => NoMult q l F) (fun lb h1 h2 => ?_) (noMult_of hM)
  have := hq lb (lowerbound_some h1).1
  subst this
  exact single_ok hq

/-- Without a marked qubit nothing changes. -/
theorem C38_none (hC : P.C.Good) (hr : PReach P h) {l : Nat} {e : PEdge R} (he : e ∈ h.held .m)
    (hv : Valid (h.pkg.ut .m) l e) {mask : List Bool} (hq : ∀ i, i < l → mask.getD i false = false) (regular : Bool) :
    Pkg.reduceAncillae P h.pkg e mask regular = some (h.pkg, e) := by
  have hx : ∀ lb, ∃ f, OpSpec P ∅ h.pkg .m l f (Pkg.reduceAncillaeRec P mask regular lb h.pkg e) :=
    fun lb => reduce_valid hC.growth (ancStep_spec hC.growth mask regular) false lb (hr.inv hC).wf hv
  choose F hF using hx
  obtain ⟨r, hm, hc⟩ := anc_moved hC hr he hv mask regular (F := F) (fun lb _ _ => hF lb)
  rcases hc with ⟨h1, rfl⟩ | ⟨lb, _, h2, h3, _⟩
  · exact hm.1
  · exact absurd (lowerbound_some h2).1 (by rw [hq lb h3]; decide)

/-- Two quadrants of the matrix that are multiples of each other are equal in the result, if the highest qubit is no
ancilla but another one is. -/
theorem C38_shared (hC : P.C.Good) (hr : PReach P h) {l : Nat} {e : PEdge R} (he : e ∈ h.held .m)
    (hv : Valid (h.pkg.ut .m) (l + 1) e) {mask : List Bool} (hq : mask.getD l false = false)
    (hq' : ∃ i, i < l ∧ mask.getD i false = true) (regular : Bool) {i j i' j' : Fin 2} {c : Cx R} (hc : c ≠ 0)
    (hb : ∀ a b, blk (mat (h.pkg.ut .m) (l + 1) e) i' j' a b = c * blk (mat (h.pkg.ut .m) (l + 1) e) i j a b)
    (hz : blk (mat (h.pkg.ut .m) (l + 1) e) i j ≠ 0) :
    ∃ r, Moved P h .m (l + 1) e (Pkg.reduceAncillae P h.pkg e mask regular) r ∧
      blk (mat (r.1.ut .m) (l + 1) r.2) i' j' = blk (mat (r.1.ut .m) (l + 1) r.2) i j := by
  have hst := ancStep_spec hC.growth mask regular
  have hd := (hr.inv hC).wf.tab .m
  have hx : ∀ lb, ∃ f, OpSpec P ∅ h.pkg .m (l + 1) f (Pkg.reduceAncillaeRec P mask regular lb h.pkg e) :=
    fun lb => reduce_valid hC.growth hst false lb (hr.inv hC).wf hv
  choose F hF using hx
  obtain ⟨r, hm, hcs⟩ := anc_moved hC hr he hv mask regular (F := F) (fun lb _ _ => hF lb)
  refine ⟨r, hm, ?_⟩
  have hw : e.w ≠ 0 := by
    intro h0
    apply hz
    funext a b
    exact amp_w_zero h0 _
  obtain ⟨a, hp, ha, hal⟩ := hv.exists_node hw
  have hal : ((h.pkg.ut .m).mem a).v = l := by omega
  have hch := fun i => hd.childAt ha hal i
  have hblk : ∀ i j a' b', blk (mat (h.pkg.ut .m) (l + 1) e) i j a' b' =
      e.w * amp (h.pkg.ut .m) l (((h.pkg.ut .m).mem a).e (rc i j)) (digs a' b') := by
    intro i j a' b'
    show amp (h.pkg.ut .m) (l + 1) e (digs _ _) = _
    rw [← digs_snoc, amp_snoc hp]
  have hpp : (((h.pkg.ut .m).mem a).e (rc i j)).p = (((h.pkg.ut .m).mem a).e (rc i' j')).p := by
    refine (hd.same_node (hch _) (hch _) hc fun d => ?_).symm
    obtain ⟨⟨a', b'⟩, rfl⟩ := (digsEquiv l).surjective d
    have := hb a' b'
    rw [hblk, hblk, mul_left_comm] at this
    exact mul_left_cancel₀ hw this
  have hl : 0 < l := by obtain ⟨i, hi, _⟩ := hq'; omega
  have hne : (((h.pkg.ut .m).mem a).e (rc i j)).p ≠ none := by
    intro h0
    have h0 := ((valid_none h0).1 (hch _)).resolve_left (by omega)
    apply hz
    funext a' b'
    rw [hblk, amp_w_zero h0, mul_zero]; rfl
  rcases hcs with ⟨h1 | h1, _⟩ | ⟨lb, _, h2, h3, h4, h5, h6⟩
  · exact absurd h1 hw
  · obtain ⟨i, hi, hi'⟩ := hq'
    rw [h1 i (by omega)] at hi'; cases hi'
  · have hlb : lb ≤ l := by omega
    have hlv : h.pkg.lv .m e = l + 1 := hv.lvl hw
    funext a' b'
    have hcp := reduceF_copies hC.growth hst false (hr.inv hC).wf hv hp hlb hq hpp hne (digs a' b')
    show amp (r.1.ut .m) (l + 1) r.2 (digs _ _) = amp (r.1.ut .m) (l + 1) r.2 (digs _ _)
    have hval := (hF lb).valid
    rw [← digs_snoc, ← digs_snoc, h4, (h5 .m _ _ hval).2]
    unfold Pkg.reduceAncillaeRec
    rw [hlv]
    exact hcp.symm

/-- So the result is wrong as soon as the factor is not 1 and the ancilla columns do not contain everything. -/
theorem C38_shared_false (hC : P.C.Good) (hr : PReach P h) {l : Nat} {e : PEdge R} (he : e ∈ h.held .m)
    (hv : Valid (h.pkg.ut .m) (l + 1) e) {mask : List Bool} (hq : mask.getD l false = false)
    (hq' : ∃ i, i < l ∧ mask.getD i false = true) (regular : Bool) {i j i' j' : Fin 2} {c : Cx R} (hc : c ≠ 0) (hc1 : c ≠ 1)
    (hb : ∀ a b, blk (mat (h.pkg.ut .m) (l + 1) e) i' j' a b = c * blk (mat (h.pkg.ut .m) (l + 1) e) i j a b)
    (hz : blk (ancMat mask regular (mat (h.pkg.ut .m) (l + 1) e)) i j ≠ 0) :
    ∃ r, Moved P h .m (l + 1) e (Pkg.reduceAncillae P h.pkg e mask regular) r ∧
      mat (r.1.ut .m) (l + 1) r.2 ≠ ancMat mask regular (mat (h.pkg.ut .m) (l + 1) e) := by
  have raised : ∀ (b : Fin l → Fin 2) (x : Fin 2), Raised mask (Fin.snoc (α := fun _ => Fin 2) b x : Fin (l + 1) → Fin 2) ↔ Raised mask b := by
    intro b x
    unfold Raised
    constructor
    · rintro ⟨y, h1, h2⟩
      refine Fin.lastCases (fun h1 _ => ?_) (fun y h1 h2 => ?_) y h1 h2
      · rw [Fin.val_last, hq] at h1; cases h1
      · rw [Fin.snoc_castSucc] at h2; exact ⟨y, h1, h2⟩
    · rintro ⟨y, h1, h2⟩
      exact ⟨y.castSucc, h1, by rw [Fin.snoc_castSucc]; exact h2⟩
  have hA : ∀ i j a b, blk (ancMat mask regular (mat (h.pkg.ut .m) (l + 1) e)) i j a b =
      ancMat mask regular (blk (mat (h.pkg.ut .m) (l + 1) e) i j) a b := by
    intro i j a b
    unfold blk ancMat
    have : Raised mask (if regular then (Fin.snoc (α := fun _ => Fin 2) b j : Fin (l + 1) → Fin 2) else Fin.snoc (α := fun _ => Fin 2) a i) ↔
        Raised mask (if regular then b else a) := by
      cases regular
      · simpa using raised a i
      · simpa using raised b j
    by_cases hR : Raised mask (if regular then b else a)
    · rw [if_pos hR, if_pos (this.2 hR)]
    · rw [if_neg hR, if_neg (fun x => hR (this.1 x))]
  obtain ⟨r, hm, h1⟩ := C38_shared hC hr he hv hq hq' regular hc hb (by
    intro h0
    apply hz
    funext a b
    rw [hA, h0]
    exact ite_self _)
  refine ⟨r, hm, fun heq => hz ?_⟩
  rw [heq] at h1
  funext a b
  have h2 := congrFun (congrFun h1 a) b
  rw [hA, hA] at h2
  rw [hA]
  show _ = (0 : Cx R)
  unfold ancMat at h2 ⊢
  by_cases hR : Raised mask (if regular then b else a)
  · exact if_pos hR
  · rw [if_neg hR] at h2 ⊢
    rw [if_neg hR, hb] at h2
    have : (c - 1) * blk (mat (h.pkg.ut .m) (l + 1) e) i j a b = 0 := by rw [sub_mul, h2, one_mul, sub_self]
    exact (mul_eq_zero.1 this).resolve_left (sub_ne_zero.2 hc1)

/-- The first row of a matrix on two qubits; the other rows are zero. -/
def rowMat (x y z : Cx R) : List (List (Cx R)) := [[x, y, z, 0], [0, 0, 0, 0], [0, 0, 0, 0], [0, 0, 0, 0]]

omit [LinearOrder R] [IsStrictOrderedRing R] [HasSqrt R] [LawfulSqrt R] in
theorem rowMat_getD (x y z : Cx R) (a b : Fin 2 → Fin 2) : ((rowMat x y z).getD (bitIdx a) []).getD (bitIdx b) 0 =
    if a = ![0, 0] then if b = ![0, 0] then x else if b = ![1, 0] then y else if b = ![0, 1] then z else 0 else 0 := by
  obtain ⟨a0, a1, rfl⟩ : ∃ a0 a1, a = ![a0, a1] := ⟨a 0, a 1, by funext i; fin_cases i <;> rfl⟩
  obtain ⟨b0, b1, rfl⟩ : ∃ b0 b1, b = ![b0, b1] := ⟨b 0, b 1, by funext i; fin_cases i <;> rfl⟩
  fin_cases a0 <;> fin_cases a1 <;> fin_cases b0 <;> fin_cases b1 <;> simp [rowMat, bitIdx]

/-- Two ancillas: the matrix with the first row (1, 4, 1, 0) and both qubits marked has the entry 4 at the upper left corner
afterwards, not 1. -/
theorem C38_nested_false : ∃ (h : PHist R) (e : PEdge R), PReach (Ex.PR R) h ∧ e ∈ h.held .m ∧ Valid (h.pkg.ut .m) 2 e ∧
    ∃ r, Moved (Ex.PR R) h .m 2 e (Pkg.reduceAncillae (Ex.PR R) h.pkg e [true, true] true) r ∧
      mat (r.1.ut .m) 2 r.2 ≠ ancMat [true, true] true (mat (h.pkg.ut .m) 2 e) := by
  have hC := Ex.PR_good R
  obtain ⟨h, e, hr, he, hv, hM⟩ := Ex.matrix_held (R := R) 2 (by decide) (rowMat 1 ⟨4, 0⟩ 1) rfl (by simp [rowMat])
  refine ⟨h, e, hr, he, hv, ?_⟩
  have hd := (hr.inv hC).wf.tab .m
  have hst := ancStep_spec (P := Ex.PR R) hC.growth [true, true] true
  have hx : ∀ lb, ∃ f, OpSpec (Ex.PR R) ∅ h.pkg .m 2 f (Pkg.reduceAncillaeRec (Ex.PR R) [true, true] true lb h.pkg e) :=
    fun lb => reduce_valid hC.growth hst false lb (hr.inv hC).wf hv
  choose F hF using hx
  obtain ⟨r, hm, hcs⟩ := anc_moved hC hr he hv [true, true] true (F := F) (fun lb _ _ => hF lb)
  refine ⟨r, hm, fun heq => ?_⟩
  -- the entries of the matrix
  have four : (⟨4, 0⟩ : Cx R) ≠ 0 := by
    intro h0
    have := congrArg Cx.re h0
    simp at this
  have hE : ∀ a b, amp (h.pkg.ut .m) 2 e (digs a b) = if a = ![0, 0] then if b = ![0, 0] then 1 else if b = ![1, 0] then ⟨4, 0⟩ else
      if b = ![0, 1] then 1 else 0 else 0 := fun a b => (congrFun (congrFun hM a) b).trans (rowMat_getD _ _ _ a b)
  have e00 : amp (h.pkg.ut .m) 2 e (digs ![0, 0] ![0, 0]) = 1 := by rw [hE, if_pos rfl, if_pos rfl]
  have e10 : amp (h.pkg.ut .m) 2 e (digs ![0, 0] ![1, 0]) = ⟨4, 0⟩ := by rw [hE]; simp
  have hw : e.w ≠ 0 := by
    intro h0
    rw [amp_w_zero h0] at e00
    exact zero_ne_one e00
  obtain ⟨a, hp, ha, hal⟩ := hv.exists_node hw
  have hal : ((h.pkg.ut .m).mem a).v = 1 := by omega
  have hch := fun i => hd.childAt ha hal i
  have hchild : ∀ i j x y, e.w * amp (h.pkg.ut .m) 1 (((h.pkg.ut .m).mem a).e (rc i j)) (digs ![x] ![y]) =
      amp (h.pkg.ut .m) 2 e (digs ![x, i] ![y, j]) := by
    intro i j x y
    rw [← amp_snoc hp, digs_snoc]
    congr 2 <;> funext z <;> fin_cases z <;> rfl
  have hone : ∀ d : Fin 1 → Fin 4, ∃ x y, d = digs ![x] ![y] := by
    intro d
    obtain ⟨⟨x, y⟩, rfl⟩ := (digsEquiv 1).surjective d
    exact ⟨x 0, y 0, by show digs x y = _; congr 1 <;> funext z <;> fin_cases z <;> rfl⟩
  -- the lower successors are zero
  have hz : ∀ j, (((h.pkg.ut .m).mem a).e (rc 1 j)).p = none := by
    intro j
    have := hd.canonical (hch (rc 1 j)) (valid_zeroE _ _) (fun d => by
      obtain ⟨x, y, rfl⟩ := hone d
      rw [amp_zeroE]
      have := hchild 1 j x y
      rw [hE, if_neg (by intro h0; have := congrFun h0 1; simp at this)] at this
      exact (mul_eq_zero.1 this).resolve_left hw)
    rw [this]; rfl
  -- the upper ones have different nodes
  have h01 : (((h.pkg.ut .m).mem a).e (rc 0 0)).p ≠ (((h.pkg.ut .m).mem a).e (rc 0 1)).p := by
    intro h0
    have w1 : (((h.pkg.ut .m).mem a).e (rc 0 1)).w ≠ 0 := by
      intro hw1
      have := hchild 0 1 0 0
      rw [amp_w_zero hw1, mul_zero, hE, if_pos rfl, if_neg (by decide), if_neg (by decide), if_pos rfl] at this
      exact zero_ne_one this
    have k1 := hchild 0 1 0 1
    have k0 := hchild 0 0 0 1
    rw [hE, if_pos rfl, if_neg (by decide), if_neg (by decide), if_neg (by decide)] at k1
    rw [e10] at k0
    rw [amp_eq_smul, ← h0] at k1
    have k1 := (mul_eq_zero.1 ((mul_eq_zero.1 k1).resolve_left hw)).resolve_left w1
    rw [amp_eq_smul, k1, mul_zero, mul_zero] at k0
    exact four k0.symm
  have hshare : ∀ i j, (((h.pkg.ut .m).mem a).e i).p = (((h.pkg.ut .m).mem a).e j).p → (((h.pkg.ut .m).mem a).e i).p ≠ none →
      (((h.pkg.ut .m).mem a).e i).w = (((h.pkg.ut .m).mem a).e j).w := by
    intro i j hij hne
    have z2 : (((h.pkg.ut .m).mem a).e 2).p = none := hz 0
    have z3 : (((h.pkg.ut .m).mem a).e 3).p = none := hz 1
    have n01 : (((h.pkg.ut .m).mem a).e 0).p ≠ (((h.pkg.ut .m).mem a).e 1).p := h01
    change Fin 4 at i j
    fin_cases i <;> fin_cases j <;> first
      | rfl
      | exact absurd hij n01
      | exact absurd hij.symm n01
      | exact absurd z2 hne
      | exact absurd z3 hne
      | exact absurd (hij.trans z2) hne
      | exact absurd (hij.trans z3) hne
  -- the recursion
  obtain ⟨t', x, c, ht', hvx, hxv, hcx, ho⟩ := reduceF_node (lb := 0) hC.growth hst (hr.inv hC).wf hv hp (Nat.zero_le _)
    (fun i s' hs' hext => by
      refine (reduceF_exact hC.growth hst one_ok 1 s' _ hs' ((hch i).mono (hext.le .m)) (le_refl 1)).congr fun d => ?_
      exact redSum_congr (fun d => amp_mono (hext.le .m) hd.child (hch i) d) d) hshare
  have hxa : ∀ i j x' y', amp t' 2 x (digs ![x', i] ![y', j]) = if y' = 0 then e.w⁻¹ * amp (h.pkg.ut .m) 2 e (digs ![x', i] ![y', j]) else 0 := by
    intro i j x' y'
    have e1 : (digs ![x', i] ![y', j] : Fin 2 → Fin 4) = Fin.snoc (α := fun _ => Fin 4) (digs ![x'] ![y']) (rc i j) := by
      rw [digs_snoc]; congr 1 <;> funext z <;> fin_cases z <;> rfl
    rw [← hchild, ← mul_assoc, inv_mul_cancel₀ hw, one_mul, e1, hxv, redSum_anc]
    unfold ancMat
    have : Raised [true, true] (if true then (![y'] : Fin 1 → Fin 2) else ![x']) ↔ y' ≠ 0 := by
      unfold Raised
      revert y'; simp
    by_cases hy : y' = 0
    · rw [if_neg (fun h0 => this.1 h0 hy), if_pos hy]
    · rw [if_pos (this.2 hy), if_neg hy]
  have htwo : ∀ d : Fin 2 → Fin 4, ∃ i j x' y', d = digs ![x', i] ![y', j] := by
    intro d
    obtain ⟨⟨x', y'⟩, rfl⟩ := (digsEquiv 2).surjective d
    exact ⟨x' 1, y' 1, x' 0, y' 0, by show digs x' y' = _; congr 1 <;> funext z <;> fin_cases z <;> rfl⟩
  have hc : c = x.w⁻¹ := by
    rcases hcx with hcx | hcx
    · exact hcx
    · exfalso
      have := hcx (digs ![0, 0] ![0, 1])
      rw [hxa, if_pos rfl, hE, if_pos rfl, if_neg (by decide), if_neg (by decide), if_pos rfl, mul_one,
        Finset.sum_eq_zero (fun j _ => if_neg ?_)] at this
      · exact inv_ne_zero hw this
      · change Fin 4 at j; revert j; decide
  have hxw : x.w = 0 ∨ x.w = e.w⁻¹ := by
    refine root_w ht' hvx (fun d => ?_) (by simp)
    obtain ⟨i, j, x', y', rfl⟩ := htwo d
    rw [hxa]
    by_cases hy : y' = 0
    · subst hy
      rw [if_pos rfl, hE]
      split_ifs with g1 g2 g3 g4
      · rw [mul_one]; exact Or.inr rfl
      · have := congrFun g3 0; simp at this
      · rw [mul_one]; exact Or.inr rfl
      · rw [mul_zero]; exact Or.inl rfl
      · rw [mul_zero]; exact Or.inl rfl
    · rw [if_neg hy]; exact Or.inl rfl
  have hx0 : x.w ≠ 0 := by
    intro h0
    have := hxa 0 0 0 0
    rw [amp_w_zero h0, if_pos rfl, e00, mul_one] at this
    exact inv_ne_zero hw this.symm
  rw [hxw.resolve_left hx0, inv_inv] at hc
  -- the upper left entry of the result is the weight of the edge, which is not 1
  rcases hcs with ⟨h1 | h1, _⟩ | ⟨lb, _, h2, _, h4, h5, h6⟩
  · exact hw h1
  · exact absurd (h1 0 (by decide)) (by decide)
  · have hlb : lb = 0 := by
      have : Pkg.lowerbound [true, true] = some 0 := rfl
      rw [this] at h2; exact (Option.some.inj h2).symm
    subst hlb
    have hlv : h.pkg.lv .m e = 2 := hv.lvl hw
    have hrec : Pkg.reduceAncillaeRec (Ex.PR R) [true, true] true 0 h.pkg e = Pkg.reduceF (Ex.PR R) .m false
        (Pkg.ancStep (Ex.PR R) [true, true] true) 0 2 h.pkg e := by
      unfold Pkg.reduceAncillaeRec; rw [hlv]
    have hnr : ∀ b : Bool, ¬ Raised [true, true] (if b then (![0, 0] : Fin 2 → Fin 2) else ![0, 0]) := by
      intro b
      unfold Raised
      cases b <;> decide
    have k := congrFun (congrFun heq ![0, 0]) ![0, 0]
    unfold ancMat at k
    rw [if_neg (hnr true)] at k
    change amp (r.1.ut .m) 2 r.2 (digs ![0, 0] ![0, 0]) = amp (h.pkg.ut .m) 2 e (digs ![0, 0] ![0, 0]) at k
    rw [e00, h4, (h5 .m _ _ (hF 0).valid).2, hrec, ho.val, redSum_anc] at k
    unfold ancMat at k
    rw [if_neg (hnr true)] at k
    dsimp only at k
    rw [show amp (h.pkg.ut .m) (1 + 1) e (digs ![0, 0] ![0, 0]) = 1 from e00, mul_one, hc] at k
    have := amp_le_root hd hv (digs ![0, 0] ![1, 0])
    rw [e10, k] at this
    simp [Cx.mag2] at this
    linarith

namespace Ex

/-- A permutation of the basis states (with a factor), one ancilla at the lowest qubit. -/
example : ∃ (h : PHist ℝ) (e : PEdge ℝ), PReach (PR ℝ) h ∧ e ∈ h.held .m ∧ Valid (h.pkg.ut .m) 2 e ∧
    (∀ a b, mat (h.pkg.ut .m) 2 e a b = 0 ∨ mat (h.pkg.ut .m) 2 e a b = ⟨0, 1⟩) ∧ mat (h.pkg.ut .m) 2 e ![0, 1] ![1, 0] = ⟨0, 1⟩ := by
  obtain ⟨h, e, hr, he, hv, hM⟩ := matrix_held (R := ℝ) 2 (by decide)
    [[⟨0, 1⟩, 0, 0, 0], [0, 0, ⟨0, 1⟩, 0], [0, ⟨0, 1⟩, 0, 0], [0, 0, 0, ⟨0, 1⟩]] rfl (by simp)
  refine ⟨h, e, hr, he, hv, ?_, ?_⟩
  · intro a b
    rw [hM]
    dsimp only
    generalize bitIdx a = i
    generalize bitIdx b = j
    rcases i with _ | _ | _ | _ | i <;> rcases j with _ | _ | _ | _ | j <;> simp
  · rw [hM]; simp [bitIdx]

/-- A matrix with different entries and no two proportional quadrants. -/
example : ∃ (h : PHist ℝ) (e : PEdge ℝ), PReach (PR ℝ) h ∧ e ∈ h.held .m ∧ Valid (h.pkg.ut .m) 2 e ∧
    DistinctQuadrants 0 2 (mat (h.pkg.ut .m) 2 e) := by
  obtain ⟨h, e, hr, he, hv, hM⟩ := matrix_held (R := ℝ) 2 (by decide)
    [[⟨2, 0⟩, 0, 0, ⟨3, 0⟩], [0, 0, 0, 0], [0, 0, 0, 0], [⟨5, 0⟩, 0, 0, ⟨7, 0⟩]] rfl (by simp)
  refine ⟨h, e, hr, he, hv, ?_⟩
  rw [hM]
  refine Or.inr ⟨fun i j => Or.inr ⟨fun _ _ => trivial, fun h0 => absurd h0 (by decide)⟩, fun _ i j i' j' c hc hb => ?_⟩
  have b00 := hb ![0] ![0]
  have b01 := hb ![0] ![1]
  have b10 := hb ![1] ![0]
  have b11 := hb ![1] ![1]
  clear hb
  have s : ∀ (x i : Fin 2), (Fin.snoc (α := fun _ => Fin 2) (![x] : Fin 1 → Fin 2) i : Fin 2 → Fin 2) = ![x, i] := by decide
  unfold blk at b00 b01 b10 b11
  simp only [s] at b00 b01 b10 b11
  have two : (⟨2, 0⟩ : Cx ℝ) ≠ 0 := fun h0 => by simpa using congrArg Cx.re h0
  have three : (⟨3, 0⟩ : Cx ℝ) ≠ 0 := fun h0 => by simpa using congrArg Cx.re h0
  have five : (⟨5, 0⟩ : Cx ℝ) ≠ 0 := fun h0 => by simpa using congrArg Cx.re h0
  have seven : (⟨7, 0⟩ : Cx ℝ) ≠ 0 := fun h0 => by simpa using congrArg Cx.re h0
  fin_cases i <;> fin_cases j <;> fin_cases i' <;> fin_cases j' <;> first
    | rfl
    | (exfalso; simp [bitIdx, two, three, five, seven, hc] at b00 b01 b10 b11)

/-- The hypotheses of `C38_shared_false`: Z on the upper and the identity on the lower qubit, which is an ancilla. -/
example : ∃ (h : PHist ℝ) (e : PEdge ℝ), PReach (PR ℝ) h ∧ e ∈ h.held .m ∧ Valid (h.pkg.ut .m) 2 e ∧
    (∀ a b, blk (mat (h.pkg.ut .m) 2 e) 1 1 a b = (-1) * blk (mat (h.pkg.ut .m) 2 e) 0 0 a b) ∧
    blk (ancMat [true, false] true (mat (h.pkg.ut .m) 2 e)) 0 0 ≠ 0 := by
  obtain ⟨h, e, hr, he, hv, hM⟩ := matrix_held (R := ℝ) 2 (by decide)
    [[1, 0, 0, 0], [0, 1, 0, 0], [0, 0, -1, 0], [0, 0, 0, -1]] rfl (by simp)
  refine ⟨h, e, hr, he, hv, ?_, ?_⟩
  · intro a b
    obtain ⟨x, rfl⟩ : ∃ x, a = ![x] := ⟨a 0, by funext i; fin_cases i; rfl⟩
    obtain ⟨y, rfl⟩ : ∃ y, b = ![y] := ⟨b 0, by funext i; fin_cases i; rfl⟩
    unfold blk
    have s : ∀ (x i : Fin 2), (Fin.snoc (α := fun _ => Fin 2) (![x] : Fin 1 → Fin 2) i : Fin 2 → Fin 2) = ![x, i] := by decide
    rw [hM]
    simp only [s]
    fin_cases x <;> fin_cases y <;> simp [bitIdx]
  · intro h0
    have := congrFun (congrFun h0 ![0]) ![0]
    have s : ∀ (x i : Fin 2), (Fin.snoc (α := fun _ => Fin 2) (![x] : Fin 1 → Fin 2) i : Fin 2 → Fin 2) = ![x, i] := by decide
    unfold blk ancMat at this
    rw [if_neg (by unfold Raised; simp only [s]; decide), hM] at this
    simp only [s] at this
    simp [bitIdx] at this

end Ex

end DD
