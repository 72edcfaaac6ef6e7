import Verif.Proofs.RefCount

/-!
# The invariant of the unique table over arbitrary call sequences
-/

namespace DD
open UTable

variable {W : Type} {n : Nat}

/-- The configuration is sensible: positive sizes and at least one reference can be counted. -/
structure UCfg.Good (C : UCfg) : Prop where
  initAlloc : 0 < C.initAlloc
  growth : 0 < C.growth
  maxRef : 0 < C.maxRef

theorem UCfg.default_good : UCfg.Good UCfg.default := by
  constructor <;> decide +kernel

/-- Number of held references to the node at `a`. -/
def heldCnt (L : List (Edge W)) (a : Nat) : Nat := L.countP (fun e => e.p = some a)

/-- Number of held edges with weight `w`. -/
def heldW [DecidableEq W] (L : List (Edge W)) (w : W) : Nat := L.countP (fun e => e.w = w)

/-- The invariant. -/
structure UInv [DecidableEq W] (H : (Fin n → Edge W) → Nat) (C : UCfg) (s : UHist W n) : Prop where
  uwf : UWF H s.tab
  closed : Closed s.tab
  held : ∀ e ∈ s.held, ∀ b, e.p = some b → b ∈ s.tab.all
  ginv : GInv C s.tab (fun _ => 0) (heldCnt s.held)
  wref : ∀ w, s.wref w = heldW s.held w + s.tab.parW w
  act : ∀ v, s.tab.active v = s.tab.act v
  actAll : s.tab.activeNodeCount = s.tab.actAll

theorem sum_all_nil {t : UTable W n} (h : t.all = []) (F : Nat → Nat) : (∑ b ∈ t.all.toFinset, F b) = 0 := by
  rw [h]; rfl

theorem heldCnt_cons (e : Edge W) (L : List (Edge W)) (a : Nat) : heldCnt (e :: L) a = heldCnt L a + dlt e a := by
  simp [heldCnt, dlt, List.countP_cons]

theorem heldW_cons [DecidableEq W] (e : Edge W) (L : List (Edge W)) (w : W) :
    heldW (e :: L) w = heldW L w + (if e.w = w then 1 else 0) := by
  simp [heldW, List.countP_cons]

theorem heldCnt_erase [DecidableEq W] {e : Edge W} {L : List (Edge W)} (h : e ∈ L) (a : Nat) :
    heldCnt L a = heldCnt (L.erase e) a + dlt e a := by
  rw [← heldCnt_cons]
  exact (List.perm_cons_erase h).countP_eq _

theorem heldW_erase [DecidableEq W] {e : Edge W} {L : List (Edge W)} (h : e ∈ L) (w : W) :
    heldW L w = heldW (L.erase e) w + (if e.w = w then 1 else 0) := by
  rw [← heldW_cons]
  exact (List.perm_cons_erase h).countP_eq _

/-- `mkNodeBy`: the new table keeps all stored nodes; the result has the requested contents, up to the comparison. -/
theorem mkNodeBy_spec {same : (Fin n → Edge W) → (Fin n → Edge W) → Bool} (hsame : ∀ es, same es es = true) {H : (Fin n → Edge W) → Nat} {C : UCfg} (hC : 0 < C.growth) {t : UTable W n}
    (h : UWF H t) (v : Nat) (es : Fin n → Edge W) (ident symm : Bool) (hv : v < t.nvars) :
    let r := t.mkNodeBy same H C v es ident symm
    UWF H r.1 ∧ r.1.nvars = t.nvars ∧ r.1.nbucket = t.nbucket ∧ (∀ a ∈ t.all, r.1.mem a = t.mem a) ∧
      r.1.active = t.active ∧ r.1.activeNodeCount = t.activeNodeCount ∧ r.1.gcLimit = t.gcLimit ∧
      (r.1.mem r.2).v = v ∧ same (r.1.mem r.2).e es = true ∧
      ((r.2 ∈ t.all ∧ r.1.all = t.all) ∨
       (r.2 ∉ t.all ∧ r.1.all.Perm (r.2 :: t.all) ∧ r.1.mem r.2 = ⟨v, es, 0, ident, symm⟩ ∧
        ∀ q ∈ t.all, (t.mem q).v = v → (t.mem q).e ≠ es)) := by
  intro r
  obtain ⟨hw, hf, hna, hall, hch, hnv, hnb, hmem, hbrk, href⟩ := getNode_spec hC h
  have hact : (t.getNode C).1.active = t.active ∧ (t.getNode C).1.activeNodeCount = t.activeNodeCount ∧
      (t.getNode C).1.gcLimit = t.gcLimit := by
    unfold getNode; split
    · exact ⟨rfl, rfl, rfl⟩
    · dsimp only; split <;> exact ⟨rfl, rfl, rfl⟩
  set t1 := (t.getNode C).1 with ht1
  set a := (t.getNode C).2 with ha
  have hr : r = (t1.setMem a ⟨v, es, (t1.mem a).ref, ident, symm⟩).lookupBy same H a := rfl
  rw [href] at hr
  set t2 := t1.setMem a ⟨v, es, 0, ident, symm⟩ with ht2
  have hw2 : UWF H t2 := hw.setMem hf.2.1 _ rfl
  have hf2 : Fresh t2 a := hf
  have ha2 : t2.mem a = ⟨v, es, 0, ident, symm⟩ := by simp [ht2, setMem]
  have hmem2 : ∀ b ∈ t.all, t2.mem b = t.mem b := by
    intro b hb
    have : b ≠ a := fun e => hna (e ▸ hb)
    simp [ht2, setMem, this, hmem]
  have hall2 : t2.all = t.all := hall
  obtain ⟨l1, l2, l3, l4, l5, l6, l7, l8⟩ := lookupBy_spec hsame hw2 hf2 (by rw [ha2]; show v < t1.nvars; rw [hnv]; exact hv)
  have hact2 : (t2.lookupBy same H a).1.active = t2.active ∧ (t2.lookupBy same H a).1.activeNodeCount = t2.activeNodeCount ∧
      (t2.lookupBy same H a).1.gcLimit = t2.gcLimit := by
    unfold lookupBy; dsimp only; split
    · dsimp only; split <;> exact ⟨rfl, rfl, rfl⟩
    · exact ⟨rfl, rfl, rfl⟩
  rw [← hr] at l1 l2 l3 l4 l5 l6 l7 l8 hact2
  rw [ha2] at l6 l7
  refine ⟨l1, l3.trans hnv, l4.trans hnb, ?_, hact2.1.trans hact.1, hact2.2.1.trans hact.2.1,
    hact2.2.2.trans hact.2.2, ?_, ?_, ?_⟩
  · intro b hb; rw [l2]; exact hmem2 b hb
  · rw [l2]; exact l7
  · rw [l2]; exact l6
  · rcases l8 with ⟨h1, h2, h3⟩ | ⟨h1, h2, h3⟩
    · left; exact ⟨hall2 ▸ h1, h3.trans hall2⟩
    · right
      refine ⟨h1 ▸ hna, by rw [h1, ← hall2]; exact h2, by rw [l2, h1]; exact ha2, ?_⟩
      intro q hq hqv
      have := h3 q (hall2 ▸ hq)
      rw [ha2, hmem2 q hq] at this
      exact this hqv

/-- `mkNode`: the new table keeps all stored nodes; the result has the requested contents. -/
theorem mkNode_spec [DecidableEq W] {H : (Fin n → Edge W) → Nat} {C : UCfg} (hC : 0 < C.growth) {t : UTable W n}
    (h : UWF H t) (v : Nat) (es : Fin n → Edge W) (ident symm : Bool) (hv : v < t.nvars) :
    let r := t.mkNode H C v es ident symm
    UWF H r.1 ∧ r.1.nvars = t.nvars ∧ r.1.nbucket = t.nbucket ∧ (∀ a ∈ t.all, r.1.mem a = t.mem a) ∧
      r.1.active = t.active ∧ r.1.activeNodeCount = t.activeNodeCount ∧ r.1.gcLimit = t.gcLimit ∧
      (r.1.mem r.2).v = v ∧ (r.1.mem r.2).e = es ∧
      ((r.2 ∈ t.all ∧ r.1.all = t.all) ∨
       (r.2 ∉ t.all ∧ r.1.all.Perm (r.2 :: t.all) ∧ r.1.mem r.2 = ⟨v, es, 0, ident, symm⟩ ∧
        ∀ q ∈ t.all, (t.mem q).v = v → (t.mem q).e ≠ es)) := by
  have := mkNodeBy_spec (same := fun x y => decide (x = y)) (fun _ => decide_eq_true rfl) hC h v es ident symm hv
  simp only [decide_eq_true_eq] at this
  exact this

/-- Sums over referenced stored nodes do not change when an unreferenced node is added. -/
theorem mkNodeBy_sum {same : (Fin n → Edge W) → (Fin n → Edge W) → Bool} (hsame : ∀ es, same es es = true) {H : (Fin n → Edge W) → Nat} {C : UCfg} (hC : 0 < C.growth) {t : UTable W n}
    (h : UWF H t) (v : Nat) (es : Fin n → Edge W) (ident symm : Bool) (hv : v < t.nvars)
    (F : (Fin n → Edge W) → Nat → Nat) :
    (∑ b ∈ (t.mkNodeBy same H C v es ident symm).1.all.toFinset,
      if 0 < ((t.mkNodeBy same H C v es ident symm).1.mem b).ref then
        F ((t.mkNodeBy same H C v es ident symm).1.mem b).e ((t.mkNodeBy same H C v es ident symm).1.mem b).v else 0) =
    ∑ b ∈ t.all.toFinset, if 0 < (t.mem b).ref then F (t.mem b).e (t.mem b).v else 0 := by
  obtain ⟨_, _, _, hm, _, _, _, _, _, hcase⟩ := mkNodeBy_spec hsame hC h v es ident symm hv
  set r := t.mkNodeBy same H C v es ident symm with hr
  rcases hcase with ⟨_, h2⟩ | ⟨h1, h2, h3, _⟩
  · rw [h2]
    apply Finset.sum_congr rfl
    intro b hb
    rw [hm b (List.mem_toFinset.1 hb)]
  · have : r.1.all.toFinset = insert r.2 t.all.toFinset := by
      ext b; simp [h2.mem_iff]
    rw [this, Finset.sum_insert (by simpa using h1), h3]
    simp only [lt_self_iff_false, if_false, zero_add]
    apply Finset.sum_congr rfl
    intro b hb
    rw [hm b (List.mem_toFinset.1 hb)]

theorem mkNode_sum [DecidableEq W] {H : (Fin n → Edge W) → Nat} {C : UCfg} (hC : 0 < C.growth) {t : UTable W n}
    (h : UWF H t) (v : Nat) (es : Fin n → Edge W) (ident symm : Bool) (hv : v < t.nvars)
    (F : (Fin n → Edge W) → Nat → Nat) :
    (∑ b ∈ (t.mkNode H C v es ident symm).1.all.toFinset,
      if 0 < ((t.mkNode H C v es ident symm).1.mem b).ref then
        F ((t.mkNode H C v es ident symm).1.mem b).e ((t.mkNode H C v es ident symm).1.mem b).v else 0) =
    ∑ b ∈ t.all.toFinset, if 0 < (t.mem b).ref then F (t.mem b).e (t.mem b).v else 0 :=
  mkNodeBy_sum (same := fun x y => decide (x = y)) (fun _ => decide_eq_true rfl) hC h v es ident symm hv F

theorem gc_all_run (C : UCfg) (t : UTable W n) (force : Bool)
    (hcond : ¬ ((!force && decide (t.nodeCount < t.gcLimit)) || decide (t.nodeCount = 0)) = true) :
    (t.garbageCollect C force).1.all = t.all.filter (fun a => !decide ((t.mem a).ref = 0)) := by
  unfold garbageCollect; rw [if_neg hcond]
  show t.buckets.flatMap (fun b => if b ∈ t.buckets then (t.chain b).filter (fun a => !decide ((t.mem a).ref = 0))
    else t.chain b) = (t.buckets.flatMap t.chain).filter _
  rw [← flatMap_filter]
  apply List.flatMap_congr
  intro b hb
  simp [hb]

/-- Stored nodes after garbage collection. -/
theorem gc_all (C : UCfg) (t : UTable W n) (force : Bool) :
    (t.garbageCollect C force).1.all = t.all ∨
    (t.garbageCollect C force).1.all = t.all.filter (fun a => !decide ((t.mem a).ref = 0)) := by
  by_cases hcond : ((!force && decide (t.nodeCount < t.gcLimit)) || decide (t.nodeCount = 0)) = true
  · left; unfold garbageCollect; rw [if_pos hcond]
  · exact Or.inr (gc_all_run C t force hcond)

theorem gc_mem (C : UCfg) (t : UTable W n) (force : Bool) : (t.garbageCollect C force).1.mem = t.mem := by
  unfold garbageCollect; split <;> rfl

theorem gc_keeps (C : UCfg) (t : UTable W n) (force : Bool) {a : Nat} (ha : a ∈ t.all) (hr : (t.mem a).ref ≠ 0) :
    a ∈ (t.garbageCollect C force).1.all := by
  rcases gc_all C t force with h | h
  · rw [h]; exact ha
  · rw [h]; simp [ha, hr]

theorem gc_subset (C : UCfg) (t : UTable W n) (force : Bool) {a : Nat} (ha : a ∈ (t.garbageCollect C force).1.all) :
    a ∈ t.all := by
  rcases gc_all C t force with h | h
  · rwa [h] at ha
  · rw [h] at ha; exact (List.mem_filter.1 ha).1

theorem gc_UWF {H : (Fin n → Edge W) → Nat} (C : UCfg) {t : UTable W n} (h : UWF H t) (force : Bool) :
    UWF H (t.garbageCollect C force).1 := by
  have hmemeq := gc_mem C t force
  have hsub : ∀ {a}, a ∈ (t.garbageCollect C force).1.all → a ∈ t.all := fun ha => gc_subset C t force ha
  by_cases hcond : ((!force && decide (t.nodeCount < t.gcLimit)) || decide (t.nodeCount = 0)) = true
  · have : (t.garbageCollect C force).1 = t := by unfold garbageCollect; rw [if_pos hcond]
    rw [this]; exact h
  · have hall : (t.garbageCollect C force).1.all = t.all.filter (fun a => !decide ((t.mem a).ref = 0)) := by
      exact gc_all_run C t force hcond
    have hav : (t.garbageCollect C force).1.avail =
        (t.all.filter (fun a => decide ((t.mem a).ref = 0))).reverse ++ t.avail := by
      unfold garbageCollect; rw [if_neg hcond]
    have hcnt : (t.garbageCollect C force).1.nodeCount =
        (t.all.filter (fun a => !decide ((t.mem a).ref = 0))).length := by
      unfold garbageCollect; rw [if_neg hcond]
    have hbrk : (t.garbageCollect C force).1.brk = t.brk := by
      unfold garbageCollect; rw [if_neg hcond]
    have hchain : ∀ b, ∀ a ∈ (t.garbageCollect C force).1.chain b, a ∈ t.chain b := by
      unfold garbageCollect; rw [if_neg hcond]
      intro b a ha
      dsimp only at ha
      split at ha
      · exact (List.mem_filter.1 ha).1
      · exact ha
    have hnv : (t.garbageCollect C force).1.nvars = t.nvars := by
      unfold garbageCollect; rw [if_neg hcond]
    have hnb : (t.garbageCollect C force).1.nbucket = t.nbucket := by
      unfold garbageCollect; rw [if_neg hcond]
    have hal : (t.garbageCollect C force).1.allocations = t.allocations := by
      unfold garbageCollect; rw [if_neg hcond]
    have has : (t.garbageCollect C force).1.allocationSize = t.allocationSize := by
      unfold garbageCollect; rw [if_neg hcond]
    refine ⟨hnb ▸ h.nb, ?_, ?_, ?_, ?_, ?_, ?_, ?_, ?_, ?_, ?_, ?_⟩
    · rw [hall]; exact h.nodup.filter _
    · rw [hav, List.nodup_append]
      refine ⟨List.nodup_reverse.2 (h.nodup.filter _), h.availNodup, ?_⟩
      intro a ha b hb hab
      subst hab
      exact h.disj a (List.mem_filter.1 (List.mem_reverse.1 ha)).1 hb
    · intro a ha
      rw [hav]
      intro hm
      rw [hall] at ha
      obtain ⟨h1, h2⟩ := List.mem_filter.1 ha
      rcases List.mem_append.1 hm with h3 | h3
      · have := (List.mem_filter.1 (List.mem_reverse.1 h3)).2
        simp_all
      · exact h.disj a h1 h3
    · intro a ha; rw [hbrk]; exact h.allLt a (hsub ha)
    · intro a ha
      rw [hbrk]; rw [hav] at ha
      rcases List.mem_append.1 ha with h3 | h3
      · exact h.allLt a (List.mem_filter.1 (List.mem_reverse.1 h3)).1
      · exact h.availLt a h3
    · rw [hbrk, hal]; exact h.brkLe
    · rw [has]; exact h.szPos
    · intro v k a ha
      have := h.bucket v k a (hchain _ a ha)
      rw [hnv, hnb, hmemeq]
      simpa [UTable.key, hnb] using this
    · intro a ha b hb
      rw [hmemeq]
      exact h.uniq a (hsub ha) b (hsub hb)
    · rw [hcnt, hall]
    · intro a ha
      rw [hmemeq]
      by_cases hm : a ∈ t.all
      · by_contra hr
        exact ha (gc_keeps C t force hm hr)
      · exact h.refZero a hm

theorem gc_sum (C : UCfg) (t : UTable W n) (force : Bool) (F : (Fin n → Edge W) → Nat → Nat) :
    (∑ b ∈ (t.garbageCollect C force).1.all.toFinset,
      if 0 < ((t.garbageCollect C force).1.mem b).ref then
        F ((t.garbageCollect C force).1.mem b).e ((t.garbageCollect C force).1.mem b).v else 0) =
    ∑ b ∈ t.all.toFinset, if 0 < (t.mem b).ref then F (t.mem b).e (t.mem b).v else 0 := by
  rw [gc_mem]
  apply Finset.sum_subset
  · intro a ha
    exact List.mem_toFinset.2 (gc_subset C t force (List.mem_toFinset.1 ha))
  · intro a ha hna
    rw [if_neg]
    intro hpos
    exact hna (List.mem_toFinset.2 (gc_keeps C t force (List.mem_toFinset.1 ha) (by omega)))

/-- A child of a referenced stored node is counted. -/
theorem par_pos {t : UTable W n} {a b : Nat} {i : Fin n} (ha : a ∈ t.all) (hr : 0 < (t.mem a).ref)
    (hb : ((t.mem a).e i).p = some b) : 0 < t.par b := by
  unfold UTable.par
  refine lt_of_lt_of_le ?_ (Finset.single_le_sum (fun _ _ => Nat.zero_le _) (List.mem_toFinset.2 ha))
  rw [if_pos hr]
  unfold cntL
  rw [List.countP_pos_iff]
  exact ⟨i, List.mem_finRange i, by simp [hb]⟩

theorem heldCnt_pos {L : List (Edge W)} {e : Edge W} {a : Nat} (he : e ∈ L) (ha : e.p = some a) : 0 < heldCnt L a := by
  unfold heldCnt
  rw [List.countP_pos_iff]
  exact ⟨e, he, by simp [ha]⟩

theorem UInv.child_ref [DecidableEq W] {H : (Fin n → Edge W) → Nat} {C : UCfg} (hC : C.Good) {s : UHist W n}
    (h : UInv H C s) {a b : Nat} {i : Fin n} (ha : a ∈ s.tab.all) (hr : 0 < (s.tab.mem a).ref)
    (hb : ((s.tab.mem a).e i).p = some b) : 0 < (s.tab.mem b).ref := by
  have h1 := par_pos ha hr hb
  have hba := (h.closed a ha i b hb).1
  rcases h.ginv b hba with h2 | h2
  · rw [h2]; exact hC.maxRef
  · beta_reduce at h2; omega

theorem UInv.held_ref [DecidableEq W] {H : (Fin n → Edge W) → Nat} {C : UCfg} (hC : C.Good) {s : UHist W n}
    (h : UInv H C s) {e : Edge W} {a : Nat} (he : e ∈ s.held) (ha : e.p = some a) : 0 < (s.tab.mem a).ref := by
  have h1 := heldCnt_pos he ha
  rcases h.ginv a (h.held e he a ha) with h2 | h2
  · rw [h2]; exact hC.maxRef
  · beta_reduce at h2; omega

theorem UInv.dec_exists [DecidableEq W] {H : (Fin n → Edge W) → Nat} {C : UCfg} (hC : C.Good) {s : UHist W n}
    (h : UInv H C s) {e : Edge W} (he : e ∈ s.held) :
    ∃ r, s.tab.decRef C e = some r ∧
      DecSpec C s.tab e (fun _ => 0) (heldCnt (s.held.erase e)) (fun _ => 0) 0 r.1 r.2 := by
  apply decRefF_spec C hC.maxRef
  · exact h.closed
  · intro b hb
    refine ⟨h.held e he b hb, ?_⟩
    simp [UTable.lvl, hb]
  · intro; rfl
  · intro a ha
    have := h.ginv a ha
    rw [heldCnt_erase he] at this
    exact this
  · intro v; simpa using h.act v
  · simpa using h.actAll

/-- Enlarging the table only changes the number of levels. -/
theorem UInv.resize_eq [DecidableEq W] {H : (Fin n → Edge W) → Nat} {C : UCfg} {s : UHist W n} (h : UInv H C s) {nq : Nat}
    (hn : s.tab.nvars ≤ nq) : s.tab.resize nq = { s.tab with nvars := nq } := by
  have hc : (fun b : Nat × Nat => if b.1 < s.tab.nvars ∧ b.1 < nq then s.tab.chain b else []) = s.tab.chain := by
    funext b
    split_ifs with hb
    · rfl
    · cases hch : s.tab.chain b with
      | nil => rfl
      | cons a L =>
        have := h.uwf.bucket b.1 b.2 a (by rw [hch]; exact List.mem_cons_self)
        omega
  have hz : ∀ v, s.tab.nvars ≤ v → s.tab.active v = 0 := by
    intro v hv
    rw [h.act v, UTable.act]
    apply Finset.sum_eq_zero
    intro b hb
    have := (h.uwf.mem_bucket (List.mem_toFinset.1 hb)).1
    rw [if_neg (show ¬ (s.tab.mem b).v = v by omega), ite_self]
  have ha : (fun v => if v < s.tab.nvars ∧ v < nq then s.tab.active v else 0) = s.tab.active := by
    funext v
    split_ifs with hv
    · rfl
    · rw [hz v (by omega)]
  have hs : ((List.range nq).map s.tab.active).sum = s.tab.activeNodeCount := by
    rw [h.actAll, UTable.actAll, ← List.sum_toFinset _ List.nodup_range,
      show (List.range nq).toFinset = Finset.range nq by ext; simp,
      Finset.sum_congr rfl (fun v _ => h.act v)]
    unfold UTable.act
    rw [Finset.sum_comm]
    refine Finset.sum_congr rfl fun b hb => ?_
    have := (h.uwf.mem_bucket (List.mem_toFinset.1 hb)).1
    split_ifs
    · rw [Finset.sum_ite_eq, if_pos (by rw [Finset.mem_range]; omega)]
    · exact Finset.sum_const_zero
  unfold UTable.resize
  dsimp only
  rw [hc, ha, hs]

theorem all_nvars {H : (Fin n → Edge W) → Nat} {t : UTable W n} (h : UWF H t) {nq : Nat} (hn : t.nvars ≤ nq) :
    ({ t with nvars := nq } : UTable W n).all = t.all := by
  obtain ⟨m, rfl⟩ : ∃ m, nq = t.nvars + m := ⟨nq - t.nvars, by omega⟩
  unfold UTable.all UTable.buckets
  dsimp only
  rw [List.range_add]
  have hp : ((List.range t.nvars ++ (List.range m).map (t.nvars + ·)) ×ˢ List.range t.nbucket : List (Nat × Nat)) =
      (List.range t.nvars ×ˢ List.range t.nbucket) ++ (((List.range m).map (t.nvars + ·)) ×ˢ List.range t.nbucket) := by
    show List.flatMap _ _ = List.flatMap _ _ ++ List.flatMap _ _
    rw [List.flatMap_append]
  rw [hp, List.flatMap_append]
  have h0 : (((List.range m).map (t.nvars + ·)) ×ˢ List.range t.nbucket : List (Nat × Nat)).flatMap t.chain = [] := by
    rw [List.flatMap_eq_nil_iff]
    rintro ⟨v, k⟩ hb
    rw [List.mem_product] at hb
    obtain ⟨i, _, hi⟩ := List.mem_map.1 hb.1
    cases hch : t.chain (v, k) with
    | nil => rfl
    | cons a L =>
      have := (h.bucket v k a (by rw [hch]; exact List.mem_cons_self)).1
      omega
  rw [h0, List.append_nil]

theorem uwf_nvars_le {H : (Fin n → Edge W) → Nat} {t : UTable W n} (h : UWF H t) {nq : Nat} (hn : t.nvars ≤ nq) :
    UWF H { t with nvars := nq } := by
  have hall := all_nvars h hn
  exact ⟨h.nb, by rw [hall]; exact h.nodup, h.availNodup, by rw [hall]; exact h.disj, by rw [hall]; exact h.allLt, h.availLt,
    h.brkLe, h.szPos, fun v k a ha => ⟨lt_of_lt_of_le (h.bucket v k a ha).1 hn, (h.bucket v k a ha).2⟩,
    by rw [hall]; exact h.uniq, by rw [hall]; exact h.count, by rw [hall]; exact h.refZero⟩

theorem UInv.nvars_le [DecidableEq W] {H : (Fin n → Edge W) → Nat} {C : UCfg} {s : UHist W n} (h : UInv H C s) {nq : Nat}
    (hn : s.tab.nvars ≤ nq) : UInv H C { s with tab := { s.tab with nvars := nq } } := by
  have hall := all_nvars h.uwf hn
  refine ⟨(uwf_nvars_le h.uwf hn), ?_, ?_, ?_, ?_, ?_, ?_⟩
  · intro a ha; dsimp only at ha ⊢; rw [hall] at ha ⊢; exact h.closed a ha
  · intro e he b hb; dsimp only; rw [hall]; exact h.held e he b hb
  · intro a ha
    dsimp only at ha
    rw [hall] at ha
    have := h.ginv a ha
    unfold UTable.par at this ⊢
    dsimp only
    rw [hall]
    exact this
  · intro w
    have := h.wref w
    unfold UTable.parW at this ⊢
    dsimp only
    rw [hall]
    exact this
  · intro v
    have := h.act v
    unfold UTable.act at this ⊢
    dsimp only
    rw [hall]
    exact this
  · have := h.actAll
    unfold UTable.actAll at this ⊢
    dsimp only
    rw [hall]
    exact this

theorem UInv.mkBy [DecidableEq W] {H : (Fin n → Edge W) → Nat} {C : UCfg} (hC : C.Good) {s : UHist W n} (h : UInv H C s)
    {same : (Fin n → Edge W) → (Fin n → Edge W) → Bool} (hsame : ∀ es, same es es = true) {v : Nat} {es : Fin n → Edge W}
    {ident symm : Bool} (hv : v < s.tab.nvars) (hes : ∀ i b, (es i).p = some b → b ∈ s.tab.all ∧ (s.tab.mem b).v < v) :
    UInv H C { s with tab := (s.tab.mkNodeBy same H C v es ident symm).1 } := by
  obtain ⟨w1, w2, w3, hm, ha1, ha2, _, hv', he', hcase⟩ := mkNodeBy_spec hsame hC.growth h.uwf v es ident symm hv
  have hsum := fun F => mkNodeBy_sum hsame hC.growth h.uwf v es ident symm hv F
  set r := s.tab.mkNodeBy same H C v es ident symm with hr
  have hsub : ∀ a ∈ s.tab.all, a ∈ r.1.all := by
    intro a ha
    rcases hcase with ⟨_, h2⟩ | ⟨_, h2, _⟩
    · rwa [h2]
    · exact h2.symm.mem_iff.1 (List.mem_cons_of_mem _ ha)
  have hold : ∀ a ∈ r.1.all, a ∈ s.tab.all ∨ (a = r.2 ∧ r.1.mem r.2 = ⟨v, es, 0, ident, symm⟩ ∧ a ∉ s.tab.all) := by
    intro a ha
    rcases hcase with ⟨_, h2⟩ | ⟨h1, h2, h3, _⟩
    · left; rwa [h2] at ha
    · rcases List.mem_cons.1 (h2.mem_iff.1 ha) with h4 | h4
      · right; exact ⟨h4, h3, h4 ▸ h1⟩
      · left; exact h4
  have hpar : ∀ a, r.1.par a = s.tab.par a := fun a => hsum (fun es _ => cntL es (List.finRange n) a)
  refine ⟨w1, ?_, ?_, ?_, ?_, ?_, ?_⟩
  · intro a ha i b hb
    rcases hold a ha with h1 | ⟨h1, h2, _⟩
    · have hb' : ((s.tab.mem a).e i).p = some b := by
        have : r.1.mem a = s.tab.mem a := hm a h1
        simpa [this] using hb
      obtain ⟨c1, c2⟩ := h.closed a h1 i b hb'
      refine ⟨hsub b c1, ?_⟩
      show (r.1.mem b).v < (r.1.mem a).v
      rw [hm a h1, hm b c1]; exact c2
    · subst h1
      have hb' : (es i).p = some b := by simpa [h2] using hb
      obtain ⟨c1, c2⟩ := hes i b hb'
      refine ⟨hsub b c1, ?_⟩
      show (r.1.mem b).v < (r.1.mem r.2).v
      rw [h2, hm b c1]; exact c2
  · intro e he b hb
    exact hsub b (h.held e he b hb)
  · intro a ha
    show (r.1.mem a).ref = _ ∨ (r.1.mem a).ref + 0 = heldCnt s.held a + r.1.par a
    rw [hpar]
    rcases hold a ha with h1 | ⟨h1, h2, h3⟩
    · rw [hm a h1]; exact h.ginv a h1
    · right
      subst h1
      rw [h2]
      have hz1 : heldCnt s.held r.2 = 0 := by
        unfold heldCnt
        rw [List.countP_eq_zero]
        intro e he hp
        exact h3 (h.held e he _ (by simpa using hp))
      have hz2 : s.tab.par r.2 = 0 := by
        unfold UTable.par
        apply Finset.sum_eq_zero
        intro b hb
        split
        · unfold cntL
          rw [List.countP_eq_zero]
          intro i _ hp
          exact h3 (h.closed b (List.mem_toFinset.1 hb) i _ (by simpa using hp)).1
        · rfl
      rw [hz1, hz2]
  · intro w
    show s.wref w = heldW s.held w + r.1.parW w
    rw [h.wref w]
    congr 1
    exact (hsum (fun es _ => cntWL es (List.finRange n) w)).symm
  · intro u
    show r.1.active u = r.1.act u
    rw [ha1, h.act u]
    exact (hsum (fun _ x => if x = u then 1 else 0)).symm
  · show r.1.activeNodeCount = r.1.actAll
    rw [ha2, h.actAll]
    exact (hsum (fun _ _ => 1)).symm

/-- Changes of the free cells only. -/
theorem UInv.cells [DecidableEq W] {H : (Fin n → Edge W) → Nat} {C : UCfg} {s : UHist W n} (h : UInv H C s) {t : UTable W n}
    (hw : UWF H t) (ha : t.all = s.tab.all) (hm : t.mem = s.tab.mem) (h1 : t.active = s.tab.active)
    (h2 : t.activeNodeCount = s.tab.activeNodeCount) : UInv H C { s with tab := t } := by
  refine ⟨hw, ?_, ?_, ?_, ?_, ?_, ?_⟩
  · intro a h3; dsimp only at h3 ⊢; rw [ha] at h3 ⊢; rw [hm]; exact h.closed a h3
  · intro e he; dsimp only; rw [ha]; exact h.held e he
  · intro a h3
    dsimp only at h3 ⊢
    rw [ha] at h3
    have := h.ginv a h3
    unfold UTable.par at this ⊢
    rw [ha, hm]; exact this
  · intro w
    have := h.wref w
    unfold UTable.parW at this ⊢
    dsimp only
    rw [ha, hm]; exact this
  · intro v
    have := h.act v
    unfold UTable.act at this ⊢
    dsimp only
    rw [ha, hm, h1]; exact this
  · have := h.actAll
    unfold UTable.actAll at this ⊢
    dsimp only
    rw [ha, hm, h2]; exact this

theorem getNode_rest (C : UCfg) (t : UTable W n) : (t.getNode C).1.active = t.active ∧
    (t.getNode C).1.activeNodeCount = t.activeNodeCount ∧ (t.getNode C).1.gcLimit = t.gcLimit ∧
    (t.getNode C).1.nodeCount = t.nodeCount := by
  unfold UTable.getNode; split
  · exact ⟨rfl, rfl, rfl, rfl⟩
  · dsimp only; split <;> exact ⟨rfl, rfl, rfl, rfl⟩

theorem UInv.take [DecidableEq W] {H : (Fin n → Edge W) → Nat} {C : UCfg} (hC : C.Good) {s : UHist W n} (h : UInv H C s) :
    UInv H C { s with tab := (s.tab.getNode C).1 } := by
  obtain ⟨hw, _, _, hall, _, _, _, hmem, _⟩ := getNode_spec hC.growth h.uwf
  exact h.cells hw hall hmem (getNode_rest C s.tab).1 (getNode_rest C s.tab).2.1

theorem UInv.takeBack [DecidableEq W] {H : (Fin n → Edge W) → Nat} {C : UCfg} (hC : C.Good) {s : UHist W n} (h : UInv H C s) :
    UInv H C { s with tab := (s.tab.getNode C).1.returnNode (s.tab.getNode C).2 } := by
  obtain ⟨hw, hf, _, hall, _, _, _, hmem, _⟩ := getNode_spec hC.growth h.uwf
  exact h.cells (returnNode_spec hw hf) hall hmem (getNode_rest C s.tab).1 (getNode_rest C s.tab).2.1

theorem mark_mem (t : UTable W n) (a : Nat) (ident symm : Bool) (b : Nat) :
    ((t.mark a ident symm).mem b).e = (t.mem b).e ∧ ((t.mark a ident symm).mem b).v = (t.mem b).v ∧
    ((t.mark a ident symm).mem b).ref = (t.mem b).ref := by
  unfold UTable.mark UTable.setMem
  by_cases h : b = a
  · subst h; dsimp only; rw [Function.update_self]; exact ⟨rfl, rfl, rfl⟩
  · dsimp only; rw [Function.update_of_ne h]; exact ⟨rfl, rfl, rfl⟩

theorem UInv.mark [DecidableEq W] {H : (Fin n → Edge W) → Nat} {C : UCfg} {s : UHist W n} (h : UInv H C s) (a : Nat)
    (ident symm : Bool) : UInv H C { s with tab := s.tab.mark a ident symm } := by
  have hm := mark_mem s.tab a ident symm
  have ha : (s.tab.mark a ident symm).all = s.tab.all := rfl
  have w := h.uwf
  have hw : UWF H (s.tab.mark a ident symm) := {
    nb := w.nb
    nodup := w.nodup
    availNodup := w.availNodup
    disj := w.disj
    allLt := w.allLt
    availLt := w.availLt
    brkLe := w.brkLe
    szPos := w.szPos
    bucket := by
      intro v k b hb
      have := w.bucket v k b hb
      rw [(hm b).1, (hm b).2.1]
      exact this
    uniq := by
      intro b hb c hc
      rw [(hm b).1, (hm b).2.1, (hm c).1, (hm c).2.1]
      exact w.uniq b hb c hc
    count := w.count
    refZero := by
      intro b hb
      rw [(hm b).2.2]; exact w.refZero b hb }
  refine ⟨hw, ?_, h.held, ?_, ?_, ?_, ?_⟩
  · intro b hb i c hc
    dsimp only at hb hc ⊢
    rw [(hm b).1] at hc
    rw [(hm b).2.1, (hm c).2.1]
    exact h.closed b hb i c hc
  · intro b hb
    have := h.ginv b hb
    unfold UTable.par at this ⊢
    dsimp only
    rw [(hm b).2.2]
    simp only [hm, ha]
    exact this
  · intro x
    have := h.wref x
    unfold UTable.parW at this ⊢
    dsimp only
    simp only [hm, ha]
    exact this
  · intro v
    have := h.act v
    unfold UTable.act at this ⊢
    dsimp only
    simp only [hm, ha]
    exact this
  · have := h.actAll
    unfold UTable.actAll at this ⊢
    dsimp only
    simp only [hm, ha]
    exact this

theorem UStep.inv [DecidableEq W] {H : (Fin n → Edge W) → Nat} {C : UCfg} (hC : C.Good) {s s' : UHist W n}
    (h : UInv H C s) (hs : UStep H C s s') : UInv H C s' := by
  cases hs with
  | mk v es ident symm hv hes => exact h.mkBy hC (same := fun x y => decide (x = y)) (fun _ => decide_eq_true rfl) hv hes
  | mkBy same hsame v es ident symm hv hes => exact h.mkBy hC hsame hv hes
  | take => exact h.take hC
  | takeBack => exact h.takeBack hC
  | mark a ident symm => exact h.mark a ident symm
  | inc e he =>
    have hi : IncSpec C s.tab e (s.tab.incRef C e).1 (s.tab.incRef C e).2 := by
      apply incRefF_spec C _ _ _ h.closed
      intro b hb
      exact ⟨he b hb, by simp [UTable.lvl, hb]⟩
    refine ⟨hi.shape.uwf h.uwf, hi.shape.closed h.closed, ?_, ?_, ?_, ?_, ?_⟩
    · intro e' he' b hb
      show b ∈ (s.tab.incRef C e).1.all
      rw [hi.shape.all]
      rcases List.mem_cons.1 he' with h1 | h1
      · subst h1; exact he b hb
      · exact h.held e' h1 b hb
    · apply hi.ginv
      intro a ha
      show _ ∨ _ = heldCnt (e :: s.held) a + _
      rw [heldCnt_cons]
      rcases h.ginv a ha with h1 | h1
      · exact Or.inl h1
      · right; beta_reduce at h1 ⊢; omega
    · intro w
      show s.wref w + (s.tab.incRef C e).2.count w = heldW (e :: s.held) w + (s.tab.incRef C e).1.parW w
      rw [heldW_cons, h.wref w]
      have := hi.weights w
      omega
    · intro v
      have h1 := hi.act v
      have h2 := h.act v
      show (s.tab.incRef C e).1.active v = (s.tab.incRef C e).1.act v
      omega
    · have h1 := hi.actAll
      have h2 := h.actAll
      show (s.tab.incRef C e).1.activeNodeCount = (s.tab.incRef C e).1.actAll
      omega
  | dec e he r hr =>
    obtain ⟨r', hr', hd⟩ := h.dec_exists hC he
    rw [hr] at hr'
    obtain rfl : r = r' := Option.some.inj hr'
    refine ⟨hd.shape.uwf h.uwf, hd.shape.closed h.closed, ?_, hd.ginv, ?_, ?_, ?_⟩
    · intro e' he' b hb
      show b ∈ r.1.all
      rw [hd.shape.all]
      exact h.held e' (List.mem_of_mem_erase he') b hb
    · intro w
      show s.wref w - r.2.count w = heldW (s.held.erase e) w + r.1.parW w
      have h1 := hd.weights w
      have h2 := h.wref w
      rw [heldW_erase he] at h2
      omega
    · intro v; simpa using hd.act v
    · simpa using hd.actAll
  | gc force =>
    have hmem := gc_mem C s.tab force
    have hsum := fun F => gc_sum C s.tab force F
    have hact : (s.tab.garbageCollect C force).1.active = s.tab.active ∧
        (s.tab.garbageCollect C force).1.activeNodeCount = s.tab.activeNodeCount := by
      unfold garbageCollect; split <;> exact ⟨rfl, rfl⟩
    refine ⟨gc_UWF C h.uwf force, ?_, ?_, ?_, ?_, ?_, ?_⟩
    · rcases gc_all C s.tab force with hall | hall
      · intro a ha i b hb
        dsimp only at ha hb ⊢
        rw [hmem] at hb ⊢
        rw [hall] at ha ⊢
        exact h.closed a ha i b hb
      · intro a ha i b hb
        dsimp only at ha hb ⊢
        rw [hmem] at hb ⊢
        have ha' := gc_subset C s.tab force ha
        have hra : 0 < (s.tab.mem a).ref := by
          rw [hall] at ha
          have := (List.mem_filter.1 ha).2
          simp at this
          omega
        have hrb := h.child_ref hC ha' hra hb
        obtain ⟨c1, c2⟩ := h.closed a ha' i b hb
        exact ⟨gc_keeps C s.tab force c1 (by omega), c2⟩
    · intro e he b hb
      have := h.held_ref hC he hb
      exact gc_keeps C s.tab force (h.held e he b hb) (by omega)
    · intro a ha
      have hpar : (s.tab.garbageCollect C force).1.par a = s.tab.par a := hsum (fun es _ => cntL es (List.finRange n) a)
      dsimp only at ha ⊢
      rw [hpar, hmem]
      exact h.ginv a (gc_subset C s.tab force ha)
    · intro w
      dsimp only
      rw [h.wref w]
      congr 1
      exact (hsum (fun es _ => cntWL es (List.finRange n) w)).symm
    · intro u
      dsimp only
      rw [hact.1, h.act u]
      exact (hsum (fun _ x => if x = u then 1 else 0)).symm
    · dsimp only
      rw [hact.2, h.actAll]
      exact (hsum (fun _ _ => 1)).symm
  | resize nq hn =>
    rw [h.resize_eq hn]
    exact h.nvars_le hn
  | clear =>
    have hall : (s.tab.clear C).all = [] := by simp [UTable.all, UTable.clear]
    refine ⟨clear_UWF hC.growth hC.initAlloc h.uwf.nb, ?_, ?_, ?_, ?_, ?_, ?_⟩
    · intro a ha; dsimp only at ha; rw [hall] at ha; simp at ha
    · intro e he; simp at he
    · intro a ha; dsimp only at ha; rw [hall] at ha; simp at ha
    · intro w
      show 0 = 0 + (s.tab.clear C).parW w
      rw [parW, sum_all_nil hall]
    · intro v
      show 0 = (s.tab.clear C).act v
      rw [act, sum_all_nil hall]
    · show 0 = (s.tab.clear C).actAll
      rw [actAll, sum_all_nil hall]

theorem UReach.inv [DecidableEq W] {H : (Fin n → Edge W) → Nat} {C : UCfg} (hC : C.Good) {s : UHist W n}
    (h : UReach H C s) : UInv H C s := by
  induction h with
  | init nvars nbucket hnb cell =>
    have hall : (UTable.init C nvars nbucket cell).all = [] := by simp [UTable.all, UTable.init]
    refine ⟨init_UWF H C hC.growth hC.initAlloc nvars nbucket hnb cell, ?_, ?_, ?_, ?_, ?_, ?_⟩
    · intro a ha; dsimp only at ha; rw [hall] at ha; simp at ha
    · intro e he; simp at he
    · intro a ha; dsimp only at ha; rw [hall] at ha; simp at ha
    · intro w
      show 0 = 0 + (UTable.init C nvars nbucket cell).parW w
      rw [parW, sum_all_nil hall]
    · intro v
      show 0 = (UTable.init C nvars nbucket cell).act v
      rw [act, sum_all_nil hall]
    · show 0 = (UTable.init C nvars nbucket cell).actAll
      rw [actAll, sum_all_nil hall]
  | step _ hs ih => exact UStep.inv hC ih hs

/-- Counters never exceed the maximum. -/
theorem UReach.refLe [DecidableEq W] {H : (Fin n → Edge W) → Nat} {C : UCfg} (hC : C.Good) {s : UHist W n}
    (h : UReach H C s) : ∀ a, (s.tab.mem a).ref ≤ C.maxRef := by
  induction h with
  | init => intro a; exact Nat.zero_le _
  | @step s s' h hs ih =>
    have hi := h.inv hC
    cases hs with
    | mk v es ident symm hv hes =>
      obtain ⟨w1, _, _, hm, _, _, _, _, _, hcase⟩ := mkNode_spec hC.growth hi.uwf v es ident symm hv
      intro a
      show ((s.tab.mkNode H C v es ident symm).1.mem a).ref ≤ _
      by_cases ha : a ∈ s.tab.all
      · rw [hm a ha]; exact ih a
      · rcases hcase with ⟨_, h2⟩ | ⟨h1, h2, h3, _⟩
        · rw [w1.refZero a (by rw [h2]; exact ha)]; exact Nat.zero_le _
        · by_cases ha2 : a = (s.tab.mkNode H C v es ident symm).2
          · rw [ha2, h3]; exact Nat.zero_le _
          · rw [w1.refZero a (by rw [h2.mem_iff]; simp [ha, ha2])]; exact Nat.zero_le _
    | mkBy same hsame v es ident symm hv hes =>
      obtain ⟨w1, _, _, hm, _, _, _, _, _, hcase⟩ := mkNodeBy_spec hsame hC.growth hi.uwf v es ident symm hv
      intro a
      show ((s.tab.mkNodeBy same H C v es ident symm).1.mem a).ref ≤ _
      by_cases ha : a ∈ s.tab.all
      · rw [hm a ha]; exact ih a
      · rcases hcase with ⟨_, h2⟩ | ⟨h1, h2, h3, _⟩
        · rw [w1.refZero a (by rw [h2]; exact ha)]; exact Nat.zero_le _
        · by_cases ha2 : a = (s.tab.mkNodeBy same H C v es ident symm).2
          · rw [ha2, h3]; exact Nat.zero_le _
          · rw [w1.refZero a (by rw [h2.mem_iff]; simp [ha, ha2])]; exact Nat.zero_le _
    | take =>
      obtain ⟨_, _, _, _, _, _, _, hmem, _⟩ := getNode_spec hC.growth hi.uwf
      intro a
      show ((s.tab.getNode C).1.mem a).ref ≤ _
      rw [hmem]; exact ih a
    | takeBack =>
      obtain ⟨_, _, _, _, _, _, _, hmem, _⟩ := getNode_spec hC.growth hi.uwf
      intro a
      show ((s.tab.getNode C).1.mem a).ref ≤ _
      rw [hmem]; exact ih a
    | mark a ident symm =>
      intro b
      show ((s.tab.mark a ident symm).mem b).ref ≤ _
      rw [(mark_mem s.tab a ident symm b).2.2]; exact ih b
    | inc e he =>
      have hi : IncSpec C s.tab e (s.tab.incRef C e).1 (s.tab.incRef C e).2 := by
        apply incRefF_spec C _ _ _ hi.closed
        intro b hb
        exact ⟨he b hb, by simp [UTable.lvl, hb]⟩
      exact hi.le ih
    | dec e he r hr =>
      obtain ⟨r', hr', hd⟩ := hi.dec_exists hC he
      rw [hr] at hr'
      obtain rfl : r = r' := Option.some.inj hr'
      intro a
      exact (hd.mono a).trans (ih a)
    | gc force =>
      intro a
      show ((s.tab.garbageCollect C force).1.mem a).ref ≤ _
      rw [gc_mem]; exact ih a
    | resize nq hn => exact ih
    | clear => intro a; exact Nat.zero_le _

end DD
