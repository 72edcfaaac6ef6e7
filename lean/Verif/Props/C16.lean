import Verif.Props.C15

/-!
# C16: `incRef` and `decRef` are inverse

In every reachable state in which no counter saturates: the counts are determined by the held references alone, and
`decRef` after `incRef` on the same edge restores all counts.
-/

namespace DD
open UTable

variable {W : Type} {n : Nat} [DecidableEq W] {H : (Fin n → Edge W) → Nat} {C : UCfg} {s : UHist W n}

/-- Two tables with the same nodes and the same held references have the same counts. -/
theorem counts_unique {t t' : UTable W n} (hw : UWF H t) (hc : Closed t) (hs : SameShape t t') (q : Nat → Nat)
    (h : ∀ a ∈ t.all, (t.mem a).ref = q a + t.par a) (h' : ∀ a ∈ t.all, (t'.mem a).ref = q a + t'.par a) :
    ∀ a ∈ t.all, (t'.mem a).ref = (t.mem a).ref := by
  have key : ∀ k a, a ∈ t.all → t.nvars ≤ (t.mem a).v + k → (t'.mem a).ref = (t.mem a).ref := by
    intro k
    induction k with
    | zero =>
      intro a ha hk
      have := (hw.mem_bucket ha).1
      omega
    | succ k ih =>
      intro a ha hk
      rw [h a ha, h' a ha]
      congr 1
      unfold UTable.par
      rw [hs.all]
      apply Finset.sum_congr rfl
      intro b hb
      have hb := List.mem_toFinset.1 hb
      rw [hs.e]
      by_cases hcnt : cntL (t.mem b).e (List.finRange n) a = 0
      · rw [hcnt]; simp
      · obtain ⟨i, _, hi⟩ := List.countP_pos_iff.1 (Nat.pos_of_ne_zero hcnt)
        have hlt := (hc b hb i a (by simpa using hi)).2
        rw [ih b hb (by omega)]
  intro a ha
  exact key t.nvars a ha (by omega)

/-- `decRef` directly after `incRef`: it succeeds, every cell of the memory (contents and count), the active node
counts and the stored nodes are as before, and exactly the same weights have been released as had been taken. -/
theorem C16_inverse (hC : C.Good) (h : UReach H C s) (e : Edge W) (he : ∀ b, e.p = some b → b ∈ s.tab.all)
    (hsat : ∀ a ∈ s.tab.all, ((s.tab.incRef C e).1.mem a).ref ≠ C.maxRef) :
    ∃ r, (s.tab.incRef C e).1.decRef C e = some r ∧
      (∀ a, r.1.mem a = s.tab.mem a) ∧ r.1.chain = s.tab.chain ∧ r.1.avail = s.tab.avail ∧
      r.1.nodeCount = s.tab.nodeCount ∧ r.1.activeNodeCount = s.tab.activeNodeCount ∧
      (∀ v, r.1.active v = s.tab.active v) ∧ ∀ w, r.2.count w = (s.tab.incRef C e).2.count w := by
  have hi := h.inv hC
  have hinc : IncSpec C s.tab e (s.tab.incRef C e).1 (s.tab.incRef C e).2 := by
    apply incRefF_spec C _ _ _ hi.closed
    intro b hb
    exact ⟨he b hb, by simp [UTable.lvl, hb]⟩
  have hr1 := UReach.step h (UStep.inc s e he)
  have hi1 := hr1.inv hC
  set s1 : UHist W n := ⟨(s.tab.incRef C e).1, e :: s.held, fun w => s.wref w + (s.tab.incRef C e).2.count w⟩ with hs1
  obtain ⟨r, hr, hd⟩ := hi1.dec_exists hC (e := e) (by simp [hs1])
  have herase : s1.held.erase e = s.held := by simp [hs1]
  rw [herase] at hd
  have hshape : SameShape s.tab r.1 := hinc.shape.trans hd.shape
  have hns : ∀ a ∈ s.tab.all, (s.tab.mem a).ref ≠ C.maxRef := fun a ha heq => hsat a ha (hinc.sat a heq)
  -- counters that are not saturated before `decRef` are not saturated after it
  have hle := h.refLe hC
  have hns' : ∀ a ∈ s.tab.all, (r.1.mem a).ref ≠ C.maxRef := by
    intro a ha heq
    have h1 := hd.mono a
    have h2 : ((s.tab.incRef C e).1.mem a).ref ≤ C.maxRef := hr1.refLe hC a
    have h3 := hsat a ha
    have h4 : (s1.tab.mem a).ref = ((s.tab.incRef C e).1.mem a).ref := rfl
    omega
  have hcounts : ∀ a ∈ s.tab.all, (r.1.mem a).ref = (s.tab.mem a).ref := by
    apply counts_unique hi.uwf hi.closed hshape (heldCnt s.held)
    · intro a ha
      exact (hi.ginv a ha).resolve_left (hns a ha)
    · intro a ha
      exact (hd.ginv a (by show a ∈ r.1.all; rw [hshape.all]; exact ha)).resolve_left (hns' a ha)
  have hmem : ∀ a, r.1.mem a = s.tab.mem a := by
    intro a
    have hv := hshape.v a
    have he' := hshape.e a
    have hid := hshape.ident a
    have hsy := hshape.symm a
    have href : (r.1.mem a).ref = (s.tab.mem a).ref := by
      by_cases ha : a ∈ s.tab.all
      · exact hcounts a ha
      · exact hshape.ref a ha
    cases hx : r.1.mem a; cases hy : s.tab.mem a
    simp_all
  have hsum : ∀ F : Nat → Nat, (∑ b ∈ r.1.all.toFinset, F b) = ∑ b ∈ s.tab.all.toFinset, F b := by
    intro F; rw [hshape.all]
  refine ⟨r, hr, hmem, hshape.chain, hshape.avail, hshape.nodeCount, ?_, ?_, ?_⟩
  · rw [hd.actAll, hi.actAll]
    unfold UTable.actAll
    rw [hshape.all]
    simp only [hmem, add_zero]
  · intro v
    rw [hd.act v, hi.act v]
    unfold UTable.act
    rw [hshape.all]
    simp only [hmem, add_zero]
  · intro w
    have h1 := hd.weights w
    have h2 := hinc.weights w
    have h3 : r.1.parW w = s.tab.parW w := by
      unfold UTable.parW
      rw [hshape.all]
      simp only [hmem]
    have h4 : s1.tab.parW w = (s.tab.incRef C e).1.parW w := rfl
    omega

/-- Reference counts depend only on what is held: two call sequences that lead to the same stored nodes and the same
held references (and saturate no counter) lead to the same counts. -/
theorem C16_history_independent (hC : C.Good) {s' : UHist W n} (h : UReach H C s) (h' : UReach H C s')
    (hch : s'.tab.chain = s.tab.chain) (hnv : s'.tab.nvars = s.tab.nvars) (hnb : s'.tab.nbucket = s.tab.nbucket)
    (hv : ∀ a ∈ s.tab.all, (s'.tab.mem a).v = (s.tab.mem a).v ∧ (s'.tab.mem a).e = (s.tab.mem a).e)
    (hheld : s'.held.Perm s.held)
    (hsat : ∀ a ∈ s.tab.all, (s.tab.mem a).ref ≠ C.maxRef ∧ (s'.tab.mem a).ref ≠ C.maxRef) :
    ∀ a ∈ s.tab.all, (s'.tab.mem a).ref = (s.tab.mem a).ref := by
  have hi := h.inv hC
  have hi' := h'.inv hC
  have hall : s'.tab.all = s.tab.all := by simp [UTable.all, buckets, hch, hnv, hnb]
  have key : ∀ k a, a ∈ s.tab.all → s.tab.nvars ≤ (s.tab.mem a).v + k → (s'.tab.mem a).ref = (s.tab.mem a).ref := by
    intro k
    induction k with
    | zero =>
      intro a ha hk
      have := (hi.uwf.mem_bucket ha).1
      omega
    | succ k ih =>
      intro a ha hk
      have e1 := (hi.ginv a ha).resolve_left (hsat a ha).1
      have e2 := (hi'.ginv a (hall ▸ ha)).resolve_left (hsat a ha).2
      have hcnt : heldCnt s'.held a = heldCnt s.held a := hheld.countP_eq _
      have hpar : s'.tab.par a = s.tab.par a := by
        unfold UTable.par
        rw [hall]
        apply Finset.sum_congr rfl
        intro b hb
        have hb := List.mem_toFinset.1 hb
        rw [(hv b hb).2]
        by_cases hcnt : cntL (s.tab.mem b).e (List.finRange n) a = 0
        · rw [hcnt]; simp
        · obtain ⟨i, _, hi'⟩ := List.countP_pos_iff.1 (Nat.pos_of_ne_zero hcnt)
          have hlt := (hi.closed b hb i a (by simpa using hi')).2
          rw [ih b hb (by omega)]
      beta_reduce at e1 e2
      omega
  intro a ha
  exact key s.tab.nvars a ha (by omega)

end DD

namespace DD.Ex
open UTable

/-- The hypotheses of `C16_inverse` hold in the example of C13, and the `incRef` there changes three counts. -/
example : (∀ a ∈ s3.tab.all, ((s3.tab.incRef C0 top).1.mem a).ref ≠ C0.maxRef) ∧
    (s3.tab.mem 1).ref = 0 ∧ ((s3.tab.incRef C0 top).1.mem 1).ref = 1 := by decide +kernel

example : ∃ r, (s3.tab.incRef C0 top).1.decRef C0 top = some r ∧ r.1.activeNodeCount = 0 := by
  obtain ⟨r, h1, h2⟩ := C16_inverse C0_good s3_reach top
    (by intro b hb; simp only [top, Option.some.injEq] at hb; subst hb; decide +kernel) (by decide +kernel)
  exact ⟨r, h1, h2.2.2.2.2.1.trans (by decide +kernel)⟩

/-- The saturation hypothesis is needed: with counters that stop at 3, three `incRef`s and three `decRef`s leave the
node referenced. -/
example : ∃ t : UTable Nat 2, ∃ r1 r2 r3,
    t = ((((s3.tab.incRef C0 top).1.incRef C0 top).1).incRef C0 top).1 ∧
    t.decRef C0 top = some r1 ∧ r1.1.decRef C0 top = some r2 ∧ r2.1.decRef C0 top = some r3 ∧ (r3.1.mem 2).ref = 3 := by
  have h : ((((((s3.tab.incRef C0 top).1.incRef C0 top).1).incRef C0 top).1.decRef C0 top).bind fun r =>
      (r.1.decRef C0 top).bind fun r => (r.1.decRef C0 top).map fun r => (r.1.mem 2).ref) = some 3 := by decide +kernel
  simp only [Option.bind_eq_some_iff, Option.map_eq_some_iff] at h
  obtain ⟨r1, h1, r2, h2, r3, h3, h4⟩ := h
  exact ⟨_, r1, r2, r3, rfl, h1, h2, h3, h4⟩

end DD.Ex
