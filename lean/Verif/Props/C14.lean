import Verif.Props.C13
import Mathlib.Algebra.BigOperators.Group.List.Basic
import Mathlib.Data.List.Basic

/-!
# C14: reference counts are exact

For every sequence of node creations, `incRef`, `decRef`, garbage collections and `clear`s: the count of a node is the
number of references held by the user plus the number of edges from referenced nodes, until the counter saturates.
-/

namespace DD
open UTable

variable {W : Type} {n : Nat} [DecidableEq W]

/-- Specification: number of edges to node `a` from stored nodes with a positive reference count. -/
def edgesFromReferenced (t : UTable W n) (a : Nat) : Nat :=
  (t.all.map fun b =>
    if (t.mem b).ref = 0 then 0 else ((List.finRange n).filter fun i => decide (((t.mem b).e i).p = some a)).length).sum

/-- Specification: number of edges of weight `w` from stored nodes with a positive reference count. -/
def weightsFromReferenced (t : UTable W n) (w : W) : Nat :=
  (t.all.map fun b =>
    if (t.mem b).ref = 0 then 0 else ((List.finRange n).filter fun i => decide (((t.mem b).e i).w = w)).length).sum

theorem edgesFromReferenced_eq {H : (Fin n → Edge W) → Nat} {t : UTable W n} (h : UWF H t) (a : Nat) :
    edgesFromReferenced t a = t.par a := by
  unfold edgesFromReferenced UTable.par
  rw [List.sum_toFinset _ h.nodup]
  congr 1
  apply List.map_congr_left
  intro b _
  by_cases hb : (t.mem b).ref = 0
  · simp [hb]
  · rw [if_neg hb, if_pos (by omega)]
    simp [cntL, List.countP_eq_length_filter]

theorem weightsFromReferenced_eq {H : (Fin n → Edge W) → Nat} {t : UTable W n} (h : UWF H t) (w : W) :
    weightsFromReferenced t w = t.parW w := by
  unfold weightsFromReferenced UTable.parW
  rw [List.sum_toFinset _ h.nodup]
  congr 1
  apply List.map_congr_left
  intro b _
  by_cases hb : (t.mem b).ref = 0
  · simp [hb]
  · rw [if_neg hb, if_pos (by omega)]
    simp [cntWL, List.countP_eq_length_filter]

variable {H : (Fin n → Edge W) → Nat} {C : UCfg} {s : UHist W n}

/-- The count of a stored node is saturated, or it is the number of held references to it plus the number of edges to
it from referenced nodes. -/
theorem C14_exact (hC : C.Good) (h : UReach H C s) (a : Nat) (ha : a ∈ s.tab.all) :
    (s.tab.mem a).ref = C.maxRef ∨
    (s.tab.mem a).ref =
      (s.held.filter fun e => decide (e.p = some a)).length + edgesFromReferenced s.tab a := by
  have hi := h.inv hC
  rw [edgesFromReferenced_eq hi.uwf]
  rcases hi.ginv a ha with h1 | h1
  · exact Or.inl h1
  · right
    rw [← List.countP_eq_length_filter]
    exact h1

/-- The net number of references the table has taken on a weight is the number of held edges with that weight plus the
number of edges with that weight out of referenced nodes. -/
theorem C14_weights (hC : C.Good) (h : UReach H C s) (w : W) :
    s.wref w = (s.held.filter fun e => decide (e.w = w)).length + weightsFromReferenced s.tab w := by
  have hi := h.inv hC
  rw [weightsFromReferenced_eq hi.uwf, ← List.countP_eq_length_filter]
  exact hi.wref w

/-- `decRef` never takes back more references of a weight than have been taken, so the difference in `UHist.wref` is a
true difference. -/
theorem C14_weights_no_underflow (hC : C.Good) (h : UReach H C s) (e : Edge W) (he : e ∈ s.held)
    (r : UTable W n × List W) (hr : s.tab.decRef C e = some r) (w : W) : r.2.count w ≤ s.wref w := by
  have hi := h.inv hC
  obtain ⟨r', hr', hd⟩ := hi.dec_exists hC he
  rw [hr] at hr'
  obtain rfl : r = r' := Option.some.inj hr'
  have h1 := hd.weights w
  have h2 := hi.wref w
  rw [heldW_erase he] at h2
  omega

/-- Giving back a held reference never fails. -/
theorem C14_decRef_ok (hC : C.Good) (h : UReach H C s) (e : Edge W) (he : e ∈ s.held) :
    (s.tab.decRef C e).isSome = true := by
  obtain ⟨r, hr, _⟩ := (h.inv hC).dec_exists hC he
  rw [hr]; rfl

/-- The reported number of active nodes, in total and per level, is the number of stored nodes with a positive count. -/
theorem C14_active (hC : C.Good) (h : UReach H C s) :
    s.tab.activeNodeCount = (s.tab.all.filter fun a => decide ((s.tab.mem a).ref ≠ 0)).length ∧
    ∀ v, s.tab.active v =
      (s.tab.all.filter fun a => decide ((s.tab.mem a).ref ≠ 0 ∧ (s.tab.mem a).v = v)).length := by
  have hi := h.inv hC
  have aux : ∀ (L : List Nat) (p : Nat → Prop) [DecidablePred p],
      (L.map fun a => if p a then 1 else 0).sum = (L.filter fun a => decide (p a)).length := by
    intro L p _
    induction L with
    | nil => rfl
    | cons x L ih => by_cases hx : p x <;> simp [hx, ih]; omega
  refine ⟨?_, ?_⟩
  · rw [hi.actAll, UTable.actAll, List.sum_toFinset _ hi.uwf.nodup, ← aux]
    congr 1
    apply List.map_congr_left
    intro b _
    simp only [Nat.pos_iff_ne_zero]
  · intro v
    rw [hi.act, UTable.act, List.sum_toFinset _ hi.uwf.nodup, ← aux]
    congr 1
    apply List.map_congr_left
    intro b _
    by_cases h1 : (s.tab.mem b).ref = 0 <;> by_cases h2 : (s.tab.mem b).v = v <;> simp [h1, h2]

/-- What one `incRef` does to the exact equation is visible: the held list grows by the edge, and the counts follow
`C14_exact` in the new state. -/
theorem C14_incRef_step (hC : C.Good) (h : UReach H C s) (e : Edge W) (he : ∀ b, e.p = some b → b ∈ s.tab.all) (a : Nat)
    (ha : a ∈ s.tab.all) :
    let t' := (s.tab.incRef C e).1
    (t'.mem a).ref = C.maxRef ∨
    (t'.mem a).ref = ((e :: s.held).filter fun e => decide (e.p = some a)).length + edgesFromReferenced t' a := by
  have hs := UReach.step h (UStep.inc s e he)
  apply C14_exact hC hs
  have hi : IncSpec C s.tab e (s.tab.incRef C e).1 (s.tab.incRef C e).2 := by
    apply incRefF_spec C _ _ _ (h.inv hC).closed
    intro b hb
    exact ⟨he b hb, by simp [UTable.lvl, hb]⟩
  show a ∈ (s.tab.incRef C e).1.all
  rw [hi.shape.all]; exact ha

end DD

namespace DD.Ex
open UTable

/-- The edge to the top node of the example of C13. -/
def top : Edge Nat := ⟨some 2, 7⟩
/-- The example with two references to the top node and one to a bottom node. -/
def s4 : UHist Nat 2 := ⟨(s3.tab.incRef C0 top).1, top :: s3.held, fun w => s3.wref w + (s3.tab.incRef C0 top).2.count w⟩
/-- One more. -/
def s5 : UHist Nat 2 :=
  ⟨(s4.tab.incRef C0 ⟨some 0, 9⟩).1, ⟨some 0, 9⟩ :: s4.held,
    fun w => s4.wref w + (s4.tab.incRef C0 ⟨some 0, 9⟩).2.count w⟩

theorem s4_reach : UReach H0 C0 s4 := by
  refine s3_reach.step (UStep.inc s3 top ?_)
  intro b hb
  simp only [top, Option.some.injEq] at hb
  subst hb; decide +kernel

theorem s5_reach : UReach H0 C0 s5 := by
  refine s4_reach.step (UStep.inc s4 ⟨some 0, 9⟩ ?_)
  intro b hb
  simp only [Option.some.injEq] at hb
  subst hb; decide +kernel

/-- Counts in the example: node 0 has one parent edge and one held reference. -/
example : (s5.tab.mem 0).ref = 2 ∧ (s5.tab.mem 1).ref = 1 ∧ (s5.tab.mem 2).ref = 1 ∧ s5.wref 5 = 2 ∧ s5.wref 7 = 1 ∧
    edgesFromReferenced s5.tab 0 = 1 ∧ s5.tab.activeNodeCount = 3 := by decide +kernel

example : (s5.tab.mem 0).ref = C0.maxRef ∨ (s5.tab.mem 0).ref =
    (s5.held.filter fun e => decide (e.p = some 0)).length + edgesFromReferenced s5.tab 0 :=
  C14_exact C0_good s5_reach 0 (by decide +kernel)

example : (s5.tab.decRef C0 top).isSome = true := C14_decRef_ok C0_good s5_reach top (by decide +kernel)

end DD.Ex
