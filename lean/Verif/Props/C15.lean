import Verif.Props.C14

/-!
# C15: garbage collection keeps what is referenced and removes what is not

Quantified over all reachable states of the unique table (all call sequences, hash functions, sizes).
-/

namespace DD
open UTable

variable {W : Type} {n : Nat} [DecidableEq W]

/-- Specification: `b` can be reached from node `a` by following edges. -/
inductive Below (t : UTable W n) : Nat → Nat → Prop
  | refl (a : Nat) : Below t a a
  | step {a b c : Nat} (i : Fin n) : Below t a b → ((t.mem b).e i).p = some c → Below t a c

/-- Specification: a node reachable from an edge the user holds. -/
def Live (s : UHist W n) (b : Nat) : Prop := ∃ e ∈ s.held, ∃ a, e.p = some a ∧ Below s.tab a b

variable {H : (Fin n → Edge W) → Nat} {C : UCfg} {s s' : UHist W n}

theorem UInv.live_ref (hC : C.Good) (h : UInv H C s) {b : Nat} (hb : Live s b) :
    b ∈ s.tab.all ∧ 0 < (s.tab.mem b).ref := by
  obtain ⟨e, he, a, ha, hab⟩ := hb
  induction hab with
  | refl => exact ⟨h.held e he _ ha, h.held_ref hC he ha⟩
  | step i _ hc ih =>
    obtain ⟨h1, h2⟩ := ih
    exact ⟨(h.closed _ h1 i _ hc).1, h.child_ref hC h1 h2 hc⟩

/-- Garbage collection, forced or not, keeps every node reachable from a held edge, with all its contents. -/
theorem C15_gc_keeps (hC : C.Good) (h : UReach H C s) (force : Bool) (b : Nat) (hb : Live s b) :
    b ∈ (s.tab.garbageCollect C force).1.all ∧ (s.tab.garbageCollect C force).1.mem b = s.tab.mem b := by
  obtain ⟨h1, h2⟩ := (h.inv hC).live_ref hC hb
  exact ⟨gc_keeps C s.tab force h1 (by omega), by rw [gc_mem]⟩

/-- Without saturated counters a positive count means that the node is reachable from a held edge. -/
theorem live_of_ref (hC : C.Good) (h : UReach H C s) (hsat : ∀ a ∈ s.tab.all, (s.tab.mem a).ref ≠ C.maxRef) (b : Nat)
    (hb : b ∈ s.tab.all) (hr : 0 < (s.tab.mem b).ref) : Live s b := by
  have hi := h.inv hC
  -- induction from the top level downwards
  have key : ∀ k b, b ∈ s.tab.all → 0 < (s.tab.mem b).ref → s.tab.nvars ≤ (s.tab.mem b).v + k → Live s b := by
    intro k
    induction k with
    | zero =>
      intro b hb _ hk
      have := (hi.uwf.mem_bucket hb).1
      omega
    | succ k ih =>
      intro b hb hr hk
      have heq := (hi.ginv b hb).resolve_left (hsat b hb)
      by_cases h0 : s.tab.par b = 0
      · have : 0 < heldCnt s.held b := by beta_reduce at heq; omega
        unfold heldCnt at this
        obtain ⟨e, he, hp⟩ := List.countP_pos_iff.1 this
        exact ⟨e, he, b, by simpa using hp, Below.refl b⟩
      · obtain ⟨c, hc, hc0⟩ := Finset.exists_ne_zero_of_sum_ne_zero h0
        have hcm := List.mem_toFinset.1 hc
        by_cases hcr : 0 < (s.tab.mem c).ref
        · rw [if_pos hcr] at hc0
          obtain ⟨i, _, hi'⟩ := List.countP_pos_iff.1 (Nat.pos_of_ne_zero hc0)
          have hib : ((s.tab.mem c).e i).p = some b := by simpa using hi'
          have hlt := (hi.closed c hcm i b hib).2
          obtain ⟨e, he, a, ha, hac⟩ := ih c hcm hcr (by omega)
          exact ⟨e, he, a, ha, hac.step i hib⟩
        · rw [if_neg hcr] at hc0
          exact absurd rfl hc0
  exact key s.tab.nvars b hb hr (by omega)

/-- A forced collection leaves exactly the nodes reachable from held edges (as long as no counter is saturated), and
the returned number is the number of removed nodes. -/
theorem C15_gc_exact (hC : C.Good) (h : UReach H C s) (hsat : ∀ a ∈ s.tab.all, (s.tab.mem a).ref ≠ C.maxRef) :
    (∀ b, b ∈ (s.tab.garbageCollect C true).1.all ↔ Live s b) ∧
    (s.tab.garbageCollect C true).2 + (s.tab.garbageCollect C true).1.nodeCount = s.tab.nodeCount := by
  have hi := h.inv hC
  by_cases h0 : s.tab.nodeCount = 0
  · have hnil : s.tab.all = [] := by
      have := hi.uwf.count
      rw [h0] at this
      exact List.eq_nil_of_length_eq_zero this.symm
    have hgc : s.tab.garbageCollect C true = (s.tab, 0) := by
      unfold garbageCollect; rw [if_pos (by simp [h0])]
    rw [hgc]
    refine ⟨?_, by simp⟩
    intro b
    constructor
    · intro hb; simp [hnil] at hb
    · intro hb
      exact (hi.live_ref hC hb).1
  · have hcond : ¬ ((!true && decide (s.tab.nodeCount < s.tab.gcLimit)) || decide (s.tab.nodeCount = 0)) = true := by
      simp [h0]
    refine ⟨?_, ?_⟩
    · intro b
      rw [gc_all_run C s.tab true hcond]
      constructor
      · intro hb
        obtain ⟨h1, h2⟩ := List.mem_filter.1 hb
        apply live_of_ref hC h hsat b h1
        simp at h2; omega
      · intro hb
        obtain ⟨h1, h2⟩ := hi.live_ref hC hb
        apply List.mem_filter.2
        refine ⟨h1, ?_⟩
        simp; omega
    · have h1 : (s.tab.garbageCollect C true).2 =
          (s.tab.all.filter (fun a => decide ((s.tab.mem a).ref = 0))).length := by
        unfold garbageCollect; rw [if_neg hcond]
      have h2 : (s.tab.garbageCollect C true).1.nodeCount =
          (s.tab.all.filter (fun a => !decide ((s.tab.mem a).ref = 0))).length := by
        unfold garbageCollect; rw [if_neg hcond]
      rw [h1, h2, hi.uwf.count]
      exact (List.length_eq_length_filter_add _).symm

/-- Specification: calls during which the edge `e` is held. -/
inductive HoldSteps (H : (Fin n → Edge W) → Nat) (C : UCfg) (e : Edge W) : UHist W n → UHist W n → Prop
  | refl (s : UHist W n) : HoldSteps H C e s s
  | step {s s' s'' : UHist W n} : HoldSteps H C e s s' → UStep H C s' s'' → e ∈ s''.held → HoldSteps H C e s s''

/-- One call keeps the contents of all nodes below an edge held before and after. -/
theorem step_keeps (hC : C.Good) (h : UInv H C s) (hs : UStep H C s s') {b : Nat} (hb : Live s b)
    (hh : s'.held ≠ []) :
    b ∈ s'.tab.all ∧ (s'.tab.mem b).v = (s.tab.mem b).v ∧ (s'.tab.mem b).e = (s.tab.mem b).e := by
  obtain ⟨h1, h2⟩ := h.live_ref hC hb
  cases hs with
  | mk v es ident symm hv hes =>
    obtain ⟨_, _, _, hm, _, _, _, _, _, hcase⟩ := mkNode_spec hC.growth h.uwf v es ident symm hv
    refine ⟨?_, by show ((s.tab.mkNode H C v es ident symm).1.mem b).v = _; rw [hm b h1],
      by show ((s.tab.mkNode H C v es ident symm).1.mem b).e = _; rw [hm b h1]⟩
    rcases hcase with ⟨_, h3⟩ | ⟨_, h3, _⟩
    · show b ∈ (s.tab.mkNode H C v es ident symm).1.all
      rw [h3]; exact h1
    · exact h3.symm.mem_iff.1 (List.mem_cons_of_mem _ h1)
  | mkBy same hsame v es ident symm hv hes =>
    obtain ⟨_, _, _, hm, _, _, _, _, _, hcase⟩ := mkNodeBy_spec hsame hC.growth h.uwf v es ident symm hv
    refine ⟨?_, by show ((s.tab.mkNodeBy same H C v es ident symm).1.mem b).v = _; rw [hm b h1],
      by show ((s.tab.mkNodeBy same H C v es ident symm).1.mem b).e = _; rw [hm b h1]⟩
    rcases hcase with ⟨_, h3⟩ | ⟨_, h3, _⟩
    · show b ∈ (s.tab.mkNodeBy same H C v es ident symm).1.all
      rw [h3]; exact h1
    · exact h3.symm.mem_iff.1 (List.mem_cons_of_mem _ h1)
  | take =>
    obtain ⟨_, _, _, hall, _, _, _, hmem, _⟩ := getNode_spec hC.growth h.uwf
    exact ⟨by show b ∈ (s.tab.getNode C).1.all; rw [hall]; exact h1, by show ((s.tab.getNode C).1.mem b).v = _; rw [hmem],
      by show ((s.tab.getNode C).1.mem b).e = _; rw [hmem]⟩
  | takeBack =>
    obtain ⟨_, _, _, hall, _, _, _, hmem, _⟩ := getNode_spec hC.growth h.uwf
    exact ⟨by show b ∈ (s.tab.getNode C).1.all; rw [hall]; exact h1, by show ((s.tab.getNode C).1.mem b).v = _; rw [hmem],
      by show ((s.tab.getNode C).1.mem b).e = _; rw [hmem]⟩
  | mark a ident symm => exact ⟨h1, (mark_mem s.tab a ident symm b).2.1, (mark_mem s.tab a ident symm b).1⟩
  | inc e he =>
    have hi : IncSpec C s.tab e (s.tab.incRef C e).1 (s.tab.incRef C e).2 := by
      apply incRefF_spec C _ _ _ h.closed
      intro b hb
      exact ⟨he b hb, by simp [UTable.lvl, hb]⟩
    exact ⟨by show b ∈ (s.tab.incRef C e).1.all; rw [hi.shape.all]; exact h1, hi.shape.v b, hi.shape.e b⟩
  | dec e he r hr =>
    obtain ⟨r', hr', hd⟩ := h.dec_exists hC he
    rw [hr] at hr'
    obtain rfl : r = r' := Option.some.inj hr'
    exact ⟨by show b ∈ r.1.all; rw [hd.shape.all]; exact h1, hd.shape.v b, hd.shape.e b⟩
  | gc force =>
    refine ⟨gc_keeps C s.tab force h1 (by omega), ?_, ?_⟩
    · show ((s.tab.garbageCollect C force).1.mem b).v = _; rw [gc_mem]
    · show ((s.tab.garbageCollect C force).1.mem b).e = _; rw [gc_mem]
  | resize nq hn =>
    rw [h.resize_eq hn]
    exact ⟨by dsimp only; rw [all_nvars h.uwf hn]; exact h1, rfl, rfl⟩
  | clear => exact absurd rfl hh

theorem hold_all (hC : C.Good) (h : UReach H C s) {e : Edge W} (he : e ∈ s.held) (hs : HoldSteps H C e s s') {a : Nat}
    (ha : e.p = some a) :
    UReach H C s' ∧ e ∈ s'.held ∧ ∀ c, Below s.tab a c → Below s'.tab a c ∧ c ∈ s'.tab.all ∧
      (s'.tab.mem c).v = (s.tab.mem c).v ∧ (s'.tab.mem c).e = (s.tab.mem c).e := by
  induction hs with
  | refl =>
    exact ⟨h, he, fun c hc => ⟨hc, ((h.inv hC).live_ref hC ⟨e, he, a, ha, hc⟩).1, rfl, rfl⟩⟩
  | step hst hu hm ih =>
    obtain ⟨hr, hheld, hall⟩ := ih
    have key := fun c (hc : Below s.tab a c) => step_keeps hC (hr.inv hC) hu (b := c)
      ⟨e, hheld, a, ha, (hall c hc).1⟩ (List.ne_nil_of_mem hm)
    refine ⟨hr.step hu, hm, ?_⟩
    intro c hc
    obtain ⟨k1, k2, k3⟩ := key c hc
    have l2 := (hall c hc).2.2.1
    have l3 := (hall c hc).2.2.2
    refine ⟨?_, k1, k2.trans l2, k3.trans l3⟩
    clear k1 k2 k3 l2 l3
    have hc' := hc
    clear hc
    induction hc' with
    | refl => exact Below.refl _
    | step i hab hbc ih2 =>
      refine Below.step i ih2 ?_
      rw [(key _ hab).2.2, (hall _ hab).2.2.2]
      exact hbc

/-- As long as an edge is held, whatever else is done, all nodes reachable from it stay stored with the same level and
edges: the diagram the user holds does not change. -/
theorem C15_held_stable (hC : C.Good) (h : UReach H C s) (e : Edge W) (he : e ∈ s.held) (hs : HoldSteps H C e s s')
    (a b : Nat) (ha : e.p = some a) (hb : Below s.tab a b) :
    b ∈ s'.tab.all ∧ (s'.tab.mem b).v = (s.tab.mem b).v ∧ (s'.tab.mem b).e = (s.tab.mem b).e :=
  ((hold_all hC h he hs ha).2.2 b hb).2

end DD

namespace DD.Ex
open UTable

/-- The example of C14 after creating one more node that nobody references. -/
def s6 : UHist Nat 2 := { s5 with tab := (s5.tab.mkNode H0 C0 1 es0 false false).1 }

theorem s6_reach : UReach H0 C0 s6 := s5_reach.step (UStep.mk s5 1 es0 false false (by decide) (by simp [es0]))

theorem s6_live : Live s6 1 :=
  ⟨top, by decide +kernel, 2, rfl, (Below.refl 2).step 1 (by decide +kernel)⟩

/-- Four nodes are stored; a forced collection removes the unreferenced one and keeps the live ones. -/
example : s6.tab.nodeCount = 4 ∧ (s6.tab.garbageCollect C0 true).2 = 1 ∧
    (s6.tab.garbageCollect C0 true).1.nodeCount = 3 := by decide +kernel

example : 1 ∈ (s6.tab.garbageCollect C0 true).1.all := (C15_gc_keeps C0_good s6_reach true 1 s6_live).1

example : 3 ∉ (s6.tab.garbageCollect C0 true).1.all := by decide +kernel

example : ∀ b, b ∈ (s6.tab.garbageCollect C0 true).1.all ↔ Live s6 b :=
  (C15_gc_exact C0_good s6_reach (by decide +kernel)).1

/-- A history in which the top edge is held while the other reference is dropped and garbage is collected. -/
example : ∃ s' : UHist Nat 2, HoldSteps H0 C0 top s6 s' ∧ s'.tab.nodeCount = 3 ∧ s'.held = [top] := by
  have hsome : ∃ r, s6.tab.decRef C0 ⟨some 0, 9⟩ = some r :=
    Option.isSome_iff_exists.1 (C14_decRef_ok C0_good s6_reach _ (by decide +kernel))
  obtain ⟨r, hr⟩ := hsome
  have h1 := UStep.dec (H := H0) (C := C0) s6 ⟨some 0, 9⟩ (by decide +kernel) r hr
  have hh : s6.held.erase ⟨some 0, 9⟩ = [top] := by decide +kernel
  rw [hh] at h1
  refine ⟨_, ((HoldSteps.refl s6).step h1 (List.mem_singleton.2 rfl)).step (UStep.gc _ true)
    (List.mem_singleton.2 rfl), ?_, rfl⟩
  have : ((s6.tab.decRef C0 ⟨some 0, 9⟩).map fun r => (r.1.garbageCollect C0 true).1.nodeCount) = some 3 := by
    decide +kernel
  rw [hr] at this
  simpa using this

end DD.Ex
