import Verif.Proofs.UHist

/-!
# C13: hash consing

In every state that a sequence of calls can reach, for every hash function, number of buckets and number of levels:
there is only one stored node with given level and outgoing edges, asking for a node returns the stored node with these
contents if there is one, and never changes or reuses a stored node.
-/

namespace DD
open UTable

variable {W : Type} {n : Nat} [DecidableEq W] {H : (Fin n → Edge W) → Nat} {C : UCfg} {s : UHist W n}

/-- Stored nodes with equal level and equal edges are the same node. -/
theorem C13_unique (hC : C.Good) (h : UReach H C s) (a b : Nat) (ha : a ∈ s.tab.all) (hb : b ∈ s.tab.all)
    (hv : (s.tab.mem a).v = (s.tab.mem b).v) (he : (s.tab.mem a).e = (s.tab.mem b).e) : a = b :=
  (h.inv hC).uwf.uniq a ha b hb hv he

/-- Asking for a node: the answer is stored and has the requested level and edges; every stored node stays stored with
its contents and reference count; a stored node with the requested contents is the answer; and the number of nodes grows
by one exactly if there was none. -/
theorem C13_lookup (hC : C.Good) (h : UReach H C s) (v : Nat) (es : Fin n → Edge W) (ident symm : Bool)
    (hv : v < s.tab.nvars) :
    let r := s.tab.mkNode H C v es ident symm
    r.2 ∈ r.1.all ∧ (r.1.mem r.2).v = v ∧ (r.1.mem r.2).e = es ∧
    (∀ a ∈ s.tab.all, a ∈ r.1.all ∧ r.1.mem a = s.tab.mem a) ∧
    (∀ a ∈ s.tab.all, (s.tab.mem a).v = v → (s.tab.mem a).e = es → r.2 = a) ∧
    (r.1.nodeCount = s.tab.nodeCount ∧ r.2 ∈ s.tab.all ∨
      r.1.nodeCount = s.tab.nodeCount + 1 ∧ r.2 ∉ s.tab.all ∧
        ∀ a ∈ s.tab.all, ¬ ((s.tab.mem a).v = v ∧ (s.tab.mem a).e = es)) := by
  have hi := h.inv hC
  obtain ⟨w1, _, _, hm, _, _, _, hv', he', hcase⟩ := mkNode_spec hC.growth hi.uwf v es ident symm hv
  intro r
  have hsub : ∀ a ∈ s.tab.all, a ∈ r.1.all := by
    intro a ha
    rcases hcase with ⟨_, h2⟩ | ⟨_, h2, _⟩
    · exact h2 ▸ ha
    · exact h2.symm.mem_iff.1 (List.mem_cons_of_mem _ ha)
  have hmem : r.2 ∈ r.1.all := by
    rcases hcase with ⟨h1, h2⟩ | ⟨_, h2, _⟩
    · exact hsub _ h1
    · exact h2.symm.mem_iff.1 (List.mem_cons_self)
  refine ⟨hmem, hv', he', fun a ha => ⟨hsub a ha, hm a ha⟩, ?_, ?_⟩
  · intro a ha h1 h2
    apply w1.uniq r.2 hmem a (hsub a ha)
    · rw [hm a ha, h1]; exact hv'
    · rw [hm a ha, h2]; exact he'
  · rcases hcase with ⟨h1, h2⟩ | ⟨h1, h2, _, h3⟩
    · left
      refine ⟨?_, h1⟩
      rw [w1.count, hi.uwf.count, h2]
    · right
      refine ⟨?_, h1, ?_⟩
      · rw [w1.count, hi.uwf.count, h2.length_eq, List.length_cons]
      · rintro a ha ⟨h4, h5⟩
        exact h3 a ha h4 h5

/-- Asking again with the same contents gives the same node and leaves the number of nodes unchanged. -/
theorem C13_again (hC : C.Good) (h : UReach H C s) (v : Nat) (es : Fin n → Edge W) (ident symm ident' symm' : Bool)
    (hv : v < s.tab.nvars) (hes : ∀ i b, (es i).p = some b → b ∈ s.tab.all ∧ (s.tab.mem b).v < v) :
    let r := s.tab.mkNode H C v es ident symm
    (r.1.mkNode H C v es ident' symm').2 = r.2 ∧ (r.1.mkNode H C v es ident' symm').1.nodeCount = r.1.nodeCount := by
  intro r
  have h1 := C13_lookup hC h v es ident symm hv
  have hr := UReach.step h (UStep.mk s v es ident symm hv hes)
  have hnv : r.1.nvars = s.tab.nvars := (mkNode_spec hC.growth (h.inv hC).uwf v es ident symm hv).2.1
  have h2 := C13_lookup hC hr v es ident' symm' (by show v < r.1.nvars; rw [hnv]; exact hv)
  obtain ⟨a1, a2, a3, _⟩ := h1
  obtain ⟨_, _, _, _, b5, b6⟩ := h2
  have := b5 r.2 a1 a2 a3
  refine ⟨this, ?_⟩
  rcases b6 with ⟨c1, _⟩ | ⟨_, _, c2⟩
  · exact c1
  · exact absurd ⟨a2, a3⟩ (c2 r.2 a1)

/-- The node count reported by the table is the number of different stored nodes. -/
theorem C13_count (hC : C.Good) (h : UReach H C s) : s.tab.nodeCount = s.tab.all.length ∧ s.tab.all.Nodup :=
  ⟨(h.inv hC).uwf.count, (h.inv hC).uwf.nodup⟩

end DD

/-! A concrete case: two levels, two buckets, a constant hash (every node collides). -/
namespace DD.Ex
open UTable

/-- Constant hash. -/
def H0 : (Fin 2 → Edge Nat) → Nat := fun _ => 0
/-- Small configuration: chunks of one cell. -/
def C0 : UCfg := ⟨1, 1, 2, 3⟩
/-- Start. -/
def s0 : UHist Nat 2 := ⟨UTable.init C0 2 2 ⟨0, fun _ => ⟨none, 0⟩, 0, false, false⟩, [], fun _ => 0⟩
/-- Edges of a bottom node. -/
def es0 : Fin 2 → Edge Nat := fun i => ⟨none, i.val + 1⟩
/-- Edges of another bottom node. -/
def es1 : Fin 2 → Edge Nat := fun i => ⟨none, i.val⟩
/-- Edges of a top node: both bottom nodes. -/
def es2 : Fin 2 → Edge Nat := fun i => ⟨some i.val, 5⟩
/-- After one node. -/
def s1 : UHist Nat 2 := { s0 with tab := (s0.tab.mkNode H0 C0 0 es0 false false).1 }
/-- After two nodes. -/
def s2 : UHist Nat 2 := { s1 with tab := (s1.tab.mkNode H0 C0 0 es1 false false).1 }
/-- After three nodes. -/
def s3 : UHist Nat 2 := { s2 with tab := (s2.tab.mkNode H0 C0 1 es2 false false).1 }

theorem C0_good : C0.Good := ⟨by decide, by decide, by decide⟩

theorem s3_reach : UReach H0 C0 s3 := by
  have h0 : UReach H0 C0 s0 := UReach.init 2 2 (by decide) _
  have h1 : UReach H0 C0 s1 := h0.step (UStep.mk s0 0 es0 false false (by decide) (by simp [es0]))
  have h2 : UReach H0 C0 s2 := h1.step (UStep.mk s1 0 es1 false false (by decide) (by simp [es1]))
  refine h2.step (UStep.mk s2 1 es2 false false (by decide) ?_)
  intro i b hb
  simp only [es2, Option.some.injEq] at hb
  subst hb
  revert i
  decide +kernel

/-- Three different nodes are stored, and asking for the first one again (with all nodes in one bucket) finds it. -/
example : s3.tab.all.length = 3 ∧ (s3.tab.mkNode H0 C0 0 es0 false false).2 = 0 ∧
    (s3.tab.mkNode H0 C0 1 es0 false false).2 = 3 := by decide +kernel

example : (s3.tab.mkNode H0 C0 1 es2 false false).2 = 2 :=
  (C13_lookup C0_good s3_reach 1 es2 false false (by decide)).2.2.2.2.1 2 (by decide +kernel) (by decide +kernel)
    (by decide +kernel)

end DD.Ex
