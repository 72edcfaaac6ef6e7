import Verif.Model.Size
import Verif.Props.C15
import Verif.Proofs.RealEx
import Mathlib.Data.Set.Card

/-!
# C50: the size of a diagram is the number of its distinct nodes
-/

namespace DD
open UTable

variable {W : Type} {n : Nat}

/-- Specification: the nodes (`none` is the terminal) that can be reached from the node `p`, itself included. -/
inductive ReachableFrom (t : UTable W n) (p : Option Nat) : Option Nat → Prop
  | refl : ReachableFrom t p p
  | step {a : Nat} (i : Fin n) : ReachableFrom t p (some a) → ReachableFrom t p ((t.mem a).e i).p

theorem ReachableFrom.trans {t : UTable W n} {p q r : Option Nat} (h : ReachableFrom t p q) (h' : ReachableFrom t q r) :
    ReachableFrom t p r := by
  induction h' with
  | refl => exact h
  | step i _ ih => exact ih.step i

/-- What a call of `nodeCount` guarantees. -/
structure CountSpec (t : UTable W n) (v : List (Option Nat)) (p : Option Nat) (r : List (Option Nat) × Nat) : Prop where
  nodup : r.1.Nodup
  sub : ∀ x ∈ v, x ∈ r.1
  mem : p ∈ r.1
  reach : ∀ x ∈ r.1, x ∈ v ∨ ReachableFrom t p x
  closed : ∀ a, some a ∈ r.1 → some a ∈ v ∨ ∀ i, ((t.mem a).e i).p ∈ r.1
  count : r.1.length = v.length + r.2

theorem nodeCountF_spec {t : UTable W n} (hc : Closed t) : ∀ (f : Nat) (v : List (Option Nat)) (e : Edge W), v.Nodup → e.p ∉ v →
    (∀ a, e.p = some a → a ∈ t.all ∧ (t.mem a).v < f) → CountSpec t v e.p (nodeCountF t f v e) := by
  have term : ∀ (v : List (Option Nat)), v.Nodup → none ∉ v → CountSpec t v none (none :: v, 1) := by
    intro v hn hv
    refine ⟨List.nodup_cons.2 ⟨hv, hn⟩, fun x hx => List.mem_cons_of_mem _ hx, List.mem_cons_self, ?_, ?_, by simp⟩
    · intro x hx
      rcases List.mem_cons.1 hx with rfl | hx
      · exact .inr .refl
      · exact .inl hx
    · intro a ha
      rcases List.mem_cons.1 ha with h | h
      · cases h
      · exact .inl h
  intro f
  induction f with
  | zero =>
    intro v e hn hv he
    cases hp : e.p with
    | some a => have := (he a hp).2; omega
    | none =>
      unfold nodeCountF
      rw [hp] at hv ⊢
      exact term v hn hv
  | succ f ih =>
    intro v e hn hv he
    unfold nodeCountF
    cases hp : e.p with
    | none =>
      rw [hp] at hv
      exact term v hn hv
    | some a =>
      rw [hp] at hv
      obtain ⟨ha, hlt⟩ := he a hp
      dsimp only
      -- the loop over the edges
      have loop : ∀ (L : List (Fin n)) (s : List (Option Nat) × Nat), s.1.Nodup → (∀ x ∈ v, x ∈ s.1) → some a ∈ s.1 →
          (∀ x ∈ s.1, x ∈ v ∨ ReachableFrom t (some a) x) →
          (∀ b, some b ∈ s.1 → some b ∈ v ∨ b = a ∨ ∀ i, ((t.mem b).e i).p ∈ s.1) → s.1.length = v.length + s.2 →
          let r := L.foldl (fun s i => if ((t.mem a).e i).p ∈ s.1 then s
            else
              let r := nodeCountF t f s.1 ((t.mem a).e i)
              (r.1, s.2 + r.2)) s
          r.1.Nodup ∧ (∀ x ∈ s.1, x ∈ r.1) ∧ (∀ i ∈ L, ((t.mem a).e i).p ∈ r.1) ∧
          (∀ x ∈ r.1, x ∈ v ∨ ReachableFrom t (some a) x) ∧
          (∀ b, some b ∈ r.1 → some b ∈ v ∨ b = a ∨ ∀ i, ((t.mem b).e i).p ∈ r.1) ∧ r.1.length = v.length + r.2 := by
        intro L
        induction L with
        | nil => intro s h1 h2 h3 h4 h5 h6; exact ⟨h1, fun x hx => hx, fun i hi => by simp at hi, h4, h5, h6⟩
        | cons i L ihL =>
          intro s h1 h2 h3 h4 h5 h6
          rw [List.foldl_cons]
          by_cases hin : ((t.mem a).e i).p ∈ s.1
          · rw [if_pos hin]
            obtain ⟨g1, g2, g3, g4, g5, g6⟩ := ihL s h1 h2 h3 h4 h5 h6
            refine ⟨g1, g2, ?_, g4, g5, g6⟩
            intro j hj
            rcases List.mem_cons.1 hj with rfl | hj
            · exact g2 _ hin
            · exact g3 j hj
          · rw [if_neg hin]
            have hs := ih s.1 ((t.mem a).e i) h1 hin (fun b hb => by
              obtain ⟨c1, c2⟩ := hc a ha i b hb
              exact ⟨c1, by omega⟩)
            dsimp only
            generalize nodeCountF t f s.1 ((t.mem a).e i) = r0 at hs
            obtain ⟨g1, g2, g3, g4, g5, g6⟩ := ihL (r0.1, s.2 + r0.2) hs.nodup (fun x hx => hs.sub _ (h2 x hx)) (hs.sub _ h3)
              (fun x hx => by
                rcases hs.reach x hx with h | h
                · exact h4 x h
                · exact .inr ((ReachableFrom.refl.step i).trans h))
              (fun b hb => by
                rcases hs.closed b hb with h | h
                · rcases h5 b h with h | h | h
                  · exact .inl h
                  · exact .inr (.inl h)
                  · exact .inr (.inr fun j => hs.sub _ (h j))
                · exact .inr (.inr h))
              (by
                show r0.1.length = v.length + (s.2 + r0.2)
                rw [hs.count, h6]; omega)
            refine ⟨g1, fun x hx => g2 x (hs.sub x hx), ?_, g4, g5, g6⟩
            intro j hj
            rcases List.mem_cons.1 hj with rfl | hj
            · exact g2 _ hs.mem
            · exact g3 j hj
      obtain ⟨g1, g2, g3, g4, g5, g6⟩ := loop (List.finRange n) (some a :: v, 1) (List.nodup_cons.2 ⟨hv, hn⟩)
        (fun x hx => List.mem_cons_of_mem _ hx) List.mem_cons_self
        (fun x hx => by
          rcases List.mem_cons.1 hx with rfl | hx
          · exact .inr .refl
          · exact .inl hx)
        (fun b hb => by
          rcases List.mem_cons.1 hb with h | h
          · cases h; exact .inr (.inl rfl)
          · exact .inl h)
        (by simp)
      refine ⟨g1, fun x hx => g2 x (List.mem_cons_of_mem _ hx), g2 _ List.mem_cons_self, g4, ?_, g6⟩
      intro b hb
      rcases g5 b hb with h | h | h
      · exact .inl h
      · exact .inr fun i => h ▸ g3 i (List.mem_finRange i)
      · exact .inr h

theorem size_spec {t : UTable W n} (hc : Closed t) {e : Edge W} (he : ∀ a, e.p = some a → a ∈ t.all) :
    {p | ReachableFrom t e.p p}.Finite ∧ t.size e = {p | ReachableFrom t e.p p}.ncard := by
  have hs := nodeCountF_spec hc (t.lvl e) [] e List.nodup_nil (by simp) (fun a ha => ⟨he a ha, by simp [UTable.lvl, ha]⟩)
  unfold UTable.size
  generalize nodeCountF t (t.lvl e) [] e = r at hs
  have heq : {p | ReachableFrom t e.p p} = (r.1.toFinset : Set (Option Nat)) := by
    ext p
    simp only [Set.mem_ofPred_eq, List.coe_toFinset]
    constructor
    · intro h
      induction h with
      | refl => exact hs.mem
      | step i _ ih =>
        rcases hs.closed _ ih with h | h
        · simp at h
        · exact h i
    · intro h
      rcases hs.reach p h with h | h
      · simp at h
      · exact h
  rw [heq, Set.ncard_coe_finset, List.toFinset_card_of_nodup hs.nodup, hs.count]
  exact ⟨Finset.finite_toSet _, by simp⟩

variable [DecidableEq W]

/-- For every history of the unique table, whatever the edge weights and the hash function: the size of a held edge is the
number of nodes reachable from it, shared nodes counted once, the terminal included. -/
theorem C50_size {H : (Fin n → Edge W) → Nat} {C : UCfg} {s : UHist W n} (hC : C.Good) (h : UReach H C s) (e : Edge W)
    (he : e ∈ s.held) : {p | ReachableFrom s.tab e.p p}.Finite ∧ s.tab.size e = {p | ReachableFrom s.tab e.p p}.ncard :=
  size_spec (h.inv hC).closed ((h.inv hC).held e he)

variable {R : Type} [Field R] [LinearOrder R] [IsStrictOrderedRing R] [HasSqrt R] [LawfulSqrt R]

/-- The same for all diagrams of a package, held or not. -/
theorem C50_package {P : PCfg R} {h : PHist R} (hC : P.C.Good) (hr : PReach P h) {k : Kind} {l : Nat} {e : PEdge R}
    (he : Valid (h.pkg.ut k) l e) :
    {p | ReachableFrom (h.pkg.ut k) e.p p}.Finite ∧ (h.pkg.ut k).size e = {p | ReachableFrom (h.pkg.ut k) e.p p}.ncard := by
  apply size_spec (((hr.inv hC).wf.tab k).child).closed
  intro a ha
  rw [valid_some ha] at he
  exact he.1

end DD

namespace DD.Ex
open UTable

/-- In the example of C14, the held top edge has three nodes and the terminal. -/
example : UReach H0 C0 s6 ∧ top ∈ s6.held ∧ s6.tab.size top = 4 := ⟨s6_reach, by decide +kernel, by decide +kernel⟩

end DD.Ex
