import Verif.Model.Dot
import Verif.Props.C50

/-!
# C64: drawings are complete and list nothing twice

The walk of `toDot` and `exportEdgeWeights`. `skip` is the test for edges that are left out: nearly zero weights, or weights that are exactly zero in the
memory layout.
-/

namespace DD
open UTable

variable {W : Type} {n : Nat}

/-- Specification: the nodes that can be reached from the node `p`, itself included, along edges that are not left out. -/
inductive DrawnFrom (t : UTable W n) (skip : W → Bool) (p : Option Nat) : Option Nat → Prop
  | refl : DrawnFrom t skip p p
  | step {a : Nat} (i : Fin n) : DrawnFrom t skip p (some a) → skip ((t.mem a).e i).w = false → DrawnFrom t skip p ((t.mem a).e i).p

theorem mem_dotEdges {t : UTable W n} {skip : W → Bool} {a b : Nat} {i : Fin n} {x : Edge W} :
    (b, i, x) ∈ t.dotEdges skip a ↔ b = a ∧ x = (t.mem a).e i ∧ skip ((t.mem a).e i).w = false := by
  unfold dotEdges
  simp only [List.mem_map, List.mem_filter, List.mem_reverse, List.mem_finRange, true_and, Bool.not_eq_true', Prod.mk.injEq]
  constructor
  · rintro ⟨j, h1, rfl, rfl, rfl⟩; exact ⟨rfl, rfl, h1⟩
  · rintro ⟨rfl, rfl, h⟩; exact ⟨i, h, rfl, rfl, rfl⟩

theorem dotEdges_nodup (t : UTable W n) (skip : W → Bool) (a : Nat) : (t.dotEdges skip a).Nodup := by
  unfold dotEdges
  refine List.Nodup.map (fun i j h => ?_) ((List.nodup_reverse.2 (List.nodup_finRange n)).filter _)
  simp only [Prod.mk.injEq] at h
  exact h.2.1

/-- What holds before every round of the loop. -/
structure DotInv (t : UTable W n) (skip : W → Bool) (e : Edge W) (s : DotState W n) : Prop where
  nodup : s.nodes.Nodup
  reach : ∀ a ∈ s.nodes, DrawnFrom t skip e.p (some a) ∧ a ∈ t.all
  queue : ∀ x ∈ s.queue, DrawnFrom t skip e.p x.p ∧ ∀ a, x.p = some a → a ∈ t.all
  root : ∀ a, e.p = some a → a ∈ s.nodes ∨ ∃ x ∈ s.queue, x.p = some a
  closed : ∀ a ∈ s.nodes, ∀ i b, skip ((t.mem a).e i).w = false → ((t.mem a).e i).p = some b → b ∈ s.nodes ∨ ∃ x ∈ s.queue, x.p = some b
  edges : s.edges = s.nodes.flatMap (t.dotEdges skip)
  order : s.nodes.Pairwise fun a b => (t.mem b).v ≤ (t.mem a).v
  low : ∀ a ∈ s.nodes, ∀ x ∈ s.queue, t.lvl x ≤ (t.mem a).v + 1

theorem DotInv.start {t : UTable W n} {skip : W → Bool} {e : Edge W} (he : ∀ a, e.p = some a → a ∈ t.all) : DotInv t skip e (dotStart e) where
  nodup := List.nodup_nil
  reach := by simp [dotStart]
  queue := by
    intro x hx
    simp only [dotStart, List.mem_singleton] at hx
    subst hx
    exact ⟨.refl, he⟩
  root := fun a ha => .inr ⟨e, by simp [dotStart], ha⟩
  closed := by simp [dotStart]
  edges := rfl
  order := List.Pairwise.nil
  low := by simp [dotStart]

theorem DotInv.step {t : UTable W n} {skip : W → Bool} {e : Edge W} (hc : Closed t) {s s' : DotState W n} (h : DotInv t skip e s)
    (hs : DotStep t skip s s') : DotInv t skip e s' := by
  obtain ⟨q1, q2, x, hq, hmax⟩ := hs
  have hsub : ∀ y ∈ q1 ++ q2, y ∈ s.queue := by
    intro y hy; rw [hq]; rw [List.mem_append] at hy ⊢
    rcases hy with h | h
    · exact .inl h
    · exact .inr (List.mem_cons_of_mem _ h)
  have hx : x ∈ s.queue := by rw [hq]; simp
  have hsplit : ∀ y ∈ s.queue, y = x ∨ y ∈ q1 ++ q2 := by
    intro y hy; rw [hq] at hy
    simp only [List.mem_append, List.mem_cons] at hy ⊢
    tauto
  -- dropping an edge to the terminal or to a processed node
  have drop : (∀ a, x.p = some a → a ∈ s.nodes) → DotInv t skip e { s with queue := q1 ++ q2 } := by
    intro hd
    have mv : ∀ b, (b ∈ s.nodes ∨ ∃ y ∈ s.queue, y.p = some b) → b ∈ s.nodes ∨ ∃ y ∈ q1 ++ q2, y.p = some b := by
      rintro b (hb | ⟨y, hy, hyb⟩)
      · exact .inl hb
      · rcases hsplit y hy with rfl | hy
        · exact .inl (hd b hyb)
        · exact .inr ⟨y, hy, hyb⟩
    exact ⟨h.nodup, h.reach, fun y hy => h.queue y (hsub y hy), fun a ha => mv a (h.root a ha),
      fun a ha i b h1 h2 => mv b (h.closed a ha i b h1 h2), h.edges, h.order, fun a ha y hy => h.low a ha y (hsub y hy)⟩
  unfold dotVisit
  cases hp : x.p with
  | none => exact drop (by simp [hp])
  | some a =>
    dsimp only
    split_ifs with ha
    · exact drop (by rw [hp]; rintro b ⟨⟩; exact ha)
    · have hxa := h.queue x hx
      have haall := hxa.2 a hp
      have hlx : t.lvl x = (t.mem a).v + 1 := by simp [UTable.lvl, hp]
      have hda : DrawnFrom t skip e.p (some a) := hp ▸ hxa.1
      have mv : ∀ b, (b ∈ s.nodes ∨ ∃ y ∈ s.queue, y.p = some b) →
          b ∈ s.nodes ++ [a] ∨ ∃ y ∈ q1 ++ q2 ++ (t.dotEdges skip a).map (fun d => d.2.2), y.p = some b := by
        rintro b (hb | ⟨y, hy, hyb⟩)
        · exact .inl (List.mem_append_left _ hb)
        · rcases hsplit y hy with rfl | hy
          · rw [hp] at hyb; cases hyb; exact .inl (by simp)
          · exact .inr ⟨y, List.mem_append_left _ hy, hyb⟩
      have hch : ∀ y ∈ (t.dotEdges skip a).map (fun d => d.2.2), ∃ i, y = (t.mem a).e i ∧ skip ((t.mem a).e i).w = false := by
        intro y hy
        obtain ⟨⟨b, i, z⟩, hm, rfl⟩ := List.mem_map.1 hy
        obtain ⟨_, h2, h3⟩ := mem_dotEdges.1 hm
        exact ⟨i, h2, h3⟩
      have hlow : ∀ y ∈ q1 ++ q2 ++ (t.dotEdges skip a).map (fun d => d.2.2), t.lvl y ≤ (t.mem a).v + 1 := by
        intro y hy
        rcases List.mem_append.1 hy with hy | hy
        · rw [← hlx]; exact hmax y (hsub y hy)
        · obtain ⟨i, rfl, _⟩ := hch y hy
          cases hb : ((t.mem a).e i).p with
          | none => simp [UTable.lvl, hb]
          | some b =>
            have := (hc a haall i b hb).2
            simp only [UTable.lvl, hb]; omega
      have hle : ∀ b ∈ s.nodes, (t.mem a).v ≤ (t.mem b).v := by
        intro b hb
        have := h.low b hb x hx
        omega
      refine ⟨?_, ?_, ?_, fun b hb => mv b (h.root b hb), ?_, ?_, ?_, ?_⟩
      · exact List.nodup_append.2 ⟨h.nodup, by simp, by
          intro b hb c hc' heq
          rw [List.mem_singleton] at hc'
          exact ha (by rw [← hc', ← heq]; exact hb)⟩
      · intro b hb
        rcases List.mem_append.1 hb with hb | hb
        · exact h.reach b hb
        · rw [List.mem_singleton] at hb; subst hb; exact ⟨hda, haall⟩
      · intro y hy
        rcases List.mem_append.1 hy with hy | hy
        · exact h.queue y (hsub y hy)
        · obtain ⟨i, rfl, hi⟩ := hch y hy
          exact ⟨hda.step i hi, fun b hb => (hc a haall i b hb).1⟩
      · intro b hb i c h1 h2
        rcases List.mem_append.1 hb with hb | hb
        · exact mv c (h.closed b hb i c h1 h2)
        · rw [List.mem_singleton] at hb; subst hb
          exact .inr ⟨(t.mem b).e i, List.mem_append_right _ (List.mem_map.2 ⟨(b, i, _), mem_dotEdges.2 ⟨rfl, rfl, h1⟩, rfl⟩), h2⟩
      · show s.edges ++ _ = _
        rw [h.edges, List.flatMap_append]; simp
      · refine List.pairwise_append.2 ⟨h.order, List.pairwise_singleton _ _, ?_⟩
        intro b hb c hc'
        rw [List.mem_singleton] at hc'; subst hc'
        exact hle b hb
      · intro b hb y hy
        have := hlow y hy
        rcases List.mem_append.1 hb with hb | hb
        · have := hle b hb; omega
        · rw [List.mem_singleton] at hb; subst hb; exact this

theorem DotInv.run {t : UTable W n} {skip : W → Bool} {e : Edge W} (hc : Closed t) (he : ∀ a, e.p = some a → a ∈ t.all) {s : DotState W n}
    (hs : Relation.ReflTransGen (DotStep t skip) (dotStart e) s) : DotInv t skip e s := by
  induction hs with
  | refl => exact .start he
  | tail _ h ih => exact ih.step hc h

/-- Measure of the loop. -/
def dotLeft (t : UTable W n) (s : DotState W n) : Nat := (t.all.toFinset \ s.nodes.toFinset).card * (n + 1) + s.queue.length

theorem dotLeft_step {t : UTable W n} {skip : W → Bool} {e : Edge W} {s s' : DotState W n} (h : DotInv t skip e s)
    (hs : DotStep t skip s s') : dotLeft t s' < dotLeft t s := by
  obtain ⟨q1, q2, x, hq, hmax⟩ := hs
  have hlen : s.queue.length = (q1 ++ q2).length + 1 := by rw [hq]; simp; omega
  unfold dotVisit
  cases hp : x.p with
  | none => unfold dotLeft; dsimp only; omega
  | some a =>
    dsimp only
    split_ifs with ha
    · unfold dotLeft; dsimp only; omega
    · have haall := (h.queue x (by rw [hq]; simp)).2 a hp
      unfold dotLeft; dsimp only
      have h1 : (t.all.toFinset \ (s.nodes ++ [a]).toFinset).card + 1 ≤ (t.all.toFinset \ s.nodes.toFinset).card := by
        have hss : insert a (t.all.toFinset \ (s.nodes ++ [a]).toFinset) ⊆ t.all.toFinset \ s.nodes.toFinset := by
          intro b hb
          simp only [Finset.mem_insert, Finset.mem_sdiff, List.mem_toFinset, List.mem_append, List.mem_singleton] at hb ⊢
          rcases hb with rfl | hb
          · exact ⟨haall, ha⟩
          · exact ⟨hb.1, fun h => hb.2 (.inl h)⟩
        have := Finset.card_le_card hss
        rwa [Finset.card_insert_of_notMem (by simp)] at this
      have h2 : ((t.dotEdges skip a).map fun d => d.2.2).length ≤ n := by
        unfold dotEdges
        rw [List.length_map, List.length_map]
        refine (List.length_filter_le _ _).trans ?_
        simp
      rw [List.length_append]
      have := Nat.mul_le_mul_right (n + 1) h1
      rw [Nat.add_mul] at this
      omega

/-- The walk ends: there is no infinite run, and as long as the queue is not empty there is a next round. -/
theorem dot_ends {t : UTable W n} {skip : W → Bool} {e : Edge W} (hc : Closed t) (he : ∀ a, e.p = some a → a ∈ t.all) :
    (¬ ∃ f : Nat → DotState W n, f 0 = dotStart e ∧ ∀ i, DotStep t skip (f i) (f (i + 1))) ∧
    ∀ s : DotState W n, s.queue ≠ [] → ∃ s', DotStep t skip s s' := by
  constructor
  · rintro ⟨f, h0, hf⟩
    have hi : ∀ i, DotInv t skip e (f i) := by
      intro i
      induction i with
      | zero => rw [h0]; exact .start he
      | succ i ih => exact ih.step hc (hf i)
    have hd : ∀ i, dotLeft t (f i) + i ≤ dotLeft t (f 0) := by
      intro i
      induction i with
      | zero => simp
      | succ i ih => have := dotLeft_step (hi i) (hf i); omega
    have := hd (dotLeft t (f 0) + 1)
    omega
  · intro s hs
    obtain ⟨x, hx, hm⟩ : ∃ x ∈ s.queue, ∀ y ∈ s.queue, t.lvl y ≤ t.lvl x := by
      obtain ⟨x, hx, hm⟩ := Finset.exists_max_image (s.queue.map t.lvl).toFinset id (by
        cases hq : s.queue with
        | nil => exact absurd hq hs
        | cons y l => exact ⟨t.lvl y, by simp⟩)
      rw [List.mem_toFinset, List.mem_map] at hx
      obtain ⟨y, hy, rfl⟩ := hx
      exact ⟨y, hy, fun z hz => hm _ (List.mem_toFinset.2 (List.mem_map_of_mem hz))⟩
    obtain ⟨q1, q2, hq⟩ := List.append_of_mem hx
    exact ⟨_, .pop q1 q2 x hq hm⟩

theorem dot_result {t : UTable W n} {skip : W → Bool} {e : Edge W} (hc : Closed t) (he : ∀ a, e.p = some a → a ∈ t.all) {s : DotState W n}
    (hs : Relation.ReflTransGen (DotStep t skip) (dotStart e) s) (hq : s.queue = []) :
    (s.nodes.Nodup ∧ ∀ a, a ∈ s.nodes ↔ DrawnFrom t skip e.p (some a)) ∧
    (s.edges.Nodup ∧ ∀ a i x, (a, i, x) ∈ s.edges ↔ DrawnFrom t skip e.p (some a) ∧ x = (t.mem a).e i ∧ skip x.w = false) ∧
    s.nodes.Pairwise fun a b => (t.mem b).v ≤ (t.mem a).v := by
  have h := DotInv.run hc he hs
  have hmem : ∀ a, a ∈ s.nodes ↔ DrawnFrom t skip e.p (some a) := by
    intro a
    refine ⟨fun ha => (h.reach a ha).1, fun ha => ?_⟩
    have key : ∀ p, DrawnFrom t skip e.p p → ∀ a, p = some a → a ∈ s.nodes := by
      intro p hp
      induction hp with
      | refl =>
        intro a ha
        rcases h.root a ha with h1 | ⟨x, hx, _⟩
        · exact h1
        · rw [hq] at hx; simp at hx
      | step i _ hsk ih =>
        intro b hb
        rcases h.closed _ (ih _ rfl) i b hsk hb with h1 | ⟨x, hx, _⟩
        · exact h1
        · rw [hq] at hx; simp at hx
    exact key _ ha a rfl
  refine ⟨⟨h.nodup, hmem⟩, ⟨?_, ?_⟩, h.order⟩
  · rw [h.edges, List.nodup_flatMap]
    refine ⟨fun a _ => dotEdges_nodup t skip a, ?_⟩
    refine h.nodup.imp fun {a b} hab => ?_
    intro ⟨c, i, x⟩ h1 h2
    exact hab ((mem_dotEdges.1 h1).1.symm.trans (mem_dotEdges.1 h2).1)
  · intro a i x
    rw [h.edges, List.mem_flatMap]
    constructor
    · rintro ⟨b, hb, hm⟩
      obtain ⟨rfl, rfl, h3⟩ := mem_dotEdges.1 hm
      exact ⟨(hmem _).1 hb, rfl, h3⟩
    · rintro ⟨h1, rfl, h3⟩
      exact ⟨a, (hmem a).2 h1, mem_dotEdges.2 ⟨rfl, rfl, h3⟩⟩

section

variable {R : Type} [Field R] [LinearOrder R] [IsStrictOrderedRing R] [HasSqrt R] [LawfulSqrt R]

/-- For every diagram of a package: the drawing ends, whichever edges the priority queue prefers. -/
theorem C64_ends {P : PCfg R} {h : PHist R} (hC : P.C.Good) (hr : PReach P h) {k : Kind} {l : Nat} {e : PEdge R}
    (he : Valid (h.pkg.ut k) l e) (skip : Cx R → Bool) :
    (¬ ∃ f : Nat → DotState (Cx R) (ar k), f 0 = dotStart e ∧ ∀ i, DotStep (h.pkg.ut k) skip (f i) (f (i + 1))) ∧
    ∀ s : DotState (Cx R) (ar k), s.queue ≠ [] → ∃ s', DotStep (h.pkg.ut k) skip s s' :=
  dot_ends (((hr.inv hC).wf.tab k).child).closed (fun a ha => ((valid_some ha).1 he).1)

/-- For every diagram of a package: when the drawing ends, it has declared exactly the nodes that can be reached along edges that are not left out, each
once, higher levels first, and exactly the edges out of these nodes that are not left out, each once and at its own port. -/
theorem C64_complete {P : PCfg R} {h : PHist R} (hC : P.C.Good) (hr : PReach P h) {k : Kind} {l : Nat} {e : PEdge R}
    (he : Valid (h.pkg.ut k) l e) {skip : Cx R → Bool} {s : DotState (Cx R) (ar k)}
    (hs : Relation.ReflTransGen (DotStep (h.pkg.ut k) skip) (dotStart e) s) (hq : s.queue = []) :
    (s.nodes.Nodup ∧ ∀ a, a ∈ s.nodes ↔ DrawnFrom (h.pkg.ut k) skip e.p (some a)) ∧
    (s.edges.Nodup ∧ ∀ a i x, (a, i, x) ∈ s.edges ↔
      DrawnFrom (h.pkg.ut k) skip e.p (some a) ∧ x = ((h.pkg.ut k).mem a).e i ∧ skip x.w = false) ∧
    s.nodes.Pairwise fun a b => ((h.pkg.ut k).mem b).v ≤ ((h.pkg.ut k).mem a).v :=
  dot_result (((hr.inv hC).wf.tab k).child).closed (fun a ha => ((valid_some ha).1 he).1) hs hq

/-- If exactly the weights that are zero are left out, all nodes of the diagram are drawn: one less than its size, which counts the terminal. -/
theorem C64_all {P : PCfg R} {h : PHist R} (hC : P.C.Good) (hr : PReach P h) {k : Kind} {l : Nat} {e : PEdge R}
    (he : Valid (h.pkg.ut k) l e) {skip : Cx R → Bool} (h0 : ∀ w, skip w = true ↔ w = 0) {s : DotState (Cx R) (ar k)}
    (hs : Relation.ReflTransGen (DotStep (h.pkg.ut k) skip) (dotStart e) s) (hq : s.queue = []) :
    (∀ a, a ∈ s.nodes ↔ ReachableFrom (h.pkg.ut k) e.p (some a)) ∧ s.nodes.length + 1 = (h.pkg.ut k).size e := by
  have hT := ((hr.inv hC).wf.tab k).child
  obtain ⟨⟨h1, h2⟩, _⟩ := C64_complete hC hr he hs hq
  have hall : ∀ p, ReachableFrom (h.pkg.ut k) e.p p → ∀ a, p = some a → a ∈ (h.pkg.ut k).all := by
    intro p hp
    induction hp with
    | refl => intro a ha; exact ((valid_some ha).1 he).1
    | step i _ ih => intro a ha; exact (hT.closed _ (ih _ rfl) i a ha).1
  have hmem : ∀ a, a ∈ s.nodes ↔ ReachableFrom (h.pkg.ut k) e.p (some a) := by
    intro a
    rw [h2]
    constructor
    · intro hd
      have : ∀ p, DrawnFrom (h.pkg.ut k) skip e.p p → ReachableFrom (h.pkg.ut k) e.p p := by
        intro p hp
        induction hp with
        | refl => exact .refl
        | step i _ _ ih => exact ih.step i
      exact this _ hd
    · intro hd
      have : ∀ p, ReachableFrom (h.pkg.ut k) e.p p → ∀ a, p = some a → DrawnFrom (h.pkg.ut k) skip e.p (some a) := by
        intro p hp
        induction hp with
        | refl => intro a ha; rw [ha]; exact .refl
        | step i hb ih =>
          intro a ha
          rw [← ha]
          refine (ih _ rfl).step i ?_
          rw [Bool.eq_false_iff, Ne, h0]
          intro hw
          exact ((valid_some ha).1 (hT _ (hall _ hb _ rfl) i)).2.2 hw
      exact this _ hd a rfl
  refine ⟨hmem, ?_⟩
  have hpos : 0 < ar k := by cases k <;> decide
  have hterm : ∀ (m : Nat) (p : Option Nat), ReachableFrom (h.pkg.ut k) e.p p → (∀ a, p = some a → ((h.pkg.ut k).mem a).v < m) →
      ReachableFrom (h.pkg.ut k) e.p none := by
    intro m
    induction m with
    | zero =>
      intro p hp hlt
      cases p with
      | none => exact hp
      | some a => exact absurd (hlt a rfl) (by omega)
    | succ m ih =>
      intro p hp hlt
      cases p with
      | none => exact hp
      | some a =>
        refine ih _ (hp.step ⟨0, hpos⟩) fun b hb => ?_
        have := (hT.closed a (hall _ hp a rfl) _ b hb).2
        have := hlt a rfl
        omega
  have hnone : ReachableFrom (h.pkg.ut k) e.p none :=
    hterm ((h.pkg.ut k).lvl e) e.p .refl fun a ha => by simp [UTable.lvl, ha]
  rw [(C50_package hC hr he).2]
  have hset : {p | ReachableFrom (h.pkg.ut k) e.p p} = ((none :: s.nodes.map some).toFinset : Set (Option Nat)) := by
    ext p
    simp only [Set.mem_ofPred_eq, List.coe_toFinset, List.mem_cons, List.mem_map]
    cases p with
    | none => simp [hnone]
    | some a => simp [← hmem a]
  rw [hset, Set.ncard_coe_finset, List.toFinset_card_of_nodup]
  · simp
  · exact List.nodup_cons.2 ⟨by simp, h1.map (Option.some_injective _)⟩

/-- `exportEdgeWeights` lists the weight of the diagram and the weights of the edges of the drawing, in the order in which they are drawn. -/
theorem C64_weights {P : PCfg R} {h : PHist R} (hC : P.C.Good) (hr : PReach P h) {k : Kind} {l : Nat} {e : PEdge R}
    (he : Valid (h.pkg.ut k) l e) {skip : Cx R → Bool} {s : DotState (Cx R) (ar k)}
    (hs : Relation.ReflTransGen (DotStep (h.pkg.ut k) skip) (dotStart e) s) (hq : s.queue = []) (w : Cx R) :
    w ∈ edgeWeights e s ↔ w = e.w ∨ ∃ a i, DrawnFrom (h.pkg.ut k) skip e.p (some a) ∧ w = (((h.pkg.ut k).mem a).e i).w ∧ skip w = false := by
  obtain ⟨_, ⟨_, h2⟩, _⟩ := C64_complete hC hr he hs hq
  unfold edgeWeights
  rw [List.mem_cons, List.mem_map]
  refine or_congr Iff.rfl ?_
  constructor
  · rintro ⟨⟨a, i, x⟩, hm, rfl⟩
    obtain ⟨h3, rfl, h5⟩ := (h2 a i x).1 hm
    exact ⟨a, i, h3, rfl, h5⟩
  · rintro ⟨a, i, h3, rfl, h5⟩
    exact ⟨(a, i, _), (h2 a i _).2 ⟨h3, rfl, h5⟩, rfl⟩

/-- The hypotheses are met: a state of three qubits can be drawn completely. -/
example : ∃ (h : PHist ℝ) (x : PEdge ℝ) (s : DotState (Cx ℝ) 2), PReach (Ex.PR ℝ) h ∧ x.w ≠ 0 ∧
    Relation.ReflTransGen (DotStep (h.pkg.ut .v) (fun w => decide (w = 0))) (dotStart x) s ∧ s.queue = [] ∧ s.nodes ≠ [] ∧
    s.nodes.length + 1 = (h.pkg.ut .v).size x := by
  obtain ⟨h, x, y, A, B, hr, hn, vx, vy, vA, vB, hx, hA, ax, ay, aA, aB, wx, wy, wA, wB⟩ := Ex.setup (R := ℝ)
  have hC := Ex.PR_good ℝ
  have hends := C64_ends hC hr vx (fun w => decide (w = 0))
  -- a run to the end exists
  have run : ∃ s : DotState (Cx ℝ) 2, Relation.ReflTransGen (DotStep (h.pkg.ut .v) (fun w => decide (w = 0))) (dotStart x) s ∧ s.queue = [] := by
    by_contra hno
    push Not at hno
    choose! g hg using hends.2
    have hrun : ∀ i, Relation.ReflTransGen (DotStep (h.pkg.ut .v) (fun w => decide (w = 0))) (dotStart x) (g^[i] (dotStart x)) := by
      intro i
      induction i with
      | zero => exact .refl
      | succ i ih => rw [Function.iterate_succ_apply']; exact ih.tail (hg _ (hno _ ih))
    exact hends.1 ⟨fun i => g^[i] (dotStart x), rfl, fun i => by
      show DotStep _ _ (g^[i] (dotStart x)) (g^[i + 1] (dotStart x))
      rw [Function.iterate_succ_apply']; exact hg _ (hno _ (hrun i))⟩
  obtain ⟨s, hs, hq⟩ := run
  have hall := C64_all hC hr vx (fun w => by simp) hs hq
  refine ⟨h, x, s, hr, wx, hs, hq, ?_, hall.2⟩
  intro hnil
  cases hp : x.p with
  | none =>
    have := (valid_none hp).1 vx
    rcases this with h1 | h1
    · omega
    · exact wx h1
  | some a =>
    have := (hall.1 a).2 (hp ▸ .refl)
    rw [hnil] at this
    simp at this

end

end DD
