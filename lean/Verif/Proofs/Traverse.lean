import Verif.Model.Serialize
import Verif.Proofs.MakeNode

/-!
# The iterative post-order traversal

The traversal ends and visits every node of the diagram once, children before parents, provided that at every node
no new target follows a repeated one among the outgoing edges. (For nodes with two edges, this is always the case.)
-/

namespace DD

variable {R : Type} [Field R] [LinearOrder R] [IsStrictOrderedRing R]

/-- Lists of stored nodes below level `m` without repetitions, in which the children of a node precede it. -/
inductive Topo {n : Nat} (t : UTable (Cx R) n) (m : Nat) : List Nat → Prop
  | nil : Topo t m []
  | snoc {L : List Nat} {a : Nat} : Topo t m L → a ∈ t.all → (t.mem a).v < m → a ∉ L →
      (∀ q b, ((t.mem a).e q).p = some b → b ∈ L) → Topo t m (L ++ [a])

theorem Topo.closed {n : Nat} {t : UTable (Cx R) n} {m : Nat} {L : List Nat} (h : Topo t m L) :
    ∀ a ∈ L, ∀ q b, ((t.mem a).e q).p = some b → b ∈ L := by
  induction h with
  | nil => simp
  | snoc h1 h2 h3 h4 h5 ih =>
    intro a ha q b hb
    rw [List.mem_append] at ha ⊢
    rcases ha with ha | ha
    · exact Or.inl (ih a ha q b hb)
    · rw [List.mem_singleton] at ha
      subst ha
      exact Or.inl (h5 q b hb)

namespace Trav

variable {n : Nat} {t : UTable (Cx R) (n + 1)}

/-- Among the edges, no new target follows a known or repeated one. -/
def Fresh (A : Set Nat) : List (PEdge R) → Prop
  | [] => True
  | x :: xs => (∀ y ∈ x :: xs, ∃ b ∈ A, y.p = some b) ∨ ∃ b, b ∉ A ∧ x.p = some b ∧ Fresh (insert b A) xs

theorem Fresh.congr : ∀ {xs : List (PEdge R)} {A B : Set Nat}, (∀ y ∈ xs, ∀ b, y.p = some b → (b ∈ A ↔ b ∈ B)) →
    Fresh A xs → Fresh B xs
  | [], _, _, _, _ => trivial
  | x :: xs, A, B, hAB, h => by
    rcases h with h | ⟨b, h1, h2, h3⟩
    · left
      intro y hy
      obtain ⟨b, hb, hyb⟩ := h y hy
      exact ⟨b, (hAB y hy b hyb).1 hb, hyb⟩
    · right
      refine ⟨b, fun hb => h1 ((hAB x List.mem_cons_self b h2).2 hb), h2, Fresh.congr (fun y hy c hc => ?_) h3⟩
      simp only [Set.mem_insert_iff]
      rw [hAB y (List.mem_cons_of_mem _ hy) c hc]

/-- The edges pushed at a node. -/
def pend (D : List Nat) (es : Fin (n + 1) → PEdge R) : List (PEdge R) :=
  (later es).filter (fun x => x.p.isSome && !decide (x.w = 0) && !known D x)

omit [IsStrictOrderedRing R] in
theorem known_iff {D : List Nat} {e : PEdge R} : known D e = true ↔ ∃ b ∈ D, e.p = some b := by
  unfold known
  cases h : e.p <;> simp

omit [IsStrictOrderedRing R] in
theorem mem_later {es : Fin (n + 1) → PEdge R} {y : PEdge R} : y ∈ later es ↔ ∃ i : Fin n, es i.succ = y := by
  simp [later, List.mem_ofFn]

omit [IsStrictOrderedRing R] in
theorem mem_pend {D : List Nat} {es : Fin (n + 1) → PEdge R} {y : PEdge R} :
    y ∈ pend D es ↔ y ∈ later es ∧ (∃ b, y.p = some b ∧ b ∉ D) ∧ y.w ≠ 0 := by
  unfold pend
  rw [List.mem_filter]
  cases h : y.p with
  | none => simp [known, h]
  | some b => simp [known, h]; tauto

theorem descend_some {D : List Nat} {f : Nat} {e : PEdge R} {a : Nat} {S : List (PEdge R)} (hp : e.p = some a) :
    descend t D (f + 1) e S = descend t D f ((t.mem a).e 0) (e :: (pend D (t.mem a).e ++ S)) := by
  rw [descend, hp]; rfl

theorem descend_none {D : List Nat} {f : Nat} {e : PEdge R} {S : List (PEdge R)} (hp : e.p = none) :
    descend t D f e S = S := by
  cases f with
  | zero => rfl
  | succ f => rw [descend, hp]

/-- The bound on the path length does not matter. -/
theorem descend_fuel (hc : Children t) {D : List Nat} : ∀ (l : Nat) (e : PEdge R) (S : List (PEdge R)) (f f' : Nat), Valid t l e →
    l ≤ f → l ≤ f' → descend t D f e S = descend t D f' e S := by
  intro l
  induction l with
  | zero =>
    intro e S f f' hv _ _
    have hp : e.p = none := by
      cases hp : e.p with
      | none => rfl
      | some a => have := ((valid_some hp).1 hv).2.1; omega
    rw [descend_none hp, descend_none hp]
  | succ l ih =>
    intro e S f f' hv hf hf'
    cases hp : e.p with
    | none => rw [descend_none hp, descend_none hp]
    | some a =>
      obtain ⟨v1, v2, v3⟩ := (valid_some hp).1 hv
      obtain ⟨f, rfl⟩ : ∃ g, f = g + 1 := ⟨f - 1, by omega⟩
      obtain ⟨f', rfl⟩ : ∃ g, f' = g + 1 := ⟨f' - 1, by omega⟩
      rw [descend_some hp, descend_some hp]
      refine ih _ _ _ _ ?_ (by omega) (by omega)
      have := hc a v1 0
      rwa [show (t.mem a).v = l by omega] at this

omit [IsStrictOrderedRing R] in
/-- The top of the stack is a child that is still to be visited. -/
theorem hasChild_true {g : Bool} {D : List Nat} {x : PEdge R} {S : List (PEdge R)} {b : Nat} (hx : x.p = some b) (hb : b ∉ D) :
    ∀ {L : List (PEdge R)}, (∃ y ∈ L, y.w ≠ 0 ∧ y.p = some b) → hasChild g D (x :: S) L = some true
  | [], h => by simp at h
  | y :: ys, h => by
    rw [hasChild]
    by_cases h0 : y.w = 0
    · rw [if_pos h0]
      refine hasChild_true hx hb ?_
      obtain ⟨z, hz, hz1, hz2⟩ := h
      rcases List.mem_cons.1 hz with rfl | hz
      · exact absurd h0 hz1
      · exact ⟨z, hz, hz1, hz2⟩
    rw [if_neg h0]
    by_cases hk : known D y = true
    · rw [if_pos hk]
      refine hasChild_true hx hb ?_
      obtain ⟨z, hz, hz1, hz2⟩ := h
      rcases List.mem_cons.1 hz with rfl | hz
      · obtain ⟨c, hc, hcz⟩ := known_iff.1 hk
        rw [hz2] at hcz
        cases hcz
        exact absurd hc hb
      · exact ⟨z, hz, hz1, hz2⟩
    rw [if_neg hk]
    by_cases hyx : y.p = x.p
    · rw [if_pos hyx]
    · rw [if_neg hyx]
      refine hasChild_true hx hb ?_
      obtain ⟨z, hz, hz1, hz2⟩ := h
      rcases List.mem_cons.1 hz with rfl | hz
      · exact absurd (hz2.trans hx.symm) hyx
      · exact ⟨z, hz, hz1, hz2⟩

omit [IsStrictOrderedRing R] in
/-- No child is left to visit. -/
theorem hasChild_false {g : Bool} {D : List Nat} {S : List (PEdge R)} (hS : ∀ x ∈ S, x.p ≠ none) :
    ∀ {L : List (PEdge R)}, (∀ y ∈ L, y.w ≠ 0 → (∃ b ∈ D, y.p = some b) ∨ (y.p = none ∧ (g = true ∨ S ≠ []))) →
      hasChild g D S L = some false
  | [], _ => rfl
  | y :: ys, h => by
    have ih := hasChild_false (g := g) (D := D) hS (L := ys) (fun z hz => h z (List.mem_cons_of_mem _ hz))
    rw [hasChild.eq_def]
    dsimp only
    by_cases h0 : y.w = 0
    · rw [if_pos h0, ih]
    rw [if_neg h0]
    by_cases hk : known D y = true
    · rw [if_pos hk, ih]
    rw [if_neg hk]
    rcases h y List.mem_cons_self h0 with h1 | ⟨h1, h2⟩
    · exact absurd (known_iff.2 h1) hk
    · cases S with
      | nil =>
        dsimp only
        rw [if_pos (h2.resolve_right (by simp)), ih]
      | cons x S =>
        dsimp only
        rw [if_neg (by rw [h1]; exact fun h => hS x List.mem_cons_self h.symm), ih]

/-- One or more iterations, each starting with a non-empty stack. -/
def Plus (g : Bool) (t : UTable (Cx R) (n + 1)) (f : Nat) : Trav R → Trav R → Prop :=
  Relation.TransGen (fun s s' => s.stack ≠ [] ∧ step g t f s = some s')

theorem Plus.runs {g : Bool} {f : Nat} {s s' : Trav R} (h : Plus g t f s s') (h' : s'.stack = []) : Runs g t f s s'.done := by
  induction h using Relation.TransGen.head_induction_on with
  | single h => exact .stop h.2 h'
  | head h1 h2 ih =>
    refine .more h1.2 ?_ ih
    cases h2 using Relation.TransGen.head_induction_on with
    | single h => exact h.1
    | head h _ => exact h.1

/-- Starting with an edge at hand is the same as starting with its descent on the stack. -/
theorem step_cur {g : Bool} {f : Nat} {e : PEdge R} {S : List (PEdge R)} {D : List Nat} :
    step g t f ⟨some e, S, D⟩ = step g t f ⟨none, descend t D f e S, D⟩ := rfl

theorem Plus.cur {g : Bool} {f : Nat} {e : PEdge R} {S : List (PEdge R)} {D : List Nat} {s' : Trav R} (hS : S ≠ [])
    (h : Plus g t f ⟨none, descend t D f e S, D⟩ s') : Plus g t f ⟨some e, S, D⟩ s' := by
  cases h using Relation.TransGen.head_induction_on with
  | single h => exact .single ⟨hS, step_cur.trans h.2⟩
  | head h h' => exact .head ⟨hS, step_cur.trans h.2⟩ h'

/-- Known edges on the stack are skipped. -/
theorem skip (hc : Children t) {g : Bool} {f m : Nat} {D : List Nat} (hD : Topo t m D) {S : List (PEdge R)} (hS : ∀ x ∈ S, x.p ≠ none) {l : Nat}
    (hl : g = true ∨ S ≠ [] ∨ 2 ≤ l) : ∀ xs : List (PEdge R), (∀ x ∈ xs, Valid t l x ∧ ∃ b ∈ D, x.p = some b) → xs ≠ [] →
      Plus g t f ⟨none, xs ++ S, D⟩ ⟨none, S, D⟩
  | [], _, h => absurd rfl h
  | x :: xs, h, _ => by
    obtain ⟨hv, b, hb, hp⟩ := h x List.mem_cons_self
    have hxs : ∀ y ∈ xs ++ S, y.p ≠ none := by
      intro y hy
      rcases List.mem_append.1 hy with hy | hy
      · obtain ⟨_, c, _, hc⟩ := h y (List.mem_cons_of_mem _ hy)
        rw [hc]; simp
      · exact hS y hy
    have hst : step g t f ⟨none, x :: xs ++ S, D⟩ = some ⟨none, xs ++ S, D⟩ := by
      unfold step
      dsimp only [List.cons_append]
      rw [hp]
      dsimp only
      rw [hasChild_false hxs]
      · dsimp only
        rw [if_pos hb]
      · intro y hy h0
        obtain ⟨i, rfl⟩ := mem_later.1 hy
        obtain ⟨v1, v2, v3⟩ := (valid_some hp).1 hv
        have hvi := hc b v1 i.succ
        cases hq : ((t.mem b).e i.succ).p with
        | some c => exact Or.inl ⟨c, hD.closed b hb i.succ c hq, rfl⟩
        | none =>
          right
          refine ⟨rfl, ?_⟩
          have h00 : (t.mem b).v = 0 := ((valid_none hq).1 hvi).resolve_right h0
          rcases hl with hl | hl | hl
          · exact Or.inl hl
          · exact Or.inr (by simp [hl])
          · omega
    have one : Plus g t f ⟨none, x :: xs ++ S, D⟩ ⟨none, xs ++ S, D⟩ := .single ⟨by simp, hst⟩
    by_cases hx : xs = []
    · subst hx; exact one
    · exact one.trans (skip hc hD hS hl xs (fun y hy => h y (List.mem_cons_of_mem _ hy)) hx)

/-- Result of processing an edge to node `a` below stack `S`. -/
structure Proc (g : Bool) (t : UTable (Cx R) (n + 1)) (f m a : Nat) (s : Trav R) (S : List (PEdge R)) (D D' : List Nat) : Prop where
  plus : Plus g t f s ⟨none, S, D'⟩
  topo : Topo t m D'
  sub : ∀ b ∈ D, b ∈ D'
  mem : a ∈ D'
  new : ∀ b ∈ D', b ∉ D → b = a ∨ (t.mem b).v < (t.mem a).v
  last : a ∉ D → ∃ N, D' = N ++ [a]

/-- `N` contains the children of its nodes, and no new target follows a repeated one at any of them. -/
def AllFresh (t : UTable (Cx R) (n + 1)) (N : Set Nat) : Prop :=
  (∀ a ∈ N, ∀ i b, ((t.mem a).e i).p = some b → b ∈ N) ∧ ∀ a ∈ N, ∀ D : List Nat, Fresh {b | b ∈ D ∨ ((t.mem a).e 0).p = some b} (pend D (t.mem a).e)

/-- Processing the pending edges of a node and then the node itself. -/
theorem pending (hc : Children t) {N : Set Nat} {g : Bool} {f m l : Nat} {e : PEdge R} {a : Nat} (hp : e.p = some a) (hv : Valid t (l + 1) e) (hm : l < m)
    (hN : ∀ i b, ((t.mem a).e i).p = some b → b ∈ N) {S : List (PEdge R)} (hS : ∀ x ∈ S, x.p ≠ none) (hl : g = true ∨ S ≠ [] ∨ 2 ≤ l)
    (hQ : ∀ (x : PEdge R) (b : Nat) (S : List (PEdge R)) (D : List Nat), Valid t l x → x.p = some b → b ∈ N → (∀ y ∈ S, y.p ≠ none) → S ≠ [] →
      Topo t m D → ∃ D', Proc g t f m b ⟨none, descend t D f x S, D⟩ S D D')
    {D0 : List Nat} :
    ∀ (xs : List (PEdge R)) (D1 : List Nat), Topo t m D1 → (∀ b ∈ D0, b ∈ D1) → (∀ b ∈ D1, b ∉ D0 → (t.mem b).v < l) →
      (∀ b, ((t.mem a).e 0).p = some b → b ∈ D1) → Fresh {b | b ∈ D1} xs → (∀ x ∈ xs, x ∈ later (t.mem a).e ∧ x.w ≠ 0 ∧ x.p ≠ none) →
      (∀ y ∈ later (t.mem a).e, y.w ≠ 0 → ∀ b, y.p = some b → b ∈ D1 ∨ ∃ x ∈ xs, x.p = some b) →
      ∃ D', Proc g t f m a ⟨none, e :: (xs ++ S), D1⟩ S D0 D' := by
  obtain ⟨v1, v2, v3⟩ := (valid_some hp).1 hv
  have hva : (t.mem a).v = l := by omega
  have hch : ∀ q, Valid t l ((t.mem a).e q) := fun q => by
    have := hc a v1 q; rwa [hva] at this
  have hvl : ∀ x ∈ later (t.mem a).e, Valid t l x := by
    intro x hx
    obtain ⟨i, rfl⟩ := mem_later.1 hx
    exact hch _
  have aD : ∀ D : List Nat, (∀ b ∈ D, b ∉ D0 → (t.mem b).v < l) → a ∉ D0 → a ∉ D := by
    intro D h h0 h1
    have := h a h1 h0; omega
  -- the node itself, when all pending edges are known
  have fin : ∀ (xs : List (PEdge R)) (D1 : List Nat), Topo t m D1 → (∀ b ∈ D0, b ∈ D1) → (∀ b ∈ D1, b ∉ D0 → (t.mem b).v < l) →
      (∀ b, ((t.mem a).e 0).p = some b → b ∈ D1) →
      (∀ x ∈ xs, x ∈ later (t.mem a).e ∧ ∃ b ∈ D1, x.p = some b) →
      (∀ y ∈ later (t.mem a).e, y.w ≠ 0 → ∀ b, y.p = some b → b ∈ D1) →
      ∃ D', Proc g t f m a ⟨none, e :: (xs ++ S), D1⟩ S D0 D' := by
    intro xs D1 hD hsub hnew h0 hxs hcov
    have hxsS : ∀ y ∈ xs ++ S, y.p ≠ none := by
      intro y hy
      rcases List.mem_append.1 hy with hy | hy
      · obtain ⟨_, c, _, hc⟩ := hxs y hy
        rw [hc]; simp
      · exact hS y hy
    have hch' : ∀ q b, ((t.mem a).e q).p = some b → b ∈ D1 := by
      intro q b hb
      refine Fin.cases (fun hb => h0 b hb) (fun i hb => ?_) q hb
      refine hcov _ (mem_later.2 ⟨i, rfl⟩) ?_ b hb
      exact ((valid_some hb).1 (hch _)).2.2
    have hhc : hasChild g D1 (xs ++ S) (later (t.mem a).e) = some false := by
      refine hasChild_false hxsS (fun y hy hy0 => ?_)
      cases hq : y.p with
      | some b => exact Or.inl ⟨b, hcov y hy hy0 b hq, rfl⟩
      | none =>
        right
        refine ⟨rfl, ?_⟩
        have : l = 0 := ((valid_none hq).1 (hvl y hy)).resolve_right hy0
        rcases hl with hl | hl | hl
        · exact Or.inl hl
        · exact Or.inr (by simp [hl])
        · omega
    have rest : ∀ D', Topo t m D' → (∀ b ∈ D1, b ∈ D') → step g t f ⟨none, e :: (xs ++ S), D1⟩ = some ⟨none, xs ++ S, D'⟩ →
        Plus g t f ⟨none, e :: (xs ++ S), D1⟩ ⟨none, S, D'⟩ := by
      intro D' hD' hsub' hst
      have one : Plus g t f ⟨none, e :: (xs ++ S), D1⟩ ⟨none, xs ++ S, D'⟩ := .single ⟨by simp, hst⟩
      by_cases hx : xs = []
      · subst hx; exact one
      · refine one.trans (skip hc hD' hS hl xs (fun x hx => ⟨hvl x (hxs x hx).1, ?_⟩) hx)
        obtain ⟨_, b, hb, hxb⟩ := hxs x hx
        exact ⟨b, hsub' b hb, hxb⟩
    by_cases ha : a ∈ D1
    · have ha0 : a ∈ D0 := by
        by_contra h
        exact aD D1 hnew h ha
      refine ⟨D1, rest D1 hD (fun _ h => h) ?_, hD, hsub, ha, ?_, fun h => absurd ha0 h⟩
      · unfold step
        dsimp only
        rw [hp]
        dsimp only
        rw [hhc]
        dsimp only
        rw [if_pos ha]
      · intro b hb hb0
        right
        rw [hva]; exact hnew b hb hb0
    · have hT : Topo t m (D1 ++ [a]) := .snoc hD v1 (by omega) ha hch'
      refine ⟨D1 ++ [a], rest _ hT (fun b hb => List.mem_append_left _ hb) ?_, hT, fun b hb => List.mem_append_left _ (hsub b hb), by simp, ?_,
        fun _ => ⟨D1, rfl⟩⟩
      · unfold step
        dsimp only
        rw [hp]
        dsimp only
        rw [hhc]
        dsimp only
        rw [if_neg ha]
      · intro b hb hb0
        rcases List.mem_append.1 hb with hb | hb
        · right
          rw [hva]; exact hnew b hb hb0
        · left; simpa using hb
  intro xs
  induction xs with
  | nil =>
    intro D1 hD hsub hnew h0 _ _ hcov
    refine fin [] D1 hD hsub hnew h0 (by simp) (fun y hy hy0 b hb => ?_)
    rcases hcov y hy hy0 b hb with h | ⟨x, hx, _⟩
    · exact h
    · simp at hx
  | cons x xs ih =>
    intro D1 hD hsub hnew h0 hF hxs hcov
    rcases hF with hF | ⟨b, hb, hxb, hF⟩
    · refine fin (x :: xs) D1 hD hsub hnew h0 (fun y hy => ⟨(hxs y hy).1, hF y hy⟩) (fun y hy hy0 b hb => ?_)
      rcases hcov y hy hy0 b hb with h | ⟨z, hz, hzb⟩
      · exact h
      · obtain ⟨c, hc, hzc⟩ := hF z hz
        rw [hzb] at hzc; cases hzc
        exact hc
    · obtain ⟨hx1, hx2, hx3⟩ := hxs x List.mem_cons_self
      have hSx : ∀ y ∈ e :: (xs ++ S), y.p ≠ none := by
        intro y hy
        rcases List.mem_cons.1 hy with rfl | hy
        · rw [hp]; simp
        rcases List.mem_append.1 hy with hy | hy
        · exact (hxs y (List.mem_cons_of_mem _ hy)).2.2
        · exact hS y hy
      have hbN : b ∈ N := by
        obtain ⟨i, hi⟩ := mem_later.1 hx1
        exact hN i.succ b (by rw [hi]; exact hxb)
      obtain ⟨D2, q⟩ := hQ x b (e :: (xs ++ S)) D1 (hvl x hx1) hxb hbN hSx (by simp) hD
      have hvb : (t.mem b).v + 1 = l := ((valid_some hxb).1 (hvl x hx1)).2.1
      have lvl2 : ∀ y ∈ later (t.mem a).e, ∀ c, y.p = some c → (c ∈ D2 ↔ c = b ∨ c ∈ D1) := by
        intro y hy c hyc
        have hvc : (t.mem c).v + 1 = l := ((valid_some hyc).1 (hvl y hy)).2.1
        constructor
        · intro h
          by_cases h1 : c ∈ D1
          · exact Or.inr h1
          · rcases q.new c h h1 with h2 | h2
            · exact Or.inl h2
            · omega
        · rintro (h | h)
          · subst h; exact q.mem
          · exact q.sub c h
      obtain ⟨D', q'⟩ := ih D2 q.topo (fun c hc => q.sub c (hsub c hc)) (by
          intro c hc hc0
          by_cases h1 : c ∈ D1
          · exact hnew c h1 hc0
          · rcases q.new c hc h1 with h2 | h2
            · subst h2; omega
            · omega) (fun c hc => q.sub c (h0 c hc))
        (hF.congr (fun y hy c hyc => by
          have := lvl2 y (hxs y (List.mem_cons_of_mem _ hy)).1 c hyc
          simp only [Set.mem_insert_iff, Set.mem_ofPred_eq]
          exact this.symm))
        (fun y hy => hxs y (List.mem_cons_of_mem _ hy))
        (fun y hy hy0 c hyc => by
          rcases hcov y hy hy0 c hyc with h | ⟨z, hz, hzc⟩
          · exact Or.inl (q.sub c h)
          · rcases List.mem_cons.1 hz with rfl | hz
            · left
              rw [hxb] at hzc; cases hzc
              exact q.mem
            · exact Or.inr ⟨z, hz, hzc⟩)
      refine ⟨D', ?_, q'.topo, q'.sub, q'.mem, q'.new, q'.last⟩
      have hst : step g t f ⟨none, e :: (x :: xs ++ S), D1⟩ = some ⟨some x, e :: (xs ++ S), D1⟩ := by
        unfold step
        dsimp only
        rw [hp]
        dsimp only [List.cons_append]
        rw [hasChild_true hxb hb ⟨x, hx1, hx2, hxb⟩]
      exact .head ⟨by simp, hst⟩ ((q.plus.cur (by simp)).trans q'.plus)

/-- Processing an edge. -/
theorem process (hc : Children t) {N : Set Nat} (hF : AllFresh t N) {g : Bool} {f m : Nat} : ∀ (l : Nat) (e : PEdge R) (a : Nat) (S : List (PEdge R)) (D : List Nat),
    Valid t l e → e.p = some a → a ∈ N → l ≤ f → l ≤ m → (∀ y ∈ S, y.p ≠ none) → (g = true ∨ S ≠ [] ∨ 3 ≤ l) → Topo t m D →
    ∃ D', Proc g t f m a ⟨none, descend t D f e S, D⟩ S D D' := by
  intro l
  induction l with
  | zero =>
    intro e a S D hv hp
    have := ((valid_some hp).1 hv).2.1; omega
  | succ l ih =>
    intro e a S D hv hp haN hf hm hS hl hD
    obtain ⟨v1, v2, v3⟩ := (valid_some hp).1 hv
    have hva : (t.mem a).v = l := by omega
    have hch : ∀ q, Valid t l ((t.mem a).e q) := fun q => by
      have := hc a v1 q; rwa [hva] at this
    obtain ⟨f', rfl⟩ : ∃ f', f = f' + 1 := ⟨f - 1, by omega⟩
    rw [descend_some hp, descend_fuel hc l _ _ f' (f' + 1) (hch 0) (by omega) (by omega)]
    have hpS : ∀ y ∈ e :: (pend D (t.mem a).e ++ S), y.p ≠ none := by
      intro y hy
      rcases List.mem_cons.1 hy with rfl | hy
      · rw [hp]; simp
      rcases List.mem_append.1 hy with hy | hy
      · obtain ⟨_, ⟨b, hb, _⟩, _⟩ := mem_pend.1 hy
        rw [hb]; simp
      · exact hS y hy
    have pen : ∀ D1, Topo t m D1 → (∀ b ∈ D, b ∈ D1) → (∀ b ∈ D1, b ∉ D → ((t.mem a).e 0).p = some b ∨ (t.mem b).v + 1 < l) →
        (∀ b, ((t.mem a).e 0).p = some b → b ∈ D1) →
        ∃ D', Proc g t (f' + 1) m a ⟨none, e :: (pend D (t.mem a).e ++ S), D1⟩ S D D' := by
      intro D1 hD1 hsub hnew h0
      refine pending hc hp hv (by omega) (hF.1 a haN) hS (by
          rcases hl with h | h | h
          · exact Or.inl h
          · exact Or.inr (Or.inl h)
          · exact Or.inr (Or.inr (by omega)))
        (fun x b S D hx hxb hbN hS hS0 hD => ih x b S D hx hxb hbN (by omega) (by omega) hS (Or.inr (Or.inl hS0)) hD)
        (pend D (t.mem a).e) D1 hD1 hsub (by
          intro b hb hb0
          rcases hnew b hb hb0 with h | h
          · have := ((valid_some h).1 (hch 0)).2.1; omega
          · omega) h0 ((hF.2 a haN D).congr (fun y hy b hyb => ?_)) (fun x hx => ?_) (fun y hy hy0 b hyb => ?_)
      · obtain ⟨hy1, _, _⟩ := mem_pend.1 hy
        obtain ⟨i, rfl⟩ := mem_later.1 hy1
        have hvb := ((valid_some hyb).1 (hch _)).2.1
        simp only [Set.mem_ofPred_eq]
        constructor
        · rintro (h | h)
          · exact hsub b h
          · exact h0 b h
        · intro h
          by_cases hbD : b ∈ D
          · exact Or.inl hbD
          · rcases hnew b h hbD with h | h
            · exact Or.inr h
            · omega
      · obtain ⟨h1, ⟨b, h2, _⟩, h3⟩ := mem_pend.1 hx
        exact ⟨h1, h3, by rw [h2]; simp⟩
      · by_cases hbD : b ∈ D
        · exact Or.inl (hsub b hbD)
        · exact Or.inr ⟨y, mem_pend.2 ⟨hy, ⟨b, hyb, hbD⟩, hy0⟩, hyb⟩
    cases h0 : ((t.mem a).e 0).p with
    | none =>
      rw [descend_none h0]
      exact pen D hD (fun _ h => h) (fun b hb hb0 => absurd hb hb0) (by rw [h0]; simp)
    | some c =>
      obtain ⟨D1, q⟩ := ih _ c (e :: (pend D (t.mem a).e ++ S)) D (hch 0) h0 (hF.1 a haN 0 c h0) (by omega) (by omega) hpS (Or.inr (Or.inl (by simp))) hD
      have hvc := ((valid_some h0).1 (hch 0)).2.1
      obtain ⟨D', q'⟩ := pen D1 q.topo q.sub (by
          intro b hb hb0
          rcases q.new b hb hb0 with h | h
          · left; rw [h0, h]
          · right; omega) (by
          intro b hb
          rw [h0] at hb; cases hb
          exact q.mem)
      exact ⟨D', q.plus.trans q'.plus, q'.topo, q'.sub, q'.mem, q'.new, q'.last⟩

/-- The traversal ends and visits the nodes of the diagram, the root last. -/
theorem runs (hc : Children t) {N : Set Nat} (hF : AllFresh t N) {g : Bool} {l : Nat} {e : PEdge R} {a : Nat} (hv : Valid t l e)
    (hp : e.p = some a) (haN : a ∈ N)
    (hl : g = true ∨ 3 ≤ l) : ∃ order, Runs g t (t.lvl e) ⟨some e, [], []⟩ (order ++ [a]) ∧ Topo t l (order ++ [a]) := by
  have hle : t.lvl e = l := hv.lvl ((valid_some hp).1 hv).2.2
  rw [hle]
  obtain ⟨D', q⟩ := process hc hF (g := g) (f := l) (m := l) l e a [] [] hv hp haN le_rfl le_rfl (by simp) (by
    rcases hl with h | h
    · exact Or.inl h
    · exact Or.inr (Or.inr h)) .nil
  obtain ⟨N, rfl⟩ := q.last (by simp)
  refine ⟨N, ?_, q.topo⟩
  have hr := q.plus.runs rfl
  dsimp only at hr
  generalize hd : N ++ [a] = d at hr
  cases hr with
  | stop h1 h2 => exact .stop (step_cur.trans h1) h2
  | more h1 h2 h3 => exact .more (step_cur.trans h1) h2 h3

/-- The result is determined. -/
theorem Runs.unique {g : Bool} {f : Nat} {s : Trav R} {d d' : List Nat} (h : Runs g t f s d) (h' : Runs g t f s d') : d = d' := by
  induction h with
  | stop h1 h2 =>
    cases h' with
    | stop h3 h4 => rw [h1] at h3; cases h3; rfl
    | more h3 h4 h5 => rw [h1] at h3; cases h3; exact absurd h2 h4
  | more h1 h2 h3 ih =>
    cases h' with
    | stop h4 h5 => rw [h1] at h4; cases h4; exact absurd h5 h2
    | more h4 h5 h6 => rw [h1] at h4; cases h4; exact ih h6

/-- Vector nodes have only two edges. -/
theorem allFresh_v (t : UTable (Cx R) 2) : AllFresh (n := 1) t Set.univ := by
  refine ⟨fun _ _ _ _ _ => trivial, ?_⟩
  intro a _ D
  have hl : later (n := 1) (t.mem a).e = [(t.mem a).e 1] := by simp [later, List.ofFn_succ]
  unfold pend
  rw [hl]
  by_cases h : (((t.mem a).e 1).p.isSome && !decide (((t.mem a).e 1).w = 0) && !known D ((t.mem a).e 1)) = true
  · rw [List.filter_cons_of_pos (by exact h), List.filter_nil]
    cases hp : ((t.mem a).e 1).p with
    | none => rw [hp] at h; simp at h
    | some b =>
      unfold Fresh
      by_cases hb : b ∈ {b | b ∈ D ∨ ((t.mem a).e 0).p = some b}
      · left
        intro y hy
        rw [List.mem_singleton] at hy
        subst hy
        exact ⟨b, hb, hp⟩
      · exact Or.inr ⟨b, hb, hp, trivial⟩
  · rw [List.filter_cons_of_neg (by exact h), List.filter_nil]
    trivial

end Trav

end DD
