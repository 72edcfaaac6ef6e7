import Verif.Proofs.Copy

/-!
# Transfer: results, failures
-/

namespace DD

variable {R : Type} [Field R] [LinearOrder R] [IsStrictOrderedRing R]

namespace Trav

variable {n : Nat} {t : UTable (Cx R) (n + 1)}

theorem step_done_none {g : Bool} {f : Nat} {S : List (PEdge R)} {D : List Nat} {s' : Trav R} (h : step g t f ⟨none, S, D⟩ = some s') :
    D <+: s'.done := by
  unfold step at h
  dsimp only at h
  cases S with
  | nil => cases h
  | cons e rest =>
    dsimp only at h
    cases hp : e.p with
    | none => rw [hp] at h; cases h
    | some a =>
      rw [hp] at h
      dsimp only at h
      cases hh : hasChild g D rest (later (t.mem a).e) with
      | none => rw [hh] at h; cases h
      | some b =>
        rw [hh] at h
        cases b with
        | true =>
          cases rest with
          | nil => cases h
          | cons top rest => cases h; exact List.prefix_rfl
        | false =>
          dsimp only at h
          by_cases ha : a ∈ D
          · rw [if_pos ha] at h; cases h; exact List.prefix_rfl
          · rw [if_neg ha] at h; cases h; exact List.prefix_append _ _

/-- Entries of the map are never removed. -/
theorem step_done {g : Bool} {f : Nat} {s s' : Trav R} (h : step g t f s = some s') : s.done <+: s'.done := by
  obtain ⟨cur, S, D⟩ := s
  cases cur with
  | none => exact step_done_none h
  | some e => exact step_done_none (step_cur.symm.trans h)

theorem Runs.done {g : Bool} {f : Nat} {s : Trav R} {d : List Nat} (h : Runs g t f s d) : s.done <+: d := by
  induction h with
  | stop h1 _ => exact step_done h1
  | more h1 _ _ ih => exact (step_done h1).trans ih

/-- A run passes through all states that are reached. -/
theorem Runs.after {g : Bool} {f : Nat} {s s' : Trav R} {d : List Nat} (h : Runs g t f s d) (hp : Plus g t f s s') (hs : s'.stack ≠ []) :
    Runs g t f s' d := by
  induction hp using Relation.TransGen.head_induction_on with
  | single h1 =>
    cases h with
    | stop h2 h3 => rw [h1.2] at h2; cases h2; exact absurd h3 hs
    | more h2 h3 h4 => rw [h1.2] at h2; cases h2; exact h4
  | head h1 h2 ih =>
    cases h with
    | stop h3 h4 =>
      rw [h1.2] at h3; cases h3
      cases h2 using Relation.TransGen.head_induction_on with
      | single h => exact absurd h4 h.1
      | head h _ => exact absurd h4 h.1
    | more h3 h4 h5 => rw [h1.2] at h3; cases h3; exact ih h5

theorem Runs.cur {g : Bool} {f : Nat} {e : PEdge R} {S : List (PEdge R)} {D d : List Nat} :
    Runs g t f ⟨some e, S, D⟩ d ↔ Runs g t f ⟨none, descend t D f e S, D⟩ d := by
  constructor
  · intro h
    cases h with
    | stop h1 h2 => exact .stop (step_cur.symm.trans h1) h2
    | more h1 h2 h3 => exact .more (step_cur.symm.trans h1) h2 h3
  · intro h
    cases h with
    | stop h1 h2 => exact .stop (step_cur.trans h1) h2
    | more h1 h2 h3 => exact .more (step_cur.trans h1) h2 h3

/-- The effect of taking an edge from the stack all of whose children are known. -/
theorem step_emit {g : Bool} {f a : Nat} {e : PEdge R} {S : List (PEdge R)} {D : List Nat} (hp : e.p = some a)
    (hh : hasChild g D S (later (t.mem a).e) = some false) :
    step g t f ⟨none, e :: S, D⟩ = some ⟨none, S, if a ∈ D then D else D ++ [a]⟩ := by
  unfold step
  dsimp only
  rw [hp]
  dsimp only
  rw [hh]
  dsimp only
  split_ifs <;> rfl

theorem step_ub {f a : Nat} {e : PEdge R} {S : List (PEdge R)} {D : List Nat} (hp : e.p = some a)
    (hh : hasChild false D S (later (t.mem a).e) = none) : step false t f ⟨none, e :: S, D⟩ = none := by
  unfold step
  dsimp only
  rw [hp]
  dsimp only
  rw [hh]

/-- A new target after a repeated one: the node is copied although the new target has no copy yet. -/
theorem premature (hc : Children t) {N : Set Nat} (hF : AllFresh t N) {l : Nat} {e : PEdge R} {a b : Nat} (hv : Valid t (l + 1) e) (hp : e.p = some a)
    (h0 : ((t.mem a).e 0).p = some b) (hbN : b ∈ N) {i : Fin n} (hi : ((t.mem a).e i.succ).p = some b)
    (hlt : ∀ j, j < i → ((t.mem a).e j.succ).p = none ∨ ((t.mem a).e j.succ).p = some b) {f : Nat} (hf : l < f)
    {d : List Nat} (hr : Runs false t f ⟨some e, [], []⟩ d) :
    ∃ D, D ++ [a] <+: d ∧ a ∉ D ∧ ∀ q c, ((t.mem a).e q).p = some c → c ∈ D → c = b := by
  obtain ⟨v1, v2, v3⟩ := (valid_some hp).1 hv
  have hva : (t.mem a).v = l := by omega
  have hch : ∀ q, Valid t l ((t.mem a).e q) := fun q => by
    have := hc a v1 q; rwa [hva] at this
  have hw : ∀ {q c}, ((t.mem a).e q).p = some c → ((t.mem a).e q).w ≠ 0 := fun h => ((valid_some h).1 (hch _)).2.2
  have hl0 : 0 < l := by have := ((valid_some h0).1 (hch 0)).2.1; omega
  obtain ⟨f, rfl⟩ : ∃ f', f = f' + 1 := ⟨f - 1, by omega⟩
  rw [Runs.cur, descend_some hp, descend_fuel hc l _ _ f (f + 1) (hch 0) (by omega) (by omega)] at hr
  rw [List.append_nil] at hr
  -- the first pending edge is the repeated one
  obtain ⟨xs, hxs⟩ : ∃ xs, pend [] (t.mem a).e = (t.mem a).e i.succ :: xs ∨ ∃ x, x.p = some b ∧ pend [] (t.mem a).e = x :: xs := by
    have hm : (t.mem a).e i.succ ∈ pend [] (t.mem a).e := mem_pend.2 ⟨mem_later.2 ⟨i, rfl⟩, ⟨b, hi, by simp⟩, hw hi⟩
    have key : ∀ L : List (Fin n), i ∈ L → L.Pairwise (· < ·) → ∃ xs, ∃ x : PEdge R, x.p = some b ∧
        (L.map (fun i => (t.mem a).e i.succ)).filter (fun x => x.p.isSome && !decide (x.w = 0) && !known [] x) = x :: xs := by
      intro L
      induction L with
      | nil => simp
      | cons j L ih =>
        intro hiL hL
        rw [List.pairwise_cons] at hL
        rw [List.map_cons]
        rcases List.mem_cons.1 hiL with rfl | hiL
        · refine ⟨_, (t.mem a).e i.succ, hi, List.filter_cons_of_pos ?_⟩
          simp [hi, hw hi, known]
        · rcases hlt j (hL.1 i hiL) with h | h
          · rw [List.filter_cons_of_neg (by simp [h])]
            exact ih hiL hL.2
          · refine ⟨_, (t.mem a).e j.succ, h, List.filter_cons_of_pos ?_⟩
            simp [h, hw h, known]
    obtain ⟨xs, x, h1, h2⟩ := key (List.finRange n) (List.mem_finRange i) (List.pairwise_lt_finRange n)
    refine ⟨xs, Or.inr ⟨x, h1, ?_⟩⟩
    rw [← h2, pend, later, List.ofFn_eq_map]
  obtain ⟨x, hxb, hxs⟩ : ∃ x : PEdge R, x.p = some b ∧ pend [] (t.mem a).e = x :: xs := by
    rcases hxs with h | h
    · exact ⟨_, hi, h⟩
    · exact h
  have hS : ∀ y ∈ e :: pend [] (t.mem a).e, y.p ≠ none := by
    intro y hy
    rcases List.mem_cons.1 hy with rfl | hy
    · rw [hp]; simp
    · obtain ⟨_, ⟨c, h, _⟩, _⟩ := mem_pend.1 hy
      rw [h]; simp
  obtain ⟨D, q⟩ := process hc hF (g := false) (f := f + 1) (m := l) l ((t.mem a).e 0) b (e :: pend [] (t.mem a).e) [] (hch 0) h0 hbN (by omega) le_rfl hS
    (Or.inr (Or.inl (by simp))) .nil
  have hnew : ∀ q' c, ((t.mem a).e q').p = some c → c ∈ D → c = b := by
    intro q' c hc hcD
    rcases q.new c hcD (by simp) with h | h
    · exact h
    · have h1 := ((valid_some h0).1 (hch 0)).2.1
      have h2 := ((valid_some hc).1 (hch q')).2.1
      omega
  have haD : a ∉ D := by
    intro h
    have h1 := ((valid_some h0).1 (hch 0)).2.1
    rcases q.new a h (by simp) with h2 | h2
    · rw [h2] at hva; omega
    · omega
  have hr2 := hr.after q.plus (by simp)
  have hh : hasChild false D (pend [] (t.mem a).e) (later (t.mem a).e) = some false := by
    rw [hxs]
    have key : ∀ L : List (PEdge R), (∀ y ∈ L, y ∈ later (t.mem a).e) → hasChild false D (x :: xs) L = some false := by
      intro L
      induction L with
      | nil => intro _; rfl
      | cons y L ih =>
        intro hy
        have ih := ih (fun z hz => hy z (List.mem_cons_of_mem _ hz))
        rw [hasChild.eq_def]
        dsimp only
        by_cases h1 : y.w = 0
        · rw [if_pos h1, ih]
        rw [if_neg h1]
        by_cases h2 : known D y = true
        · rw [if_pos h2, ih]
        rw [if_neg h2, if_neg, ih]
        intro h3
        exact h2 (known_iff.2 ⟨b, q.mem, h3.trans hxb⟩)
    exact key _ (fun _ h => h)
  have hst := step_emit (f := f + 1) hp hh
  rw [if_neg haD] at hst
  refine ⟨D, ?_, haD, hnew⟩
  cases hr2 with
  | stop h1 h2 => rw [hst] at h1; cases h1; exact List.prefix_rfl
  | more h1 h2 h3 => rw [hst] at h1; cases h1; exact h3.done

/-- No new target follows a repeated one among the edges of a node: if the targets of edges `i < j` agree, every later
edge leads to the terminal or to a target that occurs before `j`. -/
def NoNewAfterRepeat {n : Nat} (es : Fin n → PEdge R) : Prop :=
  ∀ i j k, i < j → j < k → (es i).p = (es j).p → (es j).p ≠ none → (es k).p ≠ none → ∃ m, m < j ∧ (es m).p = (es k).p

/-- The list form. -/
theorem fresh_list {D : List Nat} {es : Fin (n + 1) → PEdge R} (h : NoNewAfterRepeat es)
    (hw : ∀ i, (es i).p ≠ none → (es i).w ≠ 0) :
    ∀ (L : List (Fin n)) (A : Set Nat), L.Pairwise (· < ·) →
      (∀ i ∈ L, ∀ j ≤ i, j ∈ L ∨ ∀ c, (es j.succ).p = some c → c ∈ A ∨ c ∈ D) →
      (∀ b, (es 0).p = some b → b ∈ A) → (∀ b ∈ A, b ∈ D ∨ ∃ m : Fin (n + 1), (∀ i ∈ L, m < i.succ) ∧ (es m).p = some b) →
      Fresh A ((L.map (fun i => es i.succ)).filter (fun x => x.p.isSome && !decide (x.w = 0) && !known D x)) := by
  intro L
  induction L with
  | nil => intro A _ _ _ _; trivial
  | cons i L ih =>
    intro A hL hcov h0 hA
    rw [List.pairwise_cons] at hL
    rw [List.map_cons]
    have covL : ∀ k ∈ L, ∀ j ≤ k, j = i ∨ (j ∈ L ∨ ∀ c, (es j.succ).p = some c → c ∈ A ∨ c ∈ D) := by
      intro k hk j hj
      rcases hcov k (List.mem_cons_of_mem _ hk) j hj with h | h
      · rcases List.mem_cons.1 h with h | h
        · exact Or.inl h
        · exact Or.inr (Or.inl h)
      · exact Or.inr (Or.inr h)
    by_cases hk : ((es i.succ).p.isSome && !decide ((es i.succ).w = 0) && !known D (es i.succ)) = true
    · rw [List.filter_cons_of_pos (by exact hk)]
      obtain ⟨b, hb⟩ : ∃ b, (es i.succ).p = some b := by
        cases hp : (es i.succ).p with
        | none => rw [hp] at hk; simp at hk
        | some b => exact ⟨b, rfl⟩
      have hbD : b ∉ D := by
        intro h
        have : known D (es i.succ) = true := known_iff.2 ⟨b, h, hb⟩
        rw [this] at hk; simp at hk
      by_cases hbA : b ∈ A
      · left
        intro y hy
        rcases List.mem_cons.1 hy with rfl | hy
        · exact ⟨b, hbA, hb⟩
        · rw [List.mem_filter] at hy
          obtain ⟨hy1, hy2⟩ := hy
          obtain ⟨k, hkL, rfl⟩ := List.mem_map.1 hy1
          obtain ⟨c, hc⟩ : ∃ c, (es k.succ).p = some c := by
            cases hp : (es k.succ).p with
            | none => rw [hp] at hy2; simp at hy2
            | some b => exact ⟨b, rfl⟩
          have hcD : c ∉ D := by
            intro h
            have : known D (es k.succ) = true := known_iff.2 ⟨c, h, hc⟩
            rw [this] at hy2; simp at hy2
          refine ⟨c, ?_, hc⟩
          rcases hA b hbA with h1 | ⟨m, hm, hmb⟩
          · exact absurd h1 hbD
          · obtain ⟨m', hm', hmc⟩ := h m i.succ k.succ (hm i List.mem_cons_self) (Fin.succ_lt_succ_iff.2 (hL.1 k hkL)) (hmb.trans hb.symm)
              (by rw [hb]; simp) (by rw [hc]; simp)
            rw [hc] at hmc
            refine Fin.cases (fun _ h => h0 c h) (fun j hj hjc => ?_) m' hm' hmc
            rw [Fin.succ_lt_succ_iff] at hj
            rcases hcov i List.mem_cons_self j hj.le with h2 | h2
            · rcases List.mem_cons.1 h2 with h2 | h2
              · subst h2; exact absurd hj (lt_irrefl _)
              · exact absurd (hL.1 j h2) (not_lt.2 hj.le)
            · exact (h2 c hjc).resolve_right hcD
      · right
        refine ⟨b, hbA, hb, ih (insert b A) hL.2 ?_ (fun c hc => Or.inr (h0 c hc)) ?_⟩
        · intro k hk j hj
          rcases covL k hk j hj with rfl | h | h
          · right
            intro c hc
            rw [hb] at hc; cases hc
            exact Or.inl (Set.mem_insert _ _)
          · exact Or.inl h
          · right
            intro c hc
            rcases h c hc with h | h
            · exact Or.inl (Set.mem_insert_of_mem _ h)
            · exact Or.inr h
        · intro c hc
          rcases hc with rfl | hc
          · right
            exact ⟨i.succ, fun k hk => Fin.succ_lt_succ_iff.2 (hL.1 k hk), hb⟩
          · rcases hA c hc with h | ⟨m, hm, hmc⟩
            · exact Or.inl h
            · exact Or.inr ⟨m, fun k hk => hm k (List.mem_cons_of_mem _ hk), hmc⟩
    · rw [List.filter_cons_of_neg (by exact hk)]
      refine ih A hL.2 ?_ h0 ?_
      · intro k hkL j hj
        rcases covL k hkL j hj with rfl | h | h
        · right
          intro c hc
          right
          by_contra hcD
          apply hk
          have := hw j.succ (by rw [hc]; simp)
          simp [hc, this, known, hcD]
        · exact Or.inl h
        · exact Or.inr h
      · intro b hb
        rcases hA b hb with h | ⟨m, hm, hmb⟩
        · exact Or.inl h
        · exact Or.inr ⟨m, fun k hk => hm k (List.mem_cons_of_mem _ hk), hmb⟩

theorem allFresh_of (hc : Children t) {N : Set Nat} (hN : ∀ a ∈ N, a ∈ t.all ∧ ∀ i b, ((t.mem a).e i).p = some b → b ∈ N)
    (h : ∀ a ∈ N, NoNewAfterRepeat (t.mem a).e) : AllFresh t N := by
  refine ⟨fun a ha => (hN a ha).2, fun a ha D => ?_⟩
  have hw : ∀ i, ((t.mem a).e i).p ≠ none → ((t.mem a).e i).w ≠ 0 := by
    intro i hi
    obtain ⟨b, hb⟩ := Option.ne_none_iff_exists'.1 hi
    exact ((valid_some hb).1 (hc a (hN a ha).1 i)).2.2
  have := fresh_list (D := D) (h a ha) hw (List.finRange n) {b | b ∈ D ∨ ((t.mem a).e 0).p = some b} (List.pairwise_lt_finRange n)
    (fun i _ j _ => Or.inl (List.mem_finRange j)) (fun b hb => Or.inr hb) (by
      rintro b (hb | hb)
      · exact Or.inl hb
      · exact Or.inr ⟨0, fun i _ => Fin.succ_pos i, hb⟩)
  rw [pend, later, List.ofFn_eq_map]
  exact this

end Trav

end DD
