import Verif.Proofs.Traverse

/-!
# The recursive traversal of `serializeMatrix`
-/

namespace DD

variable {R : Type} [Field R] [LinearOrder R] [IsStrictOrderedRing R] {t : UTable (Cx R) 4}

/-- State between the visits of the children of a node of level `l`: visited nodes that are not written yet are above. -/
structure SerInv (t : UTable (Cx R) 4) (m l : Nat) (s : List (Option Nat) × List Nat) : Prop where
  topo : Topo t m s.2
  vis : ∀ b, some b ∈ s.1 → b ∈ s.2 ∨ l ≤ (t.mem b).v
  ord : ∀ b ∈ s.2, some b ∈ s.1

theorem serializeMatrixF_spec (hc : Children t) {m : Nat} : ∀ (l : Nat) (e : PEdge R) (a : Nat) (s : List (Option Nat) × List Nat),
    Valid t (l + 1) e → e.p = some a → l < m → a ∉ s.2 → SerInv t m l s →
    ∃ N vis', serializeMatrixF t (l + 1) s e = (vis', N ++ [a]) ∧ Topo t m (N ++ [a]) ∧
      (∀ b ∈ s.2, b ∈ N) ∧ (∀ b ∈ N, some b ∈ vis') ∧ (∀ p ∈ s.1, p ∈ vis') ∧
      (∀ b, some b ∈ vis' → b ∈ N ∨ some b ∈ s.1) ∧ (∀ b ∈ N, b ∈ s.2 ∨ (t.mem b).v < l) := by
  intro l
  induction l using Nat.strong_induction_on with
  | _ l ih =>
  intro e a s hv hp hm ha hs
  obtain ⟨v1, v2, v3⟩ := (valid_some hp).1 hv
  have hva : (t.mem a).v = l := by omega
  have hch : ∀ q, Valid t l ((t.mem a).e q) := fun q => by
    have := hc a v1 q; rwa [hva] at this
  -- the loop over the children
  have loop : ∀ (L : List (Fin 4)) (s : List (Option Nat) × List Nat), SerInv t m l s → a ∉ s.2 →
      ∃ s1, L.foldl (fun s i =>
          let x := (t.mem a).e i
          if x.p ∈ s.1 then s else serializeMatrixF t l (x.p :: s.1, s.2) x) s = s1 ∧
        SerInv t m l s1 ∧ a ∉ s1.2 ∧ (∀ b ∈ s.2, b ∈ s1.2) ∧ (∀ p ∈ s.1, p ∈ s1.1) ∧
        (∀ b, some b ∈ s1.1 → b ∈ s1.2 ∨ some b ∈ s.1) ∧ (∀ i ∈ L, ((t.mem a).e i).p ∈ s1.1) ∧
        (∀ b ∈ s1.2, b ∈ s.2 ∨ (t.mem b).v < l) := by
    intro L
    induction L with
    | nil => intro s hs ha; exact ⟨s, rfl, hs, ha, fun _ h => h, fun _ h => h, fun _ h => Or.inr h, by simp, fun _ h => Or.inl h⟩
    | cons i L ihL =>
      intro s hs ha
      rw [List.foldl_cons]
      dsimp only
      by_cases hi : ((t.mem a).e i).p ∈ s.1
      · rw [if_pos hi]
        obtain ⟨s1, e1, h1, h2, h3, h4, h5, h6, h7⟩ := ihL s hs ha
        refine ⟨s1, e1, h1, h2, h3, h4, h5, fun j hj => ?_, h7⟩
        rcases List.mem_cons.1 hj with rfl | hj
        · exact h4 _ hi
        · exact h6 j hj
      · rw [if_neg hi]
        -- visit the child
        have child : ∃ s1, serializeMatrixF t l (((t.mem a).e i).p :: s.1, s.2) ((t.mem a).e i) = s1 ∧ SerInv t m l s1 ∧ a ∉ s1.2 ∧
            (∀ b ∈ s.2, b ∈ s1.2) ∧ (∀ p ∈ s.1, p ∈ s1.1) ∧ (∀ b, some b ∈ s1.1 → b ∈ s1.2 ∨ some b ∈ s.1) ∧
            ((t.mem a).e i).p ∈ s1.1 ∧ (∀ b ∈ s1.2, b ∈ s.2 ∨ (t.mem b).v < l) := by
          cases hq : ((t.mem a).e i).p with
          | none =>
            have hstop : serializeMatrixF t l ((none : Option Nat) :: s.1, s.2) ((t.mem a).e i) = (none :: s.1, s.2) := by
              cases l with
              | zero => rfl
              | succ l => rw [serializeMatrixF, hq]
            refine ⟨_, hstop, ⟨hs.topo, ?_, fun b hb => List.mem_cons_of_mem _ (hs.ord b hb)⟩, ha, fun _ h => h,
              fun _ h => List.mem_cons_of_mem _ h, ?_, List.mem_cons_self, fun _ h => Or.inl h⟩
            · intro b hb
              rcases List.mem_cons.1 hb with hb | hb
              · cases hb
              · exact hs.vis b hb
            · intro b hb
              rcases List.mem_cons.1 hb with hb | hb
              · cases hb
              · exact Or.inr hb
          | some b =>
            rw [hq] at hi
            have hvb := (valid_some hq).1 (hch i)
            obtain ⟨l', rfl⟩ : ∃ l', l = l' + 1 := ⟨l - 1, by omega⟩
            have hb : b ∉ s.2 := fun h => hi (hs.ord b h)
            have hinv : SerInv t m l' (some b :: s.1, s.2) := by
              refine ⟨hs.topo, ?_, fun c hc => List.mem_cons_of_mem _ (hs.ord c hc)⟩
              intro c hc
              rcases List.mem_cons.1 hc with hc | hc
              · cases hc
                right; omega
              · rcases hs.vis c hc with h | h
                · exact Or.inl h
                · right; omega
            obtain ⟨N, vis', e1, h1, h2, h3, h4, h5, h6⟩ := ih l' (by omega) _ b (some b :: s.1, s.2) (hch i) hq (by omega) hb hinv
            have hbv : some b ∈ vis' := h4 _ List.mem_cons_self
            have key : ∀ c, some c ∈ vis' → c ∈ N ++ [b] ∨ some c ∈ s.1 := by
              intro c hc
              rcases h5 c hc with h | h
              · exact Or.inl (List.mem_append_left _ h)
              · rcases List.mem_cons.1 h with h | h
                · cases h; left; simp
                · exact Or.inr h
            refine ⟨_, e1, ⟨h1, ?_, ?_⟩, ?_, fun c hc => List.mem_append_left _ (h2 c hc), fun p hp => h4 p (List.mem_cons_of_mem _ hp), key, hbv, ?_⟩
            · intro c hc
              rcases key c hc with h | h
              · exact Or.inl h
              · rcases hs.vis c h with h | h
                · exact Or.inl (List.mem_append_left _ (h2 c h))
                · exact Or.inr h
            · intro c hc
              rcases List.mem_append.1 hc with hc | hc
              · exact h3 c hc
              · rw [List.mem_singleton] at hc; subst hc; exact hbv
            · intro h
              rcases List.mem_append.1 h with h | h
              · rcases h6 a h with h | h
                · exact ha h
                · omega
              · rw [List.mem_singleton] at h; subst h; omega
            · intro c hc
              rcases List.mem_append.1 hc with hc | hc
              · rcases h6 c hc with h | h
                · exact Or.inl h
                · right; omega
              · rw [List.mem_singleton] at hc; subst hc; right; omega
        obtain ⟨s1, e1, g1, g2, g3, g4, g5, g6, g7⟩ := child
        rw [e1]
        obtain ⟨s2, e2, k1, k2, k3, k4, k5, k6, k7⟩ := ihL s1 g1 g2
        refine ⟨s2, e2, k1, k2, fun b hb => k3 b (g3 b hb), fun p hp => k4 p (g4 p hp), ?_, ?_, ?_⟩
        · intro b hb
          rcases k5 b hb with h | h
          · exact Or.inl h
          · rcases g5 b h with h | h
            · exact Or.inl (k3 b h)
            · exact Or.inr h
        · intro j hj
          rcases List.mem_cons.1 hj with rfl | hj
          · exact k4 _ g6
          · exact k6 j hj
        · intro b hb
          rcases k7 b hb with h | h
          · exact g7 b h
          · exact Or.inr h
  obtain ⟨s1, e1, h1, h2, h3, h4, h5, h6, h7⟩ := loop (List.finRange 4) s hs ha
  refine ⟨s1.2, s1.1, ?_, ?_, h3, h1.ord, h4, h5, h7⟩
  · rw [serializeMatrixF, hp]
    dsimp only
    rw [e1]
  · refine .snoc h1.topo v1 (by omega) h2 (fun q b hb => ?_)
    have hvb := (valid_some hb).1 (hch q)
    have hb1 : some b ∈ s1.1 := by rw [← hb]; exact h6 q (by simp)
    rcases h5 b hb1 with h | h
    · exact h
    · rcases hs.vis b h with h | h
      · exact h3 b h
      · omega

end DD
