import Verif.Model.ComplexCache
import Mathlib.Data.List.Perm.Basic
import Mathlib.Algebra.Ring.Parity
import Mathlib.Data.List.Dedup
import Mathlib.Tactic.Ring

namespace DD

/-- The storage cells of a list of complex numbers. -/
def cells (l : List (Nat × Nat)) : List Nat := l.flatMap (fun c => [c.1, c.2])

@[simp] theorem cells_cons (c : Nat × Nat) (l) : cells (c :: l) = c.1 :: c.2 :: cells l := by simp [cells]
@[simp] theorem cells_nil : cells [] = [] := rfl

theorem cells_length (l : List (Nat × Nat)) : (cells l).length = 2 * l.length := by
  induction l with
  | nil => rfl
  | cons c l ih => simp [ih]; omega

theorem cells_perm {l l' : List (Nat × Nat)} (h : l.Perm l') : (cells l).Perm (cells l') := h.flatMap_right _

theorem mem_cells {l : List (Nat × Nat)} {c} (h : c ∈ l) : c.1 ∈ cells l ∧ c.2 ∈ cells l := by
  unfold cells
  constructor <;> exact List.mem_flatMap.2 ⟨c, h, by simp⟩

namespace CxCache

/-- The free list starting at `a` consists of the pairs `l`. -/
def Chain (next : Nat → Option Nat) : Option Nat → List (Nat × Nat) → Prop
  | a, [] => a = none
  | a, c :: l => a = some c.1 ∧ next c.1 = some c.2 ∧ Chain next (next c.2) l

/-- The parameters are sensible: chunks are non-empty and of even size. -/
structure _root_.DD.CacheCfg.Good (K : CacheCfg) : Prop where
  pos : 0 < K.initAlloc
  even : Even K.initAlloc
  growth : 0 < K.growth

structure WF (K : CacheCfg) (s : CxCache) (out free : List (Nat × Nat)) : Prop where
  chain : Chain s.next s.available free
  nodup : (cells (out ++ free)).Nodup
  lt : ∀ a ∈ cells (out ++ free), a < s.chunkIt
  itLe : s.chunkIt ≤ s.chunkEndIt
  endEq : s.chunkEndIt = s.allocations
  evenIt : Even s.chunkIt
  evenEnd : Even s.chunkEndIt
  evenSize : Even s.allocationSize
  posSize : 0 < s.allocationSize
  used : s.chunkIt = 2 * (out.length + free.length)
  count : s.count = 2 * out.length

theorem Chain.congr {next next' : Nat → Option Nat} : ∀ {l a}, (∀ x ∈ cells l, next' x = next x) →
    Chain next a l → Chain next' a l
  | [], _, _, h => h
  | c :: l, a, he, ⟨h1, h2, h3⟩ => by
    refine ⟨h1, ?_, ?_⟩
    · rw [he _ (by simp), h2]
    · rw [he c.2 (by simp)]
      exact Chain.congr (fun x hx => he x (by simp [hx])) h3

variable {K : CacheCfg} {s : CxCache} {out free : List (Nat × Nat)}

theorem create_wf (hK : K.Good) : WF K (create K) [] [] where
  chain := rfl
  nodup := by simp
  lt := by simp
  itLe := Nat.zero_le _
  endEq := rfl
  evenIt := by simp [create]
  evenEnd := hK.even
  evenSize := hK.even.mul_right _
  posSize := Nat.mul_pos hK.pos hK.growth
  used := rfl
  count := rfl

theorem clear_wf (hK : K.Good) : WF K (s.clear K) [] [] where
  chain := rfl
  nodup := by simp
  lt := by simp
  itLe := Nat.zero_le _
  endEq := rfl
  evenIt := by simp [clear]
  evenEnd := hK.even
  evenSize := hK.even.mul_right _
  posSize := Nat.mul_pos hK.pos hK.growth
  used := rfl
  count := rfl

theorem reserve_wf (hK : K.Good) (h : WF K s out free) :
    WF K (s.reserve K) out free ∧ (s.reserve K).chunkIt + 1 < (s.reserve K).chunkEndIt ∧
      (s.reserve K).available = s.available ∧ (s.reserve K).chunkIt = s.chunkIt ∧ (s.reserve K).count = s.count ∧
      (s.reserve K).next = s.next := by
  unfold reserve
  by_cases hc : s.chunkIt = s.chunkEndIt
  · rw [if_pos hc]
    have e : s.allocations = s.chunkIt := by rw [hc, h.endEq]
    have hev := h.evenIt
    have hsz := h.evenSize
    have hps := h.posSize
    refine ⟨⟨h.chain, h.nodup, ?_, ?_, rfl, ?_, ?_, ?_, ?_, ?_, h.count⟩, ?_, rfl, e, rfl, rfl⟩
    · show ∀ a ∈ _, a < s.allocations
      rw [e]; exact h.lt
    · show s.allocations ≤ s.allocations + _; omega
    · show Even s.allocations
      rw [e]; exact hev
    · show Even (s.allocations + _)
      rw [e]; exact hev.add hsz
    · exact hsz.mul_right _
    · exact Nat.mul_pos hps hK.growth
    · show s.allocations = _
      rw [e]; exact h.used
    · show s.allocations + 1 < s.allocations + s.allocationSize
      obtain ⟨k, hk⟩ := hsz; omega
  · rw [if_neg hc]
    refine ⟨h, ?_, rfl, rfl, rfl, rfl⟩
    have := h.itLe
    obtain ⟨k, hk⟩ := h.evenIt
    obtain ⟨l, hl⟩ := h.evenEnd
    omega

theorem getCached_spec (hK : K.Good) (h : WF K s out free) :
    ∃ s' c free', s.getCached K = some (s', c) ∧ WF K s' (c :: out) free' ∧ (∀ a ∈ cells [c], a ∉ cells out) ∧ c.1 ≠ c.2 := by
  suffices hs : ∃ s' c free', s.getCached K = some (s', c) ∧ WF K s' (c :: out) free' by
    obtain ⟨s', c, free', h1, h2⟩ := hs
    refine ⟨s', c, free', h1, h2, ?_, ?_⟩
    · have := h2.nodup
      simp only [cells, List.cons_append, List.flatMap_cons, List.flatMap_append, List.nil_append] at this ⊢
      simp only [List.nodup_cons, List.mem_cons, List.mem_append, not_or] at this
      intro a ha
      simp only [List.flatMap_nil, List.append_nil, List.mem_cons, List.not_mem_nil, or_false] at ha
      rcases ha with rfl | rfl
      · exact this.1.2.1
      · exact this.2.1.1
    · have := h2.nodup
      simp only [List.cons_append, cells_cons, List.nodup_cons, List.mem_cons, not_or] at this
      exact this.1.1
  unfold getCached
  cases free with
  | cons c free =>
    obtain ⟨h1, h2, h3⟩ := h.chain
    rw [h1]
    dsimp only
    rw [h2]
    have hp : (c :: (out ++ free)).Perm (out ++ c :: free) := List.perm_middle.symm
    refine ⟨_, _, free, rfl, ?_⟩
    have hlen : (c :: out).length + free.length = out.length + (c :: free).length := by simp; omega
    refine ⟨h3, ?_, ?_, h.itLe, h.endEq, h.evenIt, h.evenEnd, h.evenSize, h.posSize, ?_, ?_⟩
    · exact ((cells_perm hp).nodup_iff).2 h.nodup
    · intro a ha
      exact h.lt a ((cells_perm hp).mem_iff.1 ha)
    · rw [hlen]; exact h.used
    · show s.count + 2 = _
      rw [h.count]; simp; omega
  | nil =>
    have h1 : s.available = none := h.chain
    rw [h1]
    dsimp only
    obtain ⟨hw, hlt, ha, hi, hc, hn⟩ := reserve_wf hK h
    rw [if_pos hlt]
    refine ⟨_, _, [], rfl, ?_⟩
    have hav : (s.reserve K).available = none := by rw [ha, h1]
    refine ⟨hav, ?_, ?_, ?_, hw.endEq, ?_, hw.evenEnd, hw.evenSize, hw.posSize, ?_, ?_⟩
    · simp only [List.cons_append, cells_cons, List.nodup_cons, List.mem_cons, not_or]
      refine ⟨⟨by omega, fun hm => ?_⟩, fun hm => ?_, hw.nodup⟩
      · exact absurd (hw.lt _ hm) (lt_irrefl _)
      · have := hw.lt _ hm; omega
    · intro a hm
      simp only [List.cons_append, cells_cons, List.mem_cons] at hm
      show a < (s.reserve K).chunkIt + 2
      rcases hm with rfl | rfl | hm
      · omega
      · omega
      · have := hw.lt _ hm; omega
    · show (s.reserve K).chunkIt + 2 ≤ (s.reserve K).chunkEndIt
      omega
    · show Even ((s.reserve K).chunkIt + 2)
      exact hw.evenIt.add (by decide)
    · show (s.reserve K).chunkIt + 2 = _
      rw [hw.used]; simp; omega
    · show (s.reserve K).count + 2 = _
      rw [hw.count]; simp; omega

theorem getTemporary_spec (hK : K.Good) (h : WF K s out free) :
    ∃ s' c, s.getTemporary K = some (s', c) ∧ WF K s' out free ∧ (∀ a ∈ cells [c], a ∉ cells out ∧ a < s'.allocations) ∧
      c.1 ≠ c.2 ∧ (∃ s'', s'.getCached K = some (s'', c)) ∧ s'.getTemporary K = some (s', c) := by
  unfold getTemporary
  cases free with
  | cons c free =>
    obtain ⟨h1, h2, h3⟩ := h.chain
    rw [h1]
    dsimp only
    rw [h2]
    have hn := h.nodup
    have hp : (c :: (out ++ free)).Perm (out ++ c :: free) := List.perm_middle.symm
    rw [← (cells_perm hp).nodup_iff] at hn
    simp only [cells_cons, List.nodup_cons, List.mem_cons, not_or] at hn
    have hsub : ∀ a ∈ cells out, a ∈ cells (out ++ free) := by
      intro a ha; simp only [cells, List.flatMap_append, List.mem_append] at ha ⊢; exact Or.inl ha
    refine ⟨s, c, rfl, h, ?_, hn.1.1, ?_, ?_⟩
    · intro a ha
      have hl : a < s.allocations := by
        have := h.lt a ((cells_perm hp).mem_iff.1 (by
          simp only [cells_cons, cells_nil, List.mem_cons, List.not_mem_nil, or_false] at ha ⊢
          rcases ha with ha | ha
          · exact Or.inl ha
          · exact Or.inr (Or.inl ha)))
        have := h.itLe; have := h.endEq; omega
      refine ⟨?_, hl⟩
      simp only [cells_cons, cells_nil, List.mem_cons, List.not_mem_nil, or_false] at ha
      rcases ha with rfl | rfl
      · exact fun hm => hn.1.2 (hsub _ hm)
      · exact fun hm => hn.2.1 (hsub _ hm)
    · unfold getCached
      rw [h1]; dsimp only; rw [h2]; exact ⟨_, rfl⟩
    · rw [h1]; dsimp only; rw [h2]
  | nil =>
    have h1 : s.available = none := h.chain
    rw [h1]
    dsimp only
    obtain ⟨hw, hlt, ha, hi, hc, hn⟩ := reserve_wf hK h
    rw [if_pos hlt]
    have hav : (s.reserve K).available = none := by rw [ha, h1]
    have hre : (s.reserve K).reserve K = s.reserve K := by
      generalize s.reserve K = u at hlt
      unfold reserve; rw [if_neg (by omega)]
    refine ⟨_, _, rfl, hw, ?_, by simp, ?_, ?_⟩
    · intro a hm
      have he := hw.endEq
      simp only [cells_cons, cells_nil, List.mem_cons, List.not_mem_nil, or_false] at hm
      have hx : ∀ b ∈ cells out, b < (s.reserve K).chunkIt := by
        intro b hb; exact hw.lt b (by simpa using hb)
      rcases hm with rfl | rfl
      · exact ⟨fun hm => absurd (hx _ hm) (lt_irrefl _), by omega⟩
      · exact ⟨fun hm => by have := hx _ hm; omega, by omega⟩
    · unfold getCached
      rw [hav]; dsimp only
      rw [hre, if_pos hlt]; exact ⟨_, rfl⟩
    · rw [hav]; dsimp only
      rw [hre, if_pos hlt]

theorem return_wf (h : WF K s out free) {c} (hc : c ∈ out) : WF K (s.returnToCache c) (out.erase c) (c :: free) := by
  have hp0 : out.Perm (c :: out.erase c) := List.perm_cons_erase hc
  have hp : (out ++ free).Perm (out.erase c ++ c :: free) :=
    (hp0.append_right free).trans List.perm_middle.symm
  have hnd := h.nodup
  have hnd' := ((cells_perm hp).nodup_iff).1 hnd
  have hnd2 := ((cells_perm (hp.trans List.perm_middle)).nodup_iff).1 hnd
  simp only [cells_cons, List.nodup_cons, List.mem_cons, not_or] at hnd2
  have hlen : out.length = (out.erase c).length + 1 := by rw [hp0.length_eq]; rfl
  refine ⟨⟨rfl, by simp [returnToCache], ?_⟩, hnd', ?_, h.itLe, h.endEq, h.evenIt, h.evenEnd, h.evenSize, h.posSize, ?_, ?_⟩
  · have e : (s.returnToCache c).next c.2 = s.available := by
      unfold returnToCache
      dsimp only
      rw [Function.update_of_ne (fun e => hnd2.1.1 e.symm), Function.update_self]
    rw [e]
    refine Chain.congr ?_ h.chain
    intro x hx
    have hx' : x ∈ cells (out.erase c ++ free) := by
      simp only [cells, List.flatMap_append, List.mem_append] at hx ⊢; exact Or.inr hx
    unfold returnToCache
    dsimp only
    rw [Function.update_of_ne, Function.update_of_ne]
    · rintro rfl; exact hnd2.2.1 hx'
    · rintro rfl; exact hnd2.1.2 hx'
  · intro a ha
    exact h.lt a ((cells_perm hp).mem_iff.2 ha)
  · show s.chunkIt = _
    rw [h.used, hlen]; simp; omega
  · show s.count - 2 = _
    rw [h.count, hlen]; omega

end CxCache

theorem CacheReach.wf {K : CacheCfg} {s out} (hK : K.Good) (h : CacheReach K s out) : ∃ free, CxCache.WF K s out free := by
  induction h with
  | create => exact ⟨[], CxCache.create_wf hK⟩
  | get _ hg ih =>
    obtain ⟨f, hw⟩ := ih
    obtain ⟨s', c, f', e, hw', _⟩ := CxCache.getCached_spec hK hw
    rw [hg] at e
    obtain ⟨rfl, rfl⟩ := Prod.mk.inj (Option.some.inj e)
    exact ⟨f', hw'⟩
  | temporary _ hg ih =>
    obtain ⟨f, hw⟩ := ih
    obtain ⟨s', c, e, hw', _⟩ := CxCache.getTemporary_spec hK hw
    rw [hg] at e
    obtain ⟨rfl, rfl⟩ := Prod.mk.inj (Option.some.inj e)
    exact ⟨f, hw'⟩
  | give _ hc ih =>
    obtain ⟨f, hw⟩ := ih
    exact ⟨_, CxCache.return_wf hw hc⟩
  | clear _ ih => exact ⟨[], CxCache.clear_wf hK⟩

end DD
