import Verif.Model.Slots
import Verif.Proofs.ComplexCache
import Mathlib.Algebra.BigOperators.Fin
import Mathlib.Algebra.Order.Group.Multiset
import Mathlib.Tactic.Abel

/-! Reasoning about computations with slots: weakest preconditions and the collection of slots held. -/

namespace DD

/-- `m` does not fail from `s` and its result satisfies `Q`. -/
def SM.wp {σ F α : Type} (m : SM σ F α) (s : SS σ F) (Q : α → SS σ F → Prop) : Prop :=
  ∃ a s', m s = some (a, s') ∧ Q a s'

namespace SM

variable {σ T F α β γ : Type} {s : SS σ F}

theorem wp_pure {a : α} {Q : α → SS σ F → Prop} (h : Q a s) : wp (pure a) s Q := ⟨a, s, rfl, h⟩

theorem wp_bind {m : SM σ F α} {f : α → SM σ F β} {Q : β → SS σ F → Prop}
    (h : wp m s (fun a s' => wp (f a) s' Q)) : wp (m >>= f) s Q := by
  obtain ⟨a, s', e, b, s'', e', hq⟩ := h
  refine ⟨b, s'', ?_, hq⟩
  show (match m s with | none => none | some (a, s') => f a s') = _
  rw [e]; exact e'

theorem wp_mono {m : SM σ F α} {Q Q' : α → SS σ F → Prop} (h : wp m s Q) (hQ : ∀ a s', Q a s' → Q' a s') :
    wp m s Q' := by
  obtain ⟨a, s', e, hq⟩ := h
  exact ⟨a, s', e, hQ _ _ hq⟩

theorem wp_tabs {Q : σ → SS σ F → Prop} (h : Q s.tabs s) : wp tabs s Q := ⟨_, _, rfl, h⟩

/-- A slot with its value. -/
abbrev Ent (F : Type) := (Nat × Nat) × Cx F

/-- The slots held are exactly those of `M`, with the values given there. -/
structure Heap (K : CacheCfg) (s : SS σ F) (M : Multiset (Ent F)) : Prop where
  reach : CacheReach K s.cache s.out
  out : (s.out : Multiset (Nat × Nat)) = M.map Prod.fst
  mem : ∀ q ∈ M, s.mem q.1.1 = q.2.re ∧ s.mem q.1.2 = q.2.im

variable {K : CacheCfg} {M : Multiset (Ent F)} {z z' : Cx F} {c : Nat × Nat}

/-- The cells of `c` are not cells of slots of `M`. -/
def Apart (c : Nat × Nat) (M : Multiset (Ent F)) : Prop :=
  ∀ q ∈ M, c.1 ≠ q.1.1 ∧ c.1 ≠ q.1.2 ∧ c.2 ≠ q.1.1 ∧ c.2 ≠ q.1.2

theorem Heap.mem_out (h : Heap K s M) {q : Ent F} (hq : q ∈ M) : q.1 ∈ s.out := by
  have : q.1 ∈ (s.out : Multiset (Nat × Nat)) := by rw [h.out]; exact Multiset.mem_map_of_mem _ hq
  exact this

theorem apart_of_cells (h : Heap K s M) (h1 : c.1 ∉ cells s.out) (h2 : c.2 ∉ cells s.out) : Apart c M := by
  intro q hq
  obtain ⟨m1, m2⟩ := mem_cells (h.mem_out hq)
  exact ⟨fun e => h1 (e ▸ m1), fun e => h1 (e ▸ m2), fun e => h2 (e ▸ m1), fun e => h2 (e ▸ m2)⟩

theorem Heap.erase (h : Heap K s ({(c, z)} + M)) : (s.out.erase c : Multiset (Nat × Nat)) = M.map Prod.fst := by
  have hc : c ∈ s.out := h.mem_out (q := (c, z)) (by simp)
  have hp : (s.out : Multiset (Nat × Nat)) = c ::ₘ (s.out.erase c : Multiset (Nat × Nat)) := by
    rw [Multiset.cons_coe]; exact Multiset.coe_eq_coe.2 (List.perm_cons_erase hc)
  have e := h.out
  rw [hp, Multiset.map_add, Multiset.map_singleton, Multiset.singleton_add] at e
  exact (Multiset.cons_inj_right c).1 e

theorem Heap.apart (hK : K.Good) (h : Heap K s ({(c, z)} + M)) : Apart c M ∧ c.1 ≠ c.2 ∧ c ∈ s.out := by
  obtain ⟨f, hw⟩ := h.reach.wf hK
  have hn := hw.nodup
  have hc : c ∈ s.out := h.mem_out (q := (c, z)) (by simp)
  have hp : s.out.Perm (c :: s.out.erase c) := List.perm_cons_erase hc
  have e := h.erase
  have hn' := ((cells_perm (hp.append_right f)).nodup_iff).1 hn
  simp only [List.cons_append, cells_cons, List.nodup_cons, List.mem_cons, not_or] at hn'
  refine ⟨?_, hn'.1.1, hc⟩
  intro q hq
  have hq' : q.1 ∈ s.out.erase c := by
    have : q.1 ∈ (s.out.erase c : Multiset (Nat × Nat)) := by rw [e]; exact Multiset.mem_map_of_mem _ hq
    exact this
  obtain ⟨m1, m2⟩ := mem_cells hq'
  have sub : ∀ a ∈ cells (s.out.erase c), a ∈ cells (s.out.erase c ++ f) := by
    intro a ha; simp only [cells, List.flatMap_append, List.mem_append] at ha ⊢; exact Or.inl ha
  exact ⟨fun e => hn'.1.2 (e ▸ sub _ m1), fun e => hn'.1.2 (e ▸ sub _ m2),
    fun e => hn'.2.1 (e ▸ sub _ m1), fun e => hn'.2.1 (e ▸ sub _ m2)⟩

theorem Heap.read (h : Heap K s M) (hq : (c, z) ∈ M) : (⟨s.mem c.1, s.mem c.2⟩ : Cx F) = z := by
  obtain ⟨h1, h2⟩ := h.mem _ hq
  cases z; simp_all

theorem wp_read {Q : Cx F → SS σ F → Prop} (h : Q ⟨s.mem c.1, s.mem c.2⟩ s) : wp (SM.read c) s Q := ⟨_, _, rfl, h⟩

theorem wp_readH {Q : Cx F → SS σ F → Prop} (hs : Heap K s M) (hq : (c, z) ∈ M) (h : Q z s) : wp (SM.read c) s Q := by
  refine wp_read ?_
  rw [hs.read hq]; exact h

theorem wp_setTabs {Q : Unit → SS σ F → Prop} {t : σ} (hs : Heap K s M)
    (h : ∀ s', s'.tabs = t → s'.mem = s.mem → Heap K s' M → Q () s') : wp (setTabs t) s Q :=
  ⟨_, _, rfl, h _ rfl rfl ⟨hs.reach, hs.out, hs.mem⟩⟩

/-- Contents after writing to a slot. -/
theorem upd_other (m : Nat → F) (hA : Apart c M) {q : Ent F} (hq : q ∈ M) :
    Function.update (Function.update m c.1 z.re) c.2 z.im q.1.1 = m q.1.1 ∧
    Function.update (Function.update m c.1 z.re) c.2 z.im q.1.2 = m q.1.2 := by
  obtain ⟨h1, h2, h3, h4⟩ := hA q hq
  constructor
  · rw [Function.update_of_ne h3.symm, Function.update_of_ne h1.symm]
  · rw [Function.update_of_ne h4.symm, Function.update_of_ne h2.symm]

theorem upd_self (m : Nat → F) (hc : c.1 ≠ c.2) :
    Function.update (Function.update m c.1 z.re) c.2 z.im c.1 = z.re ∧
    Function.update (Function.update m c.1 z.re) c.2 z.im c.2 = z.im := by
  constructor
  · rw [Function.update_of_ne hc, Function.update_self]
  · rw [Function.update_self]

theorem wp_getCached {Q : (Nat × Nat) → SS σ F → Prop} (hK : K.Good) (hs : Heap K s M)
    (h : ∀ c s', s'.tabs = s.tabs → Heap K s' ({(c, z)} + M) → Q c s') : wp (getCached K z) s Q := by
  obtain ⟨f, hw⟩ := hs.reach.wf hK
  obtain ⟨c', c, f', e, hw', h1, h2⟩ := CxCache.getCached_spec hK hw
  have hA := apart_of_cells hs (h1 c.1 (by simp)) (h1 c.2 (by simp))
  refine ⟨c, { s with cache := c', out := c :: s.out, mem := Function.update (Function.update s.mem c.1 z.re) c.2 z.im },
    by simp only [getCached, e, write, Option.map_some], ?_⟩
  refine h _ _ ?_ ⟨?_, ?_, ?_⟩
  · rfl
  · exact hs.reach.get e
  · show ((c :: s.out : List (Nat × Nat)) : Multiset (Nat × Nat)) = _
    rw [← Multiset.cons_coe, hs.out]; simp
  · intro q hq
    rcases Multiset.mem_add.1 hq with hq | hq
    · rw [Multiset.mem_singleton] at hq
      subst hq
      exact upd_self _ h2
    · obtain ⟨u1, u2⟩ := upd_other (z := z) s.mem hA hq
      obtain ⟨v1, v2⟩ := hs.mem q hq
      exact ⟨u1.trans v1, u2.trans v2⟩

theorem wp_getTemporary {Q : (Nat × Nat) → SS σ F → Prop} (hK : K.Good) (hs : Heap K s M)
    (h : ∀ c s', s'.tabs = s.tabs → (⟨s'.mem c.1, s'.mem c.2⟩ : Cx F) = z → Heap K s' M → Q c s') :
    wp (getTemporary K z) s Q := by
  obtain ⟨f, hw⟩ := hs.reach.wf hK
  obtain ⟨c', c, e, hw', h1, h2, _⟩ := CxCache.getTemporary_spec hK hw
  have hA := apart_of_cells hs (h1 c.1 (by simp)).1 (h1 c.2 (by simp)).1
  refine ⟨c, { s with cache := c', mem := Function.update (Function.update s.mem c.1 z.re) c.2 z.im },
    by simp only [getTemporary, e, write, Option.map_some], ?_⟩
  refine h _ _ ?_ ?_ ⟨?_, ?_, ?_⟩
  · rfl
  · obtain ⟨u1, u2⟩ := upd_self (z := z) s.mem h2
    cases z; simp only [Cx.mk.injEq]; exact ⟨u1, u2⟩
  · exact hs.reach.temporary e
  · exact hs.out
  · intro q hq
    obtain ⟨u1, u2⟩ := upd_other (z := z) s.mem hA hq
    obtain ⟨v1, v2⟩ := hs.mem q hq
    exact ⟨u1.trans v1, u2.trans v2⟩

theorem wp_give {Q : Unit → SS σ F → Prop} (hK : K.Good) (hs : Heap K s ({(c, z)} + M))
    (h : ∀ s', s'.tabs = s.tabs → s'.mem = s.mem → Apart c M → c.1 ≠ c.2 → Heap K s' M → Q () s') : wp (give c) s Q := by
  obtain ⟨hA, hne, hc⟩ := hs.apart hK
  refine ⟨(), { s with cache := s.cache.returnToCache c, out := s.out.erase c }, by simp only [give, if_pos hc], ?_⟩
  refine h _ rfl rfl hA hne ⟨hs.reach.give hc, ?_, ?_⟩
  · exact hs.erase
  · intro q hq
    exact hs.mem q (Multiset.mem_add.2 (Or.inr hq))

theorem wp_write {Q : Unit → SS σ F → Prop} (hK : K.Good) (hs : Heap K s ({(c, z)} + M))
    (h : ∀ s', s'.tabs = s.tabs → Heap K s' ({(c, z')} + M) → Q () s') : wp (write c z') s Q := by
  obtain ⟨hA, hne, hc⟩ := hs.apart hK
  refine ⟨(), _, rfl, ?_⟩
  refine h _ rfl ⟨hs.reach, ?_, ?_⟩
  · show (s.out : Multiset (Nat × Nat)) = _
    rw [hs.out]; simp
  · intro q hq
    rcases Multiset.mem_add.1 hq with hq | hq
    · rw [Multiset.mem_singleton] at hq
      subst hq
      exact upd_self _ hne
    · obtain ⟨u1, u2⟩ := upd_other (z := z') s.mem hA hq
      obtain ⟨v1, v2⟩ := hs.mem q (Multiset.mem_add.2 (Or.inr hq))
      exact ⟨u1.trans v1, u2.trans v2⟩

theorem wp_writeFree {Q : Unit → SS σ F → Prop} (hs : Heap K s M) (hA : Apart c M) (hne : c.1 ≠ c.2)
    (h : ∀ s', s'.tabs = s.tabs → (⟨s'.mem c.1, s'.mem c.2⟩ : Cx F) = z → Heap K s' M → Q () s') : wp (write c z) s Q := by
  refine ⟨(), _, rfl, ?_⟩
  refine h _ rfl ?_ ⟨hs.reach, hs.out, ?_⟩
  · obtain ⟨u1, u2⟩ := upd_self (z := z) s.mem hne
    cases z; simp only [Cx.mk.injEq]; exact ⟨u1, u2⟩
  · intro q hq
    obtain ⟨u1, u2⟩ := upd_other (z := z) s.mem hA hq
    obtain ⟨v1, v2⟩ := hs.mem q hq
    exact ⟨u1.trans v1, u2.trans v2⟩

theorem wp_temps (hK : K.Good) : ∀ (zs : List (Cx F)) {s : SS σ F} {Q : Unit → SS σ F → Prop} (_ : Heap K s M)
    (_ : ∀ s', s'.tabs = s.tabs → Heap K s' M → Q () s'), wp (temps K zs) s Q
  | [], s, Q, hs, h => wp_pure (h s rfl hs)
  | z :: zs, s, Q, hs, h => by
    refine wp_bind (wp_getTemporary hK hs fun c s' ht _ hs' => ?_)
    exact wp_temps hK zs hs' fun s'' ht' hs'' => h s'' (ht'.trans ht) hs''

theorem wp_lookup {N : Num σ T F} {Q : T → SS σ F → Prop} (hs : Heap K s M)
    (h : ∀ s', s'.tabs = (N.lookup s.tabs z).1 → s'.mem = s.mem → Heap K s' M → Q (N.lookup s.tabs z).2 s') :
    wp (SM.lookup N z) s Q := by
  refine wp_bind (wp_tabs (wp_bind (wp_setTabs hs fun s' ht hm hs' => wp_pure ?_)))
  exact h s' ht hm hs'

/-- The loops: each step turns the slots `pre i` into the slots `own i`, and the tables as `g i` says. -/
theorem wp_seq {Fr : Multiset (Ent F)} : ∀ {n : Nat} (f : Fin n → SM σ F β) (g : Fin n → σ → σ × γ)
    (pre : Fin n → Multiset (Ent F)) (ok : Fin n → β → γ → Prop) (own : Fin n → β → γ → Multiset (Ent F))
    (_ : ∀ i s L, Fr ≤ L → Heap K s (pre i + L) → wp (f i) s (fun b s' => ok i b (g i s.tabs).2 ∧
      Heap K s' (own i b (g i s.tabs).2 + L) ∧ s'.tabs = (g i s.tabs).1))
    {s : SS σ F} {L : Multiset (Ent F)} (_ : Fr ≤ L) (_ : Heap K s (∑ i, pre i + L)),
    wp (seq n f) s (fun bs s' => (∀ i, ok i (bs i) ((seqFin n g s.tabs).2 i)) ∧
      Heap K s' (∑ i, own i (bs i) ((seqFin n g s.tabs).2 i) + L) ∧ s'.tabs = (seqFin n g s.tabs).1)
  | 0, f, g, pre, ok, own, hf, s, L, hL, hs => by
    refine wp_pure ⟨fun i => i.elim0, ?_, rfl⟩
    simpa using hs
  | n + 1, f, g, pre, ok, own, hf, s, L, hL, hs => by
    rw [Fin.sum_univ_succ, add_assoc] at hs
    refine wp_bind (wp_mono (hf 0 s _ (hL.trans (Multiset.le_add_left _ _)) hs) ?_)
    rintro b s1 ⟨h1, h2, h3⟩
    have h2' : Heap K s1 (∑ i : Fin n, pre i.succ + (own 0 b (g 0 s.tabs).2 + L)) := by
      have e : own 0 b (g 0 s.tabs).2 + (∑ i : Fin n, pre i.succ + L) =
          ∑ i : Fin n, pre i.succ + (own 0 b (g 0 s.tabs).2 + L) := by abel
      rwa [e] at h2
    refine wp_bind (wp_mono (wp_seq (fun i => f i.succ) (fun i => g i.succ) (fun i => pre i.succ) (fun i => ok i.succ)
      (fun i => own i.succ) (fun i => hf i.succ) (hL.trans (Multiset.le_add_left _ _)) h2') ?_)
    rintro bs s2 ⟨k1, k2, k3⟩
    rw [h3] at k1 k2 k3
    refine wp_pure ⟨?_, ?_, k3⟩
    · intro i
      refine Fin.cases ?_ (fun i => ?_) i
      · exact h1
      · exact k1 i
    · rw [Fin.sum_univ_succ]
      have e : own 0 b (g 0 s.tabs).2 + ∑ i : Fin n, own i.succ (bs i) ((seqFin n (fun i => g i.succ) (g 0 s.tabs).1).2 i) + L =
          ∑ i : Fin n, own i.succ (bs i) ((seqFin n (fun i => g i.succ) (g 0 s.tabs).1).2 i) +
            (own 0 b (g 0 s.tabs).2 + L) := by abel
      show Heap K s2 (own 0 b (g 0 s.tabs).2 + ∑ i : Fin n, own i.succ (bs i) ((seqFin n (fun i => g i.succ) (g 0 s.tabs).1).2 i) + L)
      rw [e]; exact k2

end SM
end DD
