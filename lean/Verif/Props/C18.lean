import Verif.Model.Cache
import Mathlib.Data.List.Induction

/-!
# C18: operation caches never answer a different question
-/

namespace DD

variable {κ ρ : Type}

/-- Slots can only be occupied while the counter that `clear` inspects is positive. -/
private theorem slot_none_of_count_zero (h : κ → Nat) (ops : List (CacheOp κ ρ)) :
    (Cache.run h ops).count = 0 → ∀ i, (Cache.run h ops).slot i = none := by
  suffices H : ∀ (ops : List (CacheOp κ ρ)) (c : Cache κ ρ), (c.count = 0 → ∀ i, c.slot i = none) →
      (ops.foldl (CacheOp.apply h) c).count = 0 → ∀ i, (ops.foldl (CacheOp.apply h) c).slot i = none by
    exact H ops Cache.empty (fun _ _ => rfl)
  intro ops
  induction ops with
  | nil => intro c hc; exact hc
  | cons op ops ih =>
    intro c hc
    refine ih _ ?_
    cases op with
    | insert k r => intro h0; simp [CacheOp.apply, Cache.insert] at h0
    | clear =>
      simp only [CacheOp.apply, Cache.clear]
      split
      · intro _ _; rfl
      · exact hc

private theorem run_append (h : κ → Nat) (ops : List (CacheOp κ ρ)) (op : CacheOp κ ρ) :
    Cache.run h (ops ++ [op]) = CacheOp.apply h (Cache.run h ops) op := by
  simp [Cache.run, List.foldl_append]

/-- Slot `i` holds `(k, r)` exactly when `(k, r)` is the most recent insertion into slot `i` since the last `clear`. -/
private theorem slot_iff (h : κ → Nat) (i : Nat) (k : κ) (r : ρ) (ops : List (CacheOp κ ρ)) :
    (Cache.run h ops).slot i = some (k, r) ↔
    ∃ older newer, ops = older ++ CacheOp.insert k r :: newer ∧ h k = i ∧
      ∀ op ∈ newer, op ≠ CacheOp.clear ∧ ∀ k' r', op = CacheOp.insert k' r' → h k' ≠ i := by
  induction ops using List.reverseRecOn with
  | nil => simp [Cache.run, Cache.empty]
  | append_singleton ops op ih =>
    rw [run_append]
    constructor
    · intro hs
      cases op with
      | insert k' r' =>
        simp only [CacheOp.apply, Cache.insert] at hs
        split at hs
        · rename_i hi
          simp only [Option.some.injEq, Prod.mk.injEq] at hs
          obtain ⟨rfl, rfl⟩ := hs
          exact ⟨ops, [], rfl, hi.symm, by simp⟩
        · rename_i hi
          obtain ⟨older, newer, rfl, hk, hn⟩ := ih.1 hs
          refine ⟨older, newer ++ [CacheOp.insert k' r'], by simp, hk, ?_⟩
          intro op hop
          rcases List.mem_append.1 hop with hop | hop
          · exact hn op hop
          · simp only [List.mem_singleton] at hop
            subst hop
            refine ⟨by simp, ?_⟩
            intro k'' r'' he
            cases he
            exact fun e => hi e.symm
      | clear =>
        simp only [CacheOp.apply, Cache.clear] at hs
        split at hs
        · simp at hs
        · rename_i hc
          rw [slot_none_of_count_zero h ops (by omega) i] at hs
          simp at hs
    · rintro ⟨older, newer, he, hk, hn⟩
      rcases List.eq_nil_or_concat newer with rfl | ⟨newer', op', rfl⟩
      · have := List.append_inj' he rfl
        obtain ⟨_, hop⟩ := this
        simp only [List.cons.injEq, and_true] at hop
        subst hop
        simp [CacheOp.apply, Cache.insert, hk]
      · have he' : ops ++ [op] = (older ++ CacheOp.insert k r :: newer') ++ [op'] := by
          rw [he]; simp
        obtain ⟨h1, h2⟩ := List.append_inj' he' rfl
        simp only [List.cons.injEq, and_true] at h2
        subst h1 h2
        have hlast := hn op (by simp)
        have hrec := ih.2 ⟨older, newer', rfl, hk, fun o ho => hn o (by simp [ho])⟩
        cases op with
        | clear => exact absurd rfl hlast.1
        | insert k' r' =>
          have hne := hlast.2 k' r' rfl
          simp only [CacheOp.apply, Cache.insert]
          rw [if_neg (fun e => hne e.symm)]
          exact hrec

/-- **C18.** After any history of insertions and clears, a lookup for `k` answers `r` if and only if the history
contains an insertion of `r` under a key that compares equal to `k` and hashes like `k`, the result passes the
additional test, and after that insertion there was neither a `clear` nor another insertion into the same slot.
This holds for every hash function, every comparison and every number of slots. -/
theorem C18_cache_answers (h : κ → Nat) (eqv : κ → κ → Bool) (ok : ρ → Bool)
    (ops : List (CacheOp κ ρ)) (k : κ) (r : ρ) :
    (Cache.run h ops).lookup h eqv ok k = some r ↔
    ∃ older k' newer, ops = older ++ CacheOp.insert k' r :: newer ∧
      eqv k' k = true ∧ ok r = true ∧ h k' = h k ∧
      ∀ op ∈ newer, op ≠ CacheOp.clear ∧ ∀ k'' r'', op = CacheOp.insert k'' r'' → h k'' ≠ h k := by
  unfold Cache.lookup
  constructor
  · intro hl
    cases hs : (Cache.run h ops).slot (h k) with
    | none => simp [hs] at hl
    | some kr =>
      obtain ⟨k', r'⟩ := kr
      simp only [hs] at hl
      split at hl
      · rename_i hc
        simp only [Option.some.injEq] at hl
        subst hl
        simp only [Bool.and_eq_true] at hc
        obtain ⟨older, newer, ho, hk, hn⟩ := (slot_iff h (h k) k' r' ops).1 hs
        exact ⟨older, k', newer, ho, hc.1, hc.2, hk, hn⟩
      · simp at hl
  · rintro ⟨older, k', newer, ho, he, hok, hk, hn⟩
    have hs := (slot_iff h (h k) k' r ops).2 ⟨older, newer, ho, hk, hn⟩
    simp [hs, he, hok]

/-- **C18, exact comparison.** If operands are compared exactly, an answer is the result of the *latest* insertion for
precisely the queried operands, and that insertion is newer than every `clear`. -/
theorem C18_cache_latest (h : κ → Nat) (ok : ρ → Bool) [DecidableEq κ]
    (ops : List (CacheOp κ ρ)) (k : κ) (r : ρ)
    (hl : (Cache.run h ops).lookup h (fun a b => decide (a = b)) ok k = some r) :
    ∃ older newer, ops = older ++ CacheOp.insert k r :: newer ∧
      CacheOp.clear ∉ newer ∧ ∀ r', CacheOp.insert k r' ∉ newer := by
  obtain ⟨older, k', newer, ho, he, _, _, hn⟩ := (C18_cache_answers h _ ok ops k r).1 hl
  simp only [decide_eq_true_eq] at he
  subst he
  exact ⟨older, newer, ho, fun hc => (hn _ hc).1 rfl, fun r' hr => (hn _ hr).2 _ _ rfl rfl⟩

/-- A history in which a hit happens although older entries were overwritten and cleared. -/
example : (Cache.run (fun k => k % 4)
    [.insert 1 10, .clear, .insert 5 20, .insert 2 30, .insert 1 40, .insert 3 50]).lookup
    (fun k => k % 4) (fun a b => a == b) (fun _ => true) 1 = some 40 := by decide

/-- A slot taken over by another key is not answered for the old key. -/
example : (Cache.run (fun k => k % 4) [.insert 1 10, .insert 5 20]).lookup
    (fun k => k % 4) (fun a b => a == b) (fun _ => true) 1 = none := by decide

/-- **C18 for the stochastic noise table.** A stored operation is found under exactly its kind and target, every other
position is unaffected, a cleared table has no entries (provided insertions were counted), and out-of-range accesses
are reported rather than answered. -/
theorem C18_noise_ops (t t' : NoiseOps ρ) (kind target : Nat) (r : ρ)
    (hi : t.insert kind target r = some t') :
    t'.lookup kind target = some (some r) ∧
    (∀ k q, (k, q) ≠ (kind, target) → t'.lookup k q = t.lookup k q) ∧
    (∀ k q, q < t.rows → k < t.kinds → t'.clear.lookup k q = some none) := by
  unfold NoiseOps.insert at hi
  split at hi
  · rename_i hb
    simp only [Option.some.injEq] at hi
    subst hi
    refine ⟨by simp [NoiseOps.lookup, hb], ?_, ?_⟩
    · intro k q hne
      have : ¬ (q = target ∧ k = kind) := fun ⟨a, b⟩ => hne (by rw [a, b])
      simp [NoiseOps.lookup, this]
    · intro k q hq hk
      simp [NoiseOps.lookup, NoiseOps.clear, hq, hk]
  · simp at hi

/-- Out-of-range requests are errors for both calls. -/
theorem C18_noise_ops_range (t : NoiseOps ρ) (kind target : Nat) (r : ρ)
    (ho : t.rows ≤ target ∨ t.kinds ≤ kind) :
    t.insert kind target r = none ∧ t.lookup kind target = none := by
  have : ¬ (target < t.rows ∧ kind < t.kinds) := by omega
  simp [NoiseOps.insert, NoiseOps.lookup, this]

example : ∃ t, (NoiseOps.init 3 64 : NoiseOps Nat).insert 7 2 99 = some t := ⟨_, rfl⟩

end DD
