import Verif.Model.Stats
import Mathlib.Data.List.Count
import Mathlib.Data.Fin.VecNotation

/-!
# C93: statistics of the tables

The numbers of lookups and hits that `statistics()` prints, and the hit ratio. The statistics of the table of complex numbers are in
C01 (`C01_statistics`).
-/

namespace DD

section
variable {κ ρ : Type}

/-! ## Specification -/

/-- What the lookups of a history return, in reverse order, using the cache without statistics; with `reset`, only those after the last
`clear`. -/
def answers (h : κ → Nat) (eqv : κ → κ → Bool) (ok : ρ → Bool) (reset : Bool) :
    Cache κ ρ → List (Option ρ) → List (StatOp κ ρ) → List (Option ρ)
  | _, acc, [] => acc
  | c, acc, .insert k r :: ops => answers h eqv ok reset (c.insert h k r) acc ops
  | c, acc, .lookup k :: ops => answers h eqv ok reset c (c.lookup h eqv ok k :: acc) ops
  | c, acc, .clear :: ops => answers h eqv ok reset c.clear (if reset then [] else acc) ops

/-- The calls of a history that change the content of the cache. -/
def changes : List (StatOp κ ρ) → List (CacheOp κ ρ)
  | [] => []
  | .insert k r :: ops => .insert k r :: changes ops
  | .lookup _ :: ops => changes ops
  | .clear :: ops => .clear :: changes ops

/-! ## Operation caches -/

/-- The statistics do not influence the answer, which is that of the cache without them. -/
theorem C93_answer (h : κ → Nat) (eqv : κ → κ → Bool) (ok : ρ → Bool) (c : StatCache κ ρ) (k : κ) :
    (c.lookup h eqv ok k).2 = c.cache.lookup h eqv ok k := by
  unfold StatCache.lookup Cache.lookup
  dsimp only
  split
  · next e => rw [e]
  · next k' r e =>
    rw [e]
    dsimp only
    split_ifs <;> rfl

theorem StatCache.lookup_fst (h : κ → Nat) (eqv : κ → κ → Bool) (ok : ρ → Bool) (c : StatCache κ ρ) (k : κ) :
    (c.lookup h eqv ok k).1.cache = c.cache ∧ (c.lookup h eqv ok k).1.lookups = c.lookups + 1 ∧
      (c.lookup h eqv ok k).1.hits = c.hits + if (c.cache.lookup h eqv ok k).isSome then 1 else 0 := by
  unfold StatCache.lookup Cache.lookup
  dsimp only
  split
  · next e => rw [e]; exact ⟨rfl, rfl, rfl⟩
  · next k' r e =>
    rw [e]
    dsimp only
    split_ifs with h1 h2 h3
    · exact ⟨rfl, rfl, rfl⟩
    · simp at h2
    · simp at h3
    · exact ⟨rfl, rfl, rfl⟩

theorem StatCache.run_aux (h : κ → Nat) (eqv : κ → κ → Bool) (ok : ρ → Bool) (reset : Bool) : ∀ (ops : List (StatOp κ ρ))
    (c : StatCache κ ρ) (acc : List (Option ρ)), c.lookups = acc.length → c.hits = acc.countP Option.isSome →
    (ops.foldl (StatOp.apply h eqv ok reset) c).lookups = (answers h eqv ok reset c.cache acc ops).length ∧
      (ops.foldl (StatOp.apply h eqv ok reset) c).hits = (answers h eqv ok reset c.cache acc ops).countP Option.isSome ∧
      (ops.foldl (StatOp.apply h eqv ok reset) c).cache = (changes ops).foldl (CacheOp.apply h) c.cache := by
  intro ops
  induction ops with
  | nil => intro c acc h1 h2; exact ⟨h1, h2, rfl⟩
  | cons o ops ih =>
    intro c acc h1 h2
    rw [List.foldl_cons]
    cases o with
    | insert k r => exact ih (c.insert h k r) acc h1 h2
    | lookup k =>
      obtain ⟨a1, a2, a3⟩ := StatCache.lookup_fst h eqv ok c k
      have := ih (c.lookup h eqv ok k).1 (c.cache.lookup h eqv ok k :: acc) (by rw [a2, h1, List.length_cons])
        (by rw [a3, h2, List.countP_cons])
      rw [a1] at this
      exact this
    | clear =>
      cases reset with
      | true => exact ih (c.clear true) [] rfl rfl
      | false => exact ih (c.clear false) acc h1 h2

/-- After any history of calls, the cache reports the exact number of its lookups and of those that returned a result (for the caches
that reset their statistics in `clear`: since then), and contains what it would contain without statistics. -/
theorem C93_counts (h : κ → Nat) (eqv : κ → κ → Bool) (ok : ρ → Bool) (reset : Bool) (ops : List (StatOp κ ρ)) :
    (StatCache.run h eqv ok reset ops).lookups = (answers h eqv ok reset .empty [] ops).length ∧
      (StatCache.run h eqv ok reset ops).hits = (answers h eqv ok reset .empty [] ops).countP Option.isSome ∧
      (StatCache.run h eqv ok reset ops).cache = Cache.run h (changes ops) :=
  StatCache.run_aux h eqv ok reset ops .empty [] rfl rfl

/-- The hit ratio is at most one. -/
theorem C93_ratio (h : κ → Nat) (eqv : κ → κ → Bool) (ok : ρ → Bool) (reset : Bool) (ops : List (StatOp κ ρ)) :
    (StatCache.run h eqv ok reset ops).hits ≤ (StatCache.run h eqv ok reset ops).lookups := by
  obtain ⟨h1, h2, _⟩ := C93_counts h eqv ok reset ops
  rw [h1, h2]
  exact List.countP_le_length

/-- After `clear`, the caches of transpositions and of multi-controlled gates report no lookups. -/
theorem C93_clear (h : κ → Nat) (eqv : κ → κ → Bool) (ok : ρ → Bool) (ops : List (StatOp κ ρ)) :
    (StatCache.run h eqv ok true (ops ++ [.clear])).lookups = 0 ∧ (StatCache.run h eqv ok true (ops ++ [.clear])).hits = 0 := by
  unfold StatCache.run
  rw [List.foldl_append]
  exact ⟨rfl, rfl⟩

/-- All the others keep counting, so that the ratio they print mixes the time before with that after `clear`. -/
theorem C93_clear_false (h : κ → Nat) (eqv : κ → κ → Bool) (ok : ρ → Bool) (ops : List (StatOp κ ρ)) :
    (StatCache.run h eqv ok false (ops ++ [.clear])).lookups = (StatCache.run h eqv ok false ops).lookups ∧
      (StatCache.run h eqv ok false (ops ++ [.clear])).hits = (StatCache.run h eqv ok false ops).hits := by
  unfold StatCache.run
  rw [List.foldl_append]
  exact ⟨rfl, rfl⟩

end

/-! ## Unique tables -/

section
variable {W : Type} {n : Nat} [DecidableEq W]

theorem StatUT.passed_le (t : UTable W n) (es : Fin n → Edge W) (l : List Nat) : StatUT.passed t es l ≤ l.length := by
  induction l with
  | nil => exact le_rfl
  | cons q l ih =>
    unfold StatUT.passed
    split_ifs
    · exact Nat.zero_le _
    · exact Nat.succ_le_succ ih

/-- A lookup is counted as a hit exactly if no node is added to the table. -/
theorem C93_lookup (H : (Fin n → Edge W) → Nat) (t : StatUT W n) (a : Nat) :
    (t.lookup H a).1.lookups = t.lookups + 1 ∧ (t.lookup H a).2 = (t.tab.lookup H a).2 ∧
      ((t.lookup H a).1.hits = t.hits + 1 ∧ (t.lookup H a).1.tab.nodeCount = t.tab.nodeCount ∧
          (t.lookup H a).1.tab.chain = t.tab.chain ∨
        (t.lookup H a).1.hits = t.hits ∧ (t.lookup H a).1.tab.nodeCount = t.tab.nodeCount + 1 ∧ (t.lookup H a).2 = a) := by
  refine ⟨rfl, rfl, ?_⟩
  unfold StatUT.lookup UTable.lookup
  dsimp only
  cases hf : (t.tab.chain ((t.tab.mem a).v, t.tab.key H (t.tab.mem a).e)).find? (fun q => decide ((t.tab.mem q).e = (t.tab.mem a).e)) with
  | none => exact .inr ⟨rfl, rfl, rfl⟩
  | some q =>
    refine .inl ⟨rfl, ?_⟩
    dsimp only
    split_ifs
    · exact ⟨rfl, rfl⟩
    · exact ⟨rfl, rfl⟩

/-- After any sequence of calls, every lookup has been counted either as a hit or by the node it has added. -/
theorem C93_unique (H : (Fin n → Edge W) → Nat) {t : StatUT W n} {added : Nat} (hr : StatUTRun H t added) :
    t.hits + added = t.lookups := by
  induction hr with
  | new u => rfl
  | lookup hr a ih =>
    rename_i t k
    obtain ⟨h1, _, h2⟩ := C93_lookup H t a
    rw [h1]
    rcases h2 with ⟨h2, h3, _⟩ | ⟨h2, h3, _⟩ <;> rw [h2, h3] <;> omega
  | clear hr u => rfl
  | other hr u ih => exact ih

end

/-- A new table after the lookups of four different nodes that have the same bucket. -/
def fourNodes : StatUT Nat 2 :=
  let u : UTable Nat 2 := UTable.init .default 1 1 ⟨0, fun _ => ⟨none, 0⟩, 0, false, false⟩
  let u := { u with mem := fun a => ⟨0, ![⟨none, a + 1⟩, ⟨none, 0⟩], 0, false, false⟩, brk := 4 }
  [0, 1, 2, 3].foldl (fun t a => (t.lookup (fun _ => 0) a).1) ⟨u, 0, 0, 0⟩

/-- The number of collisions is not bounded by that of lookups, so that the "collision ratio" may exceed one. -/
theorem C93_collisions_false : ∃ added, StatUTRun (fun _ => 0) fourNodes added ∧ fourNodes.lookups = 4 ∧ fourNodes.collisions = 6 :=
  ⟨_, .lookup (.lookup (.lookup (.lookup (.new _) 0) 1) 2) 3, by decide +kernel, by decide +kernel⟩

/-! ## Examples -/

namespace Ex

/-- Four lookups, one of them with a result that is lost in `clear`. -/
def statOps : List (StatOp Nat Nat) := [.lookup 3, .insert 3 7, .lookup 3, .lookup 5, .clear, .lookup 3]

example : (StatCache.run (· % 4) (· == ·) (fun _ => true) false statOps).hits = 1 ∧
    (StatCache.run (· % 4) (· == ·) (fun _ => true) false statOps).lookups = 4 ∧
    (StatCache.run (· % 4) (· == ·) (fun _ => true) true statOps).lookups = 1 := by decide +kernel

end Ex

end DD
