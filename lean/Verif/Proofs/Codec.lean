import Verif.Model.Serialize

/-!
# The binary format: reading back what was written
-/

namespace DD

variable {R : Type} [Field R] [LinearOrder R]

theorem readW_writeW (w : Cx R) (s : List (Item R)) : readW (writeW w ++ s) = some (w, s) := rfl

theorem readEdges_write : ∀ (n : Nat) (f : Fin n → Int × Cx R) (s : List (Item R)),
    readEdges n ((List.ofFn (fun i => Item.i64 (f i).1 :: writeW (f i).2)).flatten ++ s) = some (List.ofFn f, s)
  | 0, f, s => by simp [readEdges]
  | n + 1, f, s => by
    rw [List.ofFn_succ, List.flatten_cons, List.cons_append, List.cons_append, readEdges, List.append_assoc, readW_writeW]
    dsimp only
    rw [readEdges_write n (fun i => f i.succ) s, List.ofFn_succ]

/-- A record all of whose edges are present. -/
def Rec.Full {n : Nat} (r : Rec R n) : Prop := ∀ i, (r.e i).isSome

theorem writeRec_full {n : Nat} {r : Rec R n} {f : Fin n → Int × Cx R} (hf : ∀ i, r.e i = some (f i)) :
    writeRec r = .i64 r.idx :: .qubit r.v :: (List.ofFn (fun i => Item.i64 (f i).1 :: writeW (f i).2)).flatten := by
  unfold writeRec
  congr 4
  funext i
  rw [hf i]

theorem readRecs_write {n : Nat} : ∀ (recs : List (Rec R n)) (f : Nat), (∀ r ∈ recs, r.Full) → recs.length ≤ f →
    readRecs n f (recs.map writeRec).flatten = some recs
  | [], f, _, _ => by cases f <;> rfl
  | r :: recs, f, h, hl => by
    obtain ⟨f, rfl⟩ : ∃ g, f = g + 1 := ⟨f - 1, by simp at hl; omega⟩
    have hr := h r List.mem_cons_self
    rw [List.map_cons, List.flatten_cons, writeRec_full (f := fun i => (r.e i).get (hr i)) (by simp), List.cons_append, List.cons_append,
      readRecs, readEdges_write]
    dsimp only
    rw [readRecs_write recs f (fun r hr => h r (List.mem_cons_of_mem _ hr)) (by simpa using hl)]
    dsimp only
    congr 2
    cases r with
    | mk idx v e =>
      congr 1
      funext i
      simp

/-- Reading a written stream gives back the root weight and the records. -/
theorem readAll_writeAll {n : Nat} (w : Cx R) {recs : List (Rec R n)} (h : ∀ r ∈ recs, r.Full) :
    readAll n (writeAll w recs) = some (w, recs) := by
  unfold writeAll readAll
  rw [List.cons_append]
  dsimp only
  rw [if_neg (by simp), readW_writeW]
  dsimp only
  rw [readRecs_write recs _ h]
  have : ∀ recs : List (Rec R n), recs.length ≤ ((recs.map writeRec).flatten).length := by
    intro recs
    induction recs with
    | nil => simp
    | cons r recs ih =>
      rw [List.map_cons, List.flatten_cons, List.length_append, List.length_cons]
      have : 0 < (writeRec r).length := by unfold writeRec; simp
      omega
  exact this recs

/-- Binary records contain all edges. -/
theorem records_full {n : Nat} (t : UTable (Cx R) n) (L : List Nat) : ∀ r ∈ records true t L, r.Full := by
  intro r hr
  unfold records at hr
  obtain ⟨i, _, rfl⟩ := List.mem_map.1 hr
  intro j
  simp [mkRec]

end DD
