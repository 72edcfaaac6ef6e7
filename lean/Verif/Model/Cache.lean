/-!
# Operation caches

Models of the five lossy caches of the package. All of them are arrays of `NBUCKET` slots addressed by a hash of the
key; a slot is overwritten by the next insertion that hashes to it.
-/

namespace DD

/-- One of the caches of the package, as a state.
Models `ComputeTable` (include/dd/ComputeTable.hpp:25-103), `UnaryComputeTable` (UnaryComputeTable.hpp:23-90),
`ToffoliTable` (ToffoliTable.hpp:20-98) and `DensityNoiseTable` (DensityNoiseTable.hpp:23-98).
`slot i = none` stands for `result.p == nullptr`. `count` is the private counter that `clear` inspects
(ComputeTable.hpp:101). The statistics `hits` and `lookups` are left out; the wrap-around of the 64-bit `count` after
2^64 insertions is not modelled. -/
structure Cache (κ ρ : Type) where
  slot : Nat → Option (κ × ρ)
  count : Nat

namespace Cache

variable {κ ρ : Type}

/-- The state after construction: all slots empty (ComputeTable.hpp:97,101: value-initialised array, `count = 0`). -/
def empty : Cache κ ρ := ⟨fun _ => none, 0⟩

/-- `insert` (ComputeTable.hpp:47-51, UnaryComputeTable.hpp:43-47, ToffoliTable.hpp:36-40, DensityNoiseTable.hpp:47-54).
`h` is the complete index computation, including the mask. -/
def insert (h : κ → Nat) (c : Cache κ ρ) (k : κ) (r : ρ) : Cache κ ρ :=
  ⟨fun i => if i = h k then some (k, r) else c.slot i, c.count + 1⟩

/-- `lookup` (ComputeTable.hpp:53-76, UnaryComputeTable.hpp:49-63, ToffoliTable.hpp:42-61, DensityNoiseTable.hpp:56-73).
`eqv stored asked` is the comparison of operands, which is "approximately equal" for edge weights (Edge.hpp:26-28,
84-86) and hence need not be transitive. `ok` is the additional test on the result that the density-matrix
instantiation performs (ComputeTable.hpp:68-73); it is constantly true for the other tables. -/
def lookup (h : κ → Nat) (eqv : κ → κ → Bool) (ok : ρ → Bool) (c : Cache κ ρ) (k : κ) : Option ρ :=
  match c.slot (h k) with
  | none => none
  | some (k', r) => if eqv k' k && ok r then some r else none

/-- `clear` (ComputeTable.hpp:78-85 and the identical loops in the other tables): nothing happens when `count` is 0. -/
def clear (c : Cache κ ρ) : Cache κ ρ :=
  if 0 < c.count then ⟨fun _ => none, 0⟩ else c

end Cache

/-- Calls that change a cache. -/
inductive CacheOp (κ ρ : Type) where
  | insert (k : κ) (r : ρ)
  | clear

/-- Effect of one call on the cache. -/
def CacheOp.apply {κ ρ : Type} (h : κ → Nat) (c : Cache κ ρ) : CacheOp κ ρ → Cache κ ρ
  | .insert k r => c.insert h k r
  | .clear => c.clear

/-- The cache after a history of calls, oldest first, starting from a newly constructed cache. -/
def Cache.run {κ ρ : Type} (h : κ → Nat) (ops : List (CacheOp κ ρ)) : Cache κ ρ :=
  ops.foldl (CacheOp.apply h) Cache.empty

/-- `StochasticNoiseOperationTable` (StochasticNoiseOperationTable.hpp:18-80): `rows` rows of `kinds` slots without
hashing. `.at` makes out-of-range accesses raise an exception. -/
structure NoiseOps (ρ : Type) where
  rows : Nat
  kinds : Nat
  slot : Nat → Nat → Option ρ
  count : Nat

namespace NoiseOps

variable {ρ : Type}

/-- Constructor with `nv` rows (StochasticNoiseOperationTable.hpp:22-23, 31). -/
def init (nv kinds : Nat) : NoiseOps ρ := ⟨nv, kinds, fun _ _ => none, 0⟩

/-- `insert` (StochasticNoiseOperationTable.hpp:33-37); `none` is the `std::out_of_range` exception of `.at`. -/
def insert (t : NoiseOps ρ) (kind target : Nat) (r : ρ) : Option (NoiseOps ρ) :=
  if target < t.rows ∧ kind < t.kinds then
    some { t with
      slot := fun q k => if q = target ∧ k = kind then some r else t.slot q k
      count := t.count + 1 }
  else none

/-- `lookup` (StochasticNoiseOperationTable.hpp:39-49); the outer `none` is the exception, the inner `none` a miss. -/
def lookup (t : NoiseOps ρ) (kind target : Nat) : Option (Option ρ) :=
  if target < t.rows ∧ kind < t.kinds then some (t.slot target kind) else none

/-- `clear` (StochasticNoiseOperationTable.hpp:51-60). -/
def clear (t : NoiseOps ρ) : NoiseOps ρ :=
  if 0 < t.count then { t with slot := fun _ _ => none, count := 0 } else t

/-- `resize` (StochasticNoiseOperationTable.hpp:28-31): `std::vector::resize` keeps existing rows below the new size and
default-constructs new ones. -/
def resize (t : NoiseOps ρ) (nq : Nat) : NoiseOps ρ :=
  { t with rows := nq, slot := fun q k => if q < t.rows ∧ q < nq then t.slot q k else none }

end NoiseOps

end DD
