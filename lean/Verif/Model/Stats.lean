import Verif.Model.Cache
import Verif.Model.UniqueTable

/-!
# Statistics of the operation caches and of the unique tables

The counters that `Model/Cache.lean` and `Model/UniqueTable.lean` leave out. They are unbounded here; in the code they are 64 bits wide.
-/

namespace DD

/-- An operation cache with its statistics (ComputeTable.hpp:95-99, UnaryComputeTable.hpp:82-86, ToffoliTable.hpp:92-102,
DensityNoiseTable.hpp:90-94). -/
structure StatCache (κ ρ : Type) where
  cache : Cache κ ρ
  hits : Nat
  lookups : Nat

namespace StatCache

variable {κ ρ : Type}

/-- A new cache (ComputeTable.hpp:95-99). -/
def empty : StatCache κ ρ := ⟨.empty, 0, 0⟩

/-- `insert` (ComputeTable.hpp:47-51); the statistics do not change. -/
def insert (h : κ → Nat) (c : StatCache κ ρ) (k : κ) (r : ρ) : StatCache κ ρ := { c with cache := c.cache.insert h k r }

/-- `lookup` (ComputeTable.hpp:53-76, UnaryComputeTable.hpp:47-61, ToffoliTable.hpp:42-61, DensityNoiseTable.hpp:55-71): every call is
counted at its start, and those that get to the end as hits. -/
def lookup (h : κ → Nat) (eqv : κ → κ → Bool) (ok : ρ → Bool) (c : StatCache κ ρ) (k : κ) : StatCache κ ρ × Option ρ :=
  let c := { c with lookups := c.lookups + 1 }
  match c.cache.slot (h k) with
  | none => (c, none)
  | some (k', r) => if eqv k' k && ok r then ({ c with hits := c.hits + 1 }, some r) else (c, none)

/-- `clear`. With `reset` the statistics are reset too (UnaryComputeTable.hpp:63-72, ToffoliTable.hpp:75-84), without it they are not
(ComputeTable.hpp:78-85, DensityNoiseTable.hpp:73-80). -/
def clear (reset : Bool) (c : StatCache κ ρ) : StatCache κ ρ :=
  if reset then ⟨c.cache.clear, 0, 0⟩ else { c with cache := c.cache.clear }

end StatCache

/-- Calls of an operation cache. -/
inductive StatOp (κ ρ : Type) where
  | insert (k : κ) (r : ρ)
  | lookup (k : κ)
  | clear

/-- Effect of one call. -/
def StatOp.apply {κ ρ : Type} (h : κ → Nat) (eqv : κ → κ → Bool) (ok : ρ → Bool) (reset : Bool) (c : StatCache κ ρ) :
    StatOp κ ρ → StatCache κ ρ
  | .insert k r => c.insert h k r
  | .lookup k => (c.lookup h eqv ok k).1
  | .clear => c.clear reset

/-- The cache after a history of calls, oldest first. -/
def StatCache.run {κ ρ : Type} (h : κ → Nat) (eqv : κ → κ → Bool) (ok : ρ → Bool) (reset : Bool) (ops : List (StatOp κ ρ)) :
    StatCache κ ρ := ops.foldl (StatOp.apply h eqv ok reset) .empty

/-- A unique table with its statistics (UniqueTable.hpp:368-371). -/
structure StatUT (W : Type) (n : Nat) where
  tab : UTable W n
  collisions : Nat
  hits : Nat
  lookups : Nat

namespace StatUT

variable {W : Type} {n : Nat}

/-- The number of nodes `searchTable` passes before it finds one with these edges or gets to the end (UniqueTable.hpp:394-415). -/
def passed [DecidableEq W] (t : UTable W n) (es : Fin n → Edge W) : List Nat → Nat
  | [] => 0
  | q :: l => if (t.mem q).e = es then 0 else passed t es l + 1

/-- `lookup` of a node that is not a terminal (UniqueTable.hpp:88-115, 391-420), cf. `UTable.lookup`. -/
def lookup [DecidableEq W] (H : (Fin n → Edge W) → Nat) (t : StatUT W n) (a : Nat) : StatUT W n × Nat :=
  let nd := t.tab.mem a
  let b := (nd.v, t.tab.key H nd.e)
  let r := t.tab.lookup H a
  (⟨r.1, t.collisions + passed t.tab nd.e (t.tab.chain b),
    match (t.tab.chain b).find? (fun q => decide ((t.tab.mem q).e = nd.e)) with
    | some _ => t.hits + 1
    | none => t.hits, t.lookups + 1⟩, r.2)

end StatUT

/-- The tables reachable by calls of `lookup`, of `clear` (UniqueTable.hpp:252-291, which resets the statistics) and of any other
function, which may change the table but not these statistics. The number counts the nodes that lookups have added to the table since the
last `clear`. -/
inductive StatUTRun {W : Type} {n : Nat} [DecidableEq W] (H : (Fin n → Edge W) → Nat) : StatUT W n → Nat → Prop
  | new (u : UTable W n) : StatUTRun H ⟨u, 0, 0, 0⟩ 0
  | lookup {t : StatUT W n} {added : Nat} (hr : StatUTRun H t added) (a : Nat) :
      StatUTRun H (t.lookup H a).1 (added + ((t.lookup H a).1.tab.nodeCount - t.tab.nodeCount))
  | clear {t : StatUT W n} {added : Nat} (hr : StatUTRun H t added) (u : UTable W n) : StatUTRun H ⟨u, 0, 0, 0⟩ 0
  | other {t : StatUT W n} {added : Nat} (hr : StatUTRun H t added) (u : UTable W n) : StatUTRun H { t with tab := u } added

end DD
