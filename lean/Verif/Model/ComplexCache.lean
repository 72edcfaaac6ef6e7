import Mathlib.Data.List.Basic

/-!
# The cache of temporary complex numbers

Model of `ComplexCache` (include/dd/ComplexCache.hpp). Entries are addressed by natural numbers: the entries of all chunks
are numbered consecutively in the order of their allocation. The free list is kept in the `next` fields of the entries, as
in the code. `none` stands for undefined behaviour: following a null pointer, or using an entry past the end of its chunk.
The member `peakCount` is left out: the code sets it to 0 and never changes it. The assertion on reference counts in
`returnToCache` is left out: nothing increments the count of a cache entry.
-/

namespace DD

/-- The template parameters of `ComplexCache` (ComplexCache.hpp:18). -/
structure CacheCfg where
  initAlloc : Nat
  growth : Nat

/-- The members of `ComplexCache` (ComplexCache.hpp:121-130), with the `next` fields of all entries. -/
structure CxCache where
  next : Nat → Option Nat
  available : Option Nat
  chunkIt : Nat
  chunkEndIt : Nat
  allocationSize : Nat
  allocations : Nat
  count : Nat

namespace CxCache

/-- The constructor (ComplexCache.hpp:23-31). -/
def create (K : CacheCfg) : CxCache where
  next := fun _ => none
  available := none
  chunkIt := 0
  chunkEndIt := K.initAlloc
  allocationSize := K.initAlloc * K.growth
  allocations := K.initAlloc
  count := 0

/-- Allocation of a new chunk when the current one is exhausted (ComplexCache.hpp:52-59, 78-85). -/
def reserve (K : CacheCfg) (s : CxCache) : CxCache :=
  if s.chunkIt = s.chunkEndIt then
    { s with
      chunkIt := s.allocations
      chunkEndIt := s.allocations + s.allocationSize
      allocations := s.allocations + s.allocationSize
      allocationSize := s.allocationSize * K.growth }
  else s

/-- `getCachedComplex` (ComplexCache.hpp:41-68). -/
def getCached (K : CacheCfg) (s : CxCache) : Option (CxCache × (Nat × Nat)) :=
  match s.available with
  | some r =>
    match s.next r with
    | some i => some ({ s with available := s.next i, count := s.count + 2 }, (r, i))
    | none => none
  | none =>
    let s := s.reserve K
    if s.chunkIt + 1 < s.chunkEndIt then
      some ({ s with chunkIt := s.chunkIt + 2, count := s.count + 2 }, (s.chunkIt, s.chunkIt + 1))
    else none

/-- `getTemporaryComplex` (ComplexCache.hpp:70-87). -/
def getTemporary (K : CacheCfg) (s : CxCache) : Option (CxCache × (Nat × Nat)) :=
  match s.available with
  | some r =>
    match s.next r with
    | some i => some (s, (r, i))
    | none => none
  | none =>
    let s := s.reserve K
    if s.chunkIt + 1 < s.chunkEndIt then some (s, (s.chunkIt, s.chunkIt + 1)) else none

/-- `returnToCache` (ComplexCache.hpp:89-99). -/
def returnToCache (s : CxCache) (c : Nat × Nat) : CxCache :=
  let next := Function.update s.next c.2 s.available
  { s with next := Function.update next c.1 (some c.2), available := some c.1, count := s.count - 2 }

/-- `clear` (ComplexCache.hpp:101-118): the memory of all but the first chunk is released. -/
def clear (K : CacheCfg) (s : CxCache) : CxCache :=
  { s with
    available := none
    chunkIt := 0
    chunkEndIt := K.initAlloc
    allocationSize := K.initAlloc * K.growth
    allocations := K.initAlloc
    count := 0 }

end CxCache

/-- A cache together with the complex numbers that the program obtained and neither returned nor lost by `clear`. The
program may only return what it holds. -/
inductive CacheReach (K : CacheCfg) : CxCache → List (Nat × Nat) → Prop
  | create : CacheReach K (CxCache.create K) []
  | get {s out s' c} (h : CacheReach K s out) (hg : s.getCached K = some (s', c)) : CacheReach K s' (c :: out)
  | temporary {s out s' c} (h : CacheReach K s out) (hg : s.getTemporary K = some (s', c)) : CacheReach K s' out
  | give {s out c} (h : CacheReach K s out) (hc : c ∈ out) : CacheReach K (s.returnToCache c) (out.erase c)
  | clear {s out} (h : CacheReach K s out) : CacheReach K (s.clear K) []

end DD
