import Mathlib.Algebra.Order.Floor.Ring
import Mathlib.Algebra.Order.Field.Basic
import Mathlib.Logic.Function.Basic

/-!
# The table of real numbers

Model of `include/dd/ComplexTable.hpp`. Values are elements of an arbitrary linearly ordered field with a floor function
instead of `double`s; everything else (buckets, tails, free list, chunks, tolerance, reference counts, collection,
statistics) follows the code.
-/

namespace DD

/-- Round to the nearest integer, ties to even: `std::nearbyint` in the default rounding mode (used at
ComplexTable.hpp:133). -/
def nearbyint {R : Type} [Field R] [LinearOrder R] [FloorRing R] (x : R) : Int :=
  let f := ⌊x⌋
  let d := x - (f : R)
  if d < 1 / 2 then f
  else if 1 / 2 < d then f + 1
  else if f % 2 = 0 then f
  else f + 1

/-- Template parameters and constants of the table (ComplexTable.hpp:26, 505; Definitions.hpp:29, 58): `nb` buckets,
`startGc` the limit of a new table, `initGc` the limit after `clear`, `sq` the value of the static entry `sqrt2_2`. -/
structure CCfg (R : Type) where
  nb : Nat
  initAlloc : Nat
  growth : Nat
  initGc : Nat
  startGc : Nat
  maxRef : Nat
  sq : R

/-- The parameters used by the package; the constant `SQRT2_2` is left to the caller. -/
def CCfg.default {R : Type} (sq : R) : CCfg R := ⟨65537, 2048, 2, 65536, 100000, 2 ^ 32 - 1, sq⟩

/-- What an (aligned) entry pointer can point to: one of the three static entries (ComplexTable.hpp:109-111) or a cell
of the chunks. -/
inductive Loc where
  | zero
  | sqrt2_2
  | one
  | cell (a : Nat)
deriving DecidableEq, Repr

/-- The entries that are "never altered" (ComplexTable.hpp:265-266). -/
def Loc.isStatic : Loc → Bool
  | .cell _ => false
  | _ => true

/-- The table (ComplexTable.hpp:470-505). `bucket k` is the linked list of bucket `k` as the list of its cells, `tail`
the separately maintained `tailTable`, `brk` the number of cells handed out by the chunk iterator, `allocations` the
number of cells allocated (the end of the last chunk). `tol` is the static `TOLERANCE` (489). The two collision counters
are left out. -/
structure CTab (R : Type) where
  tol : R
  val : Nat → R
  ref : Loc → Nat
  bucket : Nat → List Nat
  tail : Nat → Option Nat
  avail : List Nat
  brk : Nat
  allocations : Nat
  allocationSize : Nat
  count : Nat
  peakCount : Nat
  gcLimit : Nat
  gcCalls : Nat
  gcRuns : Nat
  lookups : Nat
  hits : Nat
  inserts : Nat
  findOrInserts : Nat
  lowerNeighbors : Nat
  upperNeighbors : Nat

namespace CTab

variable {R : Type} [Field R] [LinearOrder R] [FloorRing R]

/-- `MASK` (ComplexTable.hpp:128). -/
def mask (C : CCfg R) : Nat := C.nb - 1

/-- `hash` (ComplexTable.hpp:131-135). -/
def hash (C : CCfg R) (v : R) : Int := min (nearbyint (v * (mask C : R))) (mask C : Int)

/-- The value of an entry (`Entry::value`; the static entries of ComplexTable.hpp:109-111 are never written). -/
def value (C : CCfg R) (t : CTab R) : Loc → R
  | .zero => 0
  | .sqrt2_2 => C.sq
  | .one => 1
  | .cell a => t.val a

/-- `approximatelyEquals` on values (ComplexTable.hpp:84-87). -/
def approxEq (t : CTab R) (l r : R) : Bool := decide (l = r) || decide (|l - r| ≤ t.tol)

/-- `approximatelyZero` on values (ComplexTable.hpp:92-94). -/
def approxZero (t : CTab R) (e : R) : Bool := decide (|e| ≤ t.tol)

/-- `approximatelyOne` on values (ComplexTable.hpp:99-101). -/
def approxOne (t : CTab R) (e : R) : Bool := t.approxEq e 1

/-- The members of a new table before the constructor body runs (ComplexTable.hpp:109-111, 474-505); `tol` is the
tolerance in force. Cells of a chunk are value-initialised. -/
def init (C : CCfg R) (tol : R) : CTab R where
  tol := tol
  val := fun _ => 0
  ref := fun l => match l with | .cell _ => 0 | _ => 1
  bucket := fun _ => []
  tail := fun _ => none
  avail := []
  brk := 0
  allocations := C.initAlloc
  allocationSize := C.initAlloc * C.growth
  count := 0
  peakCount := 0
  gcLimit := C.startGc
  gcCalls := 0
  gcRuns := 0
  lookups := 0
  hits := 0
  inserts := 0
  findOrInserts := 0
  lowerNeighbors := 0
  upperNeighbors := 0

/-- `getEntry` (ComplexTable.hpp:226-249). -/
def getEntry (C : CCfg R) (t : CTab R) : CTab R × Nat :=
  match t.avail with
  | a :: rest => ({ t with avail := rest, ref := Function.update t.ref (.cell a) 0 }, a)
  | [] =>
    let t := if t.brk = t.allocations then
        { t with
          val := fun a => if t.allocations ≤ a ∧ a < t.allocations + t.allocationSize then 0 else t.val a
          ref := fun l => match l with
            | .cell a => if t.allocations ≤ a ∧ a < t.allocations + t.allocationSize then 0 else t.ref (.cell a)
            | l => t.ref l
          allocations := t.allocations + t.allocationSize
          allocationSize := t.allocationSize * C.growth }
      else t
    ({ t with brk := t.brk + 1 }, t.brk)

/-- The search of `findOrInsert` (ComplexTable.hpp:513-535): walk the bucket while values are at most `v + tol`; the
first entry within the tolerance is returned unless its successor is strictly closer. -/
def findIn (t : CTab R) (v : R) : List Nat → Option Nat
  | [] => none
  | a :: l =>
    if t.val a ≤ v + t.tol then
      if t.approxEq (t.val a) v then
        match l with
        | b :: _ => if v + t.tol ≥ t.val b ∧ |t.val b - v| < |t.val a - v| then some b else some a
        | [] => some a
      else findIn t v l
    else none

/-- Link a new entry holding `v` into bucket `k` in front of the first entry whose value exceeds `bound`
(ComplexTable.hpp:537-553 with `bound = v + tol`, 564-589 with `bound = v`). The tail of the bucket changes if the new
entry is the last one. -/
def link (C : CCfg R) (t : CTab R) (k : Nat) (bound v : R) : CTab R × Nat :=
  let (t, e) := t.getEntry C
  let t := { t with inserts := t.inserts + 1, val := Function.update t.val e v }
  let pre := (t.bucket k).takeWhile (fun a => decide (t.val a ≤ bound))
  let post := (t.bucket k).dropWhile (fun a => decide (t.val a ≤ bound))
  ({ t with
      bucket := Function.update t.bucket k (pre ++ e :: post)
      tail := if post = [] then Function.update t.tail k (some e) else t.tail
      count := t.count + 1
      peakCount := max t.peakCount (t.count + 1) }, e)

/-- `findOrInsert` (ComplexTable.hpp:507-554). -/
def findOrInsert (C : CCfg R) (t : CTab R) (k : Nat) (v : R) : CTab R × Nat :=
  match t.findIn v (t.bucket k) with
  | some a => ({ t with hits := t.hits + 1 }, a)
  | none => t.link C k (v + t.tol) v

/-- `insert` (ComplexTable.hpp:563-590). -/
def insert (C : CCfg R) (t : CTab R) (k : Nat) (v : R) : CTab R × Nat := t.link C k v v

/-- A match in a neighbouring bucket (ComplexTable.hpp:197-198). -/
def matchAt (t : CTab R) (v : R) : Option Nat → Option Nat
  | some a => if t.approxEq v (t.val a) then some a else none
  | none => none

/-- `lookup` of a non-negative number (ComplexTable.hpp:150-224). -/
def lookup (C : CCfg R) (t : CTab R) (v : R) : CTab R × Loc :=
  let t := { t with lookups := t.lookups + 1 }
  if t.approxZero v then ({ t with hits := t.hits + 1 }, .zero)
  else if t.approxOne v then ({ t with hits := t.hits + 1 }, .one)
  else if t.approxEq v C.sq then ({ t with hits := t.hits + 1 }, .sqrt2_2)
  else
    let lowerKey := hash C (v - t.tol)
    let upperKey := hash C (v + t.tol)
    if upperKey = lowerKey then
      let r := findOrInsert C { t with findOrInserts := t.findOrInserts + 1 } lowerKey.toNat v
      (r.1, .cell r.2)
    else
      let key := hash C v
      let (t, pLower, pUpper) :=
        if lowerKey ≠ key then
          ({ t with lowerNeighbors := t.lowerNeighbors + 1 }, t.tail lowerKey.toNat, (t.bucket key.toNat).head?)
        else
          ({ t with upperNeighbors := t.upperNeighbors + 1 }, t.tail key.toNat, (t.bucket upperKey.toNat).head?)
      match t.matchAt v pLower, t.matchAt v pUpper with
      | some a, some b =>
        ({ t with hits := t.hits + 1 }, if |t.val a - v| < |t.val b - v| then .cell a else .cell b)
      | some a, none => ({ t with hits := t.hits + 1 }, .cell a)
      | none, some b => ({ t with hits := t.hits + 1 }, .cell b)
      | none, none =>
        let r := insert C t key.toNat v
        (r.1, .cell r.2)

/-- The constructor (ComplexTable.hpp:113-116): 1/2 is looked up and pinned. -/
def create (C : CCfg R) (tol : R) : CTab R :=
  let r := lookup C (init C tol) (1 / 2)
  { r.1 with ref := Function.update r.1.ref r.2 (r.1.ref r.2 + 1) }

/-- `setTolerance` (ComplexTable.hpp:124-126). -/
def setTolerance (t : CTab R) (tol : R) : CTab R := { t with tol := tol }

/-- `incRef` on the aligned pointer (ComplexTable.hpp:257-275); the tag of the pointer is ignored by the code (259).
Null pointers do not occur in the model. -/
def incRef (C : CCfg R) (t : CTab R) (l : Loc) : CTab R :=
  if l.isStatic then t
  else if t.ref l = C.maxRef then t
  else { t with ref := Function.update t.ref l (t.ref l + 1) }

/-- `decRef` on the aligned pointer (ComplexTable.hpp:278-298); `none` is the exception. -/
def decRef (C : CCfg R) (t : CTab R) (l : Loc) : Option (CTab R) :=
  if l.isStatic then some t
  else if t.ref l = C.maxRef then some t
  else if t.ref l = 0 then none
  else some { t with ref := Function.update t.ref l (t.ref l - 1) }

/-- `possiblyNeedsCollection` (ComplexTable.hpp:300). -/
def possiblyNeedsCollection (t : CTab R) : Bool := decide (t.gcLimit ≤ t.count)

/-- The entries of bucket `k` without references (ComplexTable.hpp:317-326). -/
def deadIn (t : CTab R) (k : Nat) : List Nat := (t.bucket k).filter (fun a => decide (t.ref (.cell a) = 0))

/-- The entries of bucket `k` with references (ComplexTable.hpp:327-331). -/
def liveIn (t : CTab R) (k : Nat) : List Nat := (t.bucket k).filter (fun a => decide (t.ref (.cell a) ≠ 0))

/-- `garbageCollect` (ComplexTable.hpp:302-347). The loop over a bucket is written with `filter`; dead entries are pushed
on the free list one after the other, which reverses their order. The tail of a bucket that was empty is not touched.
`gcLimit / 10 * 9` is integer arithmetic. -/
def garbageCollect (C : CCfg R) (t : CTab R) (force : Bool) : CTab R × Nat :=
  let t := { t with gcCalls := t.gcCalls + 1 }
  if (!force && decide (t.count < t.gcLimit)) || decide (t.count ≤ 1) then (t, 0)
  else
    let dead := (List.range C.nb).flatMap t.deadIn
    let remaining := ((List.range C.nb).flatMap t.liveIn).length
    ({ t with
        gcRuns := t.gcRuns + 1
        bucket := fun k => if k < C.nb then t.liveIn k else t.bucket k
        tail := fun k => if k < C.nb ∧ t.bucket k ≠ [] then (t.liveIn k).getLast? else t.tail k
        avail := dead.reverse ++ t.avail
        gcLimit := if remaining > t.gcLimit / 10 * 9 then remaining + C.initGc
          else if remaining < t.gcLimit / 128 then t.gcLimit / 2 else t.gcLimit
        count := remaining }, dead.length)

/-- `clear` (ComplexTable.hpp:349-391). -/
def clear (C : CCfg R) (t : CTab R) : CTab R :=
  { t with
    bucket := fun k => if k < C.nb then [] else t.bucket k
    tail := fun k => if k < C.nb then none else t.tail k
    avail := []
    brk := 0
    allocationSize := C.initAlloc * C.growth
    allocations := C.initAlloc
    ref := fun l => match l with
      | .cell a => if a < C.initAlloc then 0 else t.ref (.cell a)
      | l => t.ref l
    count := 0
    peakCount := 0
    hits := 0
    findOrInserts := 0
    lookups := 0
    inserts := 0
    lowerNeighbors := 0
    upperNeighbors := 0
    gcCalls := 0
    gcRuns := 0
    gcLimit := C.initGc }

/-- All stored entries, bucket by bucket (the loop of ComplexTable.hpp:396-404 visits them in this order). -/
def stored (C : CCfg R) (t : CTab R) : List Nat := (List.range C.nb).flatMap t.bucket

/-- The entries a user may hold a pointer to: the static ones and those stored in the table. -/
def Live (C : CCfg R) (t : CTab R) : Loc → Prop
  | .cell a => a ∈ t.stored C
  | _ => True

instance (C : CCfg R) (t : CTab R) (l : Loc) : Decidable (t.Live C l) := by
  cases l <;> unfold Live <;> infer_instance

end CTab

variable {R : Type} [Field R] [LinearOrder R] [FloorRing R]

/-- One call of the public interface of the table. Reference counts are only changed through pointers to stored entries
(a pointer to a collected entry must not be used any more). A call of `decRef` that throws changes nothing and is not a
step. `tols` are the tolerances the user sets. -/
inductive CStep (C : CCfg R) (tols : R → Prop) : CTab R → CTab R → Prop
  | lookup {t} (v : R) (hv : 0 ≤ v) : CStep C tols t (t.lookup C v).1
  | incRef {t} (l : Loc) (hl : t.Live C l) : CStep C tols t (t.incRef C l)
  | decRef {t t'} (l : Loc) (hl : t.Live C l) (h : t.decRef C l = some t') : CStep C tols t t'
  | garbageCollect {t} (force : Bool) : CStep C tols t (t.garbageCollect C force).1
  | clear {t} : CStep C tols t (t.clear C)
  | setTolerance {t} (τ : R) (h : tols τ) : CStep C tols t (t.setTolerance τ)

/-- The tables reachable by calls of the public interface. -/
inductive CReach (C : CCfg R) (tols : R → Prop) : CTab R → Prop
  | create (τ : R) (h : tols τ) : CReach C tols (CTab.create C τ)
  | step {t t'} (hr : CReach C tols t) (hs : CStep C tols t t') : CReach C tols t'

end DD
