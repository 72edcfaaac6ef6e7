import Verif.Model.ComplexTable
import Verif.Model.Cx

/-!
# Tagged entry pointers and complex numbers made of them

Model of the pointer functions of `ComplexTable::Entry` (include/dd/ComplexTable.hpp:39-107), of `Complex`
(include/dd/Complex.hpp) and of `ComplexNumbers` (include/dd/ComplexNumbers.hpp).
-/

namespace DD

/-! ## Pointers as 64-bit words -/

namespace Raw

/-- `getAlignedPointer` (ComplexTable.hpp:39-41). -/
def aligned (p : BitVec 64) : BitVec 64 := p &&& ~~~(1#64)

/-- `getNegativePointer` (ComplexTable.hpp:43-45). -/
def negative (p : BitVec 64) : BitVec 64 := p ||| 1#64

/-- `flipPointerSign` (ComplexTable.hpp:55-61); `zero` is the address of the static entry 0. -/
def flip (zero p : BitVec 64) : BitVec 64 := if p = zero then p else p ^^^ 1#64

/-- `isNegativePointer` (ComplexTable.hpp:63-65). -/
def isNegative (p : BitVec 64) : Bool := p &&& 1#64 != 0#64

/-- `val` (ComplexTable.hpp:67-72); `mem` gives the value stored at an address. -/
def val {R : Type} [Neg R] (mem : BitVec 64 → R) (p : BitVec 64) : R :=
  if isNegative p then -mem (aligned p) else mem p

/-- `ref` (ComplexTable.hpp:74-79); reference counts are 32-bit words and negation wraps around. -/
def ref (mem : BitVec 64 → BitVec 32) (p : BitVec 64) : BitVec 32 :=
  if isNegative p then -mem (aligned p) else mem p

end Raw

/-! ## Pointers as a sign and a location -/

/-- A tagged pointer to a location of type `α` (ComplexTable.hpp:34-38). -/
structure TPtr (α : Type) where
  neg : Bool
  loc : α
deriving DecidableEq

/-- The 64-bit word of a tagged pointer when locations live at the addresses `addr` (ComplexTable.hpp:34-38, 43-45). -/
def TPtr.enc {α : Type} (addr : α → BitVec 64) (p : TPtr α) : BitVec 64 :=
  if p.neg then Raw.negative (addr p.loc) else addr p.loc

/-- `val` of a tagged pointer (ComplexTable.hpp:67-72). -/
def TPtr.val {α R : Type} [Neg R] (mem : α → R) (p : TPtr α) : R := if p.neg then -mem p.loc else mem p.loc

/-- `flipPointerSign` (ComplexTable.hpp:55-61). -/
def TPtr.flip {α : Type} [DecidableEq α] (zero : α) (p : TPtr α) : TPtr α :=
  if p = ⟨false, zero⟩ then p else { p with neg := !p.neg }

/-- `Complex` (Complex.hpp:19-21). -/
structure CNum (α : Type) where
  r : TPtr α
  i : TPtr α
deriving DecidableEq

/-- The value of a complex number (Complex.hpp:59-61, 26-29). -/
def CNum.val {α R : Type} [Neg R] (mem : α → R) (c : CNum α) : Cx R := ⟨c.r.val mem, c.i.val mem⟩

/-- `ComplexNumbers::conj` (ComplexNumbers.hpp:104-108). -/
def CNum.conj {α : Type} [DecidableEq α] (zero : α) (c : CNum α) : CNum α := { c with i := c.i.flip zero }

/-- `ComplexNumbers::neg` (ComplexNumbers.hpp:109-114). -/
def CNum.negate {α : Type} [DecidableEq α] (zero : α) (c : CNum α) : CNum α := ⟨c.r.flip zero, c.i.flip zero⟩

/-- `Complex::zero` (Complex.hpp:73). -/
def CNum.zero : CNum Loc := ⟨⟨false, .zero⟩, ⟨false, .zero⟩⟩

/-- `Complex::one` (Complex.hpp:74). -/
def CNum.one : CNum Loc := ⟨⟨false, .one⟩, ⟨false, .zero⟩⟩

/-! ## Looking up complex numbers -/

namespace CTab

variable {R : Type} [Field R] [LinearOrder R] [FloorRing R]

/-- One component of `lookup(r, i)` (ComplexNumbers.hpp:159-170, 172-183). `std::signbit` is `< 0`: the model has no
negative zero among its values. -/
def lookupSigned (C : CCfg R) (t : CTab R) (x : R) : CTab R × TPtr Loc :=
  if x < 0 then
    if |x| < t.tol then (t, ⟨false, .zero⟩)
    else
      let r := t.lookup C |x|
      (r.1, ⟨true, r.2⟩)
  else
    let r := t.lookup C x
    (r.1, ⟨false, r.2⟩)

/-- `ComplexNumbers::lookup(r, i)` (ComplexNumbers.hpp:156-186). -/
def lookupC (C : CCfg R) (t : CTab R) (z : Cx R) : CTab R × CNum Loc :=
  let a := t.lookupSigned C z.re
  let b := a.1.lookupSigned C z.im
  (b.1, ⟨a.2, b.2⟩)

/-- The value of a complex number whose parts are known to the table. -/
def cval (C : CCfg R) (t : CTab R) (c : CNum Loc) : Cx R := c.val (t.value C)

/-- `ComplexTable::incRef` through a tagged pointer (ComplexTable.hpp:257-275). -/
def incRefP (C : CCfg R) (t : CTab R) (p : TPtr Loc) : CTab R := t.incRef C p.loc

/-- `ComplexTable::decRef` through a tagged pointer (ComplexTable.hpp:278-298). -/
def decRefP (C : CCfg R) (t : CTab R) (p : TPtr Loc) : Option (CTab R) := t.decRef C p.loc

/-- `ComplexNumbers::incRef` (ComplexNumbers.hpp:190-196). -/
def incRefC (C : CCfg R) (t : CTab R) (c : CNum Loc) : CTab R :=
  if c ≠ CNum.zero ∧ c ≠ CNum.one then (t.incRefP C c.r).incRefP C c.i else t

/-- `ComplexNumbers::decRef` (ComplexNumbers.hpp:197-203). -/
def decRefC (C : CCfg R) (t : CTab R) (c : CNum Loc) : Option (CTab R) :=
  if c ≠ CNum.zero ∧ c ≠ CNum.one then (t.decRefP C c.r).bind (fun t => t.decRefP C c.i) else some t

end CTab

/-! ## Arithmetic on slots -/

/-- The addresses of the static entries 0 and 1, and the tolerance (ComplexTable.hpp:109-111, 489). -/
structure NumEnv (α R : Type) where
  zero : α
  one : α
  tol : R

namespace NumEnv

variable {α R : Type} [DecidableEq α] [Field R] [LinearOrder R] (E : NumEnv α R)

/-- `approximatelyEquals` on values (ComplexTable.hpp:84-87). -/
def eqV (x y : R) : Bool := decide (x = y) || decide (|x - y| ≤ E.tol)

/-- `approximatelyEquals` on pointers (ComplexTable.hpp:81-83). -/
def eqP (m : α → R) (p q : TPtr α) : Bool := decide (p = q) || E.eqV (p.val m) (q.val m)

/-- `approximatelyZero` on pointers (ComplexTable.hpp:89-94). -/
def zeroP (m : α → R) (p : TPtr α) : Bool := decide (p = ⟨false, E.zero⟩) || decide (|p.val m| ≤ E.tol)

/-- `approximatelyOne` on pointers (ComplexTable.hpp:96-101). -/
def oneP (m : α → R) (p : TPtr α) : Bool := decide (p = ⟨false, E.one⟩) || E.eqV (p.val m) 1

/-- `Complex::approximatelyEquals` (Complex.hpp:31-33). -/
def eqC (m : α → R) (a b : CNum α) : Bool := E.eqP m a.r b.r && E.eqP m a.i b.i

/-- `Complex::approximatelyZero` (Complex.hpp:43-45). -/
def zeroC (m : α → R) (a : CNum α) : Bool := E.zeroP m a.r && E.zeroP m a.i

/-- `Complex::approximatelyOne` (Complex.hpp:47-49). -/
def oneC (m : α → R) (a : CNum α) : Bool := E.oneP m a.r && E.zeroP m a.i

end NumEnv

/-- Two writes, first to the real, then to the imaginary slot. The value of the second is computed from the memory after
the first, as in the code. -/
def write2 {α R : Type} [DecidableEq α] (m : α → R) (r i : α) (f g : (α → R) → R) : α → R :=
  let m1 := Function.update m r (f m)
  Function.update m1 i (g m1)

section Arith
variable {α R : Type} [DecidableEq α] [Field R] [LinearOrder R] (E : NumEnv α R)

/-- `Complex::setVal` (Complex.hpp:26-29); `r` and `i` are the (untagged) slots of the result. -/
def setVal (m : α → R) (r i : α) (c : CNum α) : α → R :=
  write2 m r i (fun m => c.r.val m) (fun m => c.i.val m)

/-- `ComplexNumbers::add` (ComplexNumbers.hpp:38-44). -/
def addTo (m : α → R) (r i : α) (a b : CNum α) : α → R :=
  write2 m r i (fun m => a.r.val m + b.r.val m) (fun m => a.i.val m + b.i.val m)

/-- `ComplexNumbers::sub` (ComplexNumbers.hpp:45-49). -/
def subTo (m : α → R) (r i : α) (a b : CNum α) : α → R :=
  write2 m r i (fun m => a.r.val m - b.r.val m) (fun m => a.i.val m - b.i.val m)

/-- `ComplexNumbers::mul` (ComplexNumbers.hpp:50-69). -/
def mulTo (m : α → R) (r i : α) (a b : CNum α) : α → R :=
  if E.oneC m a then setVal m r i b
  else if E.oneC m b then setVal m r i a
  else if E.zeroC m a || E.zeroC m b then write2 m r i (fun _ => 0) (fun _ => 0)
  else
    let ar := a.r.val m
    let ai := a.i.val m
    let br := b.r.val m
    let bi := b.i.val m
    write2 m r i (fun _ => ar * br - ai * bi) (fun _ => ar * bi + ai * br)

/-- `ComplexNumbers::div` (ComplexNumbers.hpp:70-89). -/
def divTo (m : α → R) (r i : α) (a b : CNum α) : α → R :=
  if E.eqC m a b then write2 m r i (fun _ => 1) (fun _ => 0)
  else if E.oneC m b then setVal m r i a
  else
    let ar := a.r.val m
    let ai := a.i.val m
    let br := b.r.val m
    let bi := b.i.val m
    let cmag := br * br + bi * bi
    write2 m r i (fun _ => (ar * br + ai * bi) / cmag) (fun _ => (ai * br - ar * bi) / cmag)

end Arith

end DD
