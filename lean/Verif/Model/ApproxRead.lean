import Verif.Model.ApproxInner

/-!
# Reading matrices, traces and expectation values with a tolerance

`getMatrix`, `getValueByPath` for matrices, `trace` and `expectationValue` on the tables of Model/Joint.lean, with all shortcuts for numbers
that are approximately zero or one and with rounded arithmetic.
-/

namespace DD

variable {R : Type} [Field R] [LinearOrder R] [FloorRing R] [HasSqrt R]

namespace JState

variable (J : JCfg R)

/-- What the recursive `getMatrix` (Package.hpp:2708-2736) writes for the row `r` and the column `c`; entries it does not write are 0 (2704).
The recursive `getValueByPath` (2565-2587) returns the same number. Terminal edges above level 0 do not occur: successors of weight zero are
skipped, and a root is assumed to be a node (2702 reads its level). -/
def readMF (s : JState R) : (l : Nat) → PtrEdge → Cx R → (Fin l → Fin 2) → (Fin l → Fin 2) → Cx R
  | 0, e, amp, _, _ => s.ct.mulV J.fl (s.ct.cval J.C e.w) amp
  | l + 1, e, amp, r, c =>
    let z := s.ct.mulV J.fl (s.ct.cval J.C e.w) amp
    match e.p with
    | none => z
    | some a =>
      let k : PtrEdge := ((s.tab .m).tab.mem a).e (rc (r (Fin.last l)) (c (Fin.last l)))
      if s.ct.zeroV (s.ct.cval J.C k.w) then 0 else readMF s l k z (Fin.init r) (Fin.init c)

/-- `getMatrix` (Package.hpp:2701-2707) and `getValueByPath` (2559-2564) with two indices. -/
def getMatrix (s : JState R) (l : Nat) (e : PtrEdge) (r c : Fin l → Fin 2) : Cx R := readMF J s l e ⟨1, 0⟩ r c

/-- `add2` (Package.hpp:1330-1355) for two edges to the terminal. -/
def addT (s : JState R) (x y : OW R) : Option (Cx R) :=
  if x.isZero then if y.isZero then none else some (s.oval J y)
  else if y.isZero then some (s.oval J x)
  else
    let z := addC J.fl (s.oval J x) (s.oval J y)
    if s.ct.zeroV z then none else some z

/-- An intermediate result as an operand. -/
def ofS : Option (Cx R) → OW R
  | none => .tab CNum.zero
  | some z => .slot z

/-- Recursive `trace` (Package.hpp:2042-2087) if all qubits are eliminated: all results are edges to the terminal, of which the weight is
given. The first argument bounds the level. The result of `add2` is `Complex::zero` or a slot, so never `Complex::one` (2071). -/
def traceF : Nat → JState R → PtrEdge → JState R × CNum Loc
  | l, s, a =>
    if s.ct.zeroV (s.ct.cval J.C a.w) then (s, CNum.zero)
    else
      match a.p with
      | none => (s, a.w)
      | some n =>
        match l with
        | 0 => (s, a.w)
        | l + 1 =>
          let nd : Node (CNum Loc) 4 := (s.tab .m).tab.mem n
          let t0 := traceF l s (nd.e 0)
          let r1 := t0.1.addT J (.tab CNum.zero) (.tab t0.2)
          let t1 := traceF l t0.1 (nd.e 3)
          let r2 := t1.1.addT J (ofS r1) (.tab t1.2)
          lookupC J t1.1 (t1.1.ct.mulV J.fl (sval r2) (t1.1.ct.cval J.C a.w))

/-- `trace` (Package.hpp:2025-2032). -/
def trace (s : JState R) (a : PtrEdge) : JState R × Cx R :=
  let r := traceF J (s.lvlM a.p) s a
  (r.1, r.1.ct.cval J.C r.2)

/-- `expectationValue` (Package.hpp:1908-1923); `none` is the exception. The assertion that the imaginary part is approximately zero is only
checked in debug builds. -/
def expectationValue (s : JState R) (x y : PtrEdge) : Option (JState R × R) :=
  if s.lvlM x.p ≠ s.lvlV y.p then none
  else
    let m := s.multiply J x y
    let r := m.1.innerProduct J y m.2
    some ((r.1.garbageCollect J false).1, r.2.re)

end JState
end DD
