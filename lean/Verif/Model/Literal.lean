import Verif.Model.Build

/-!
# Controls as the code stores them

`Model/Build.lean` uses controls with unbounded qubits. Here the qubit of a control is a `std::int8_t`, which a user-defined literal
converts to without a check.
-/

namespace DD

/-- `Control` (Control.hpp:14-20) with the signed qubit type of the code. -/
structure QCtrl where
  qubit : Int
  neg : Bool
deriving DecidableEq, Repr

/-- The literals `q_pc` and `q_nc` (Control.hpp:54-60) for a written number `c.qubit`. -/
def lit (c : Ctrl) : QCtrl := ⟨Pkg.toQubit c.qubit, c.neg⟩

/-- `operator<` (Control.hpp:22-24), which is also what `CompareControl` does for two controls (Control.hpp:38-40). -/
def QCtrl.lt (a b : QCtrl) : Bool := a.qubit < b.qubit || (a.qubit == b.qubit && a.neg && !b.neg)

/-- `Controls::insert` (Control.hpp:50, `std::set`): the list is the content of the set in order. -/
def qctrlInsert (x : QCtrl) : List QCtrl → List QCtrl
  | [] => [x]
  | c :: cs => if x.lt c then x :: c :: cs else if c.lt x then c :: qctrlInsert x cs else c :: cs

/-- The set built from a list of controls, e.g. `Controls{0_pc, 2_nc}`. -/
def qctrlSet (cs : List QCtrl) : List QCtrl := cs.foldl (fun s c => qctrlInsert c s) []

/-- `Controls::find(q)` for a qubit (Control.hpp:42-48, `std::set` with a transparent comparator): the first element that is not
below `q`, if `q` is not below it. Simplification: among several equivalent elements the standard allows any, here it is the first. -/
def qctrlFind (q : Int) (cs : List QCtrl) : Option QCtrl :=
  match cs.find? (fun c => !decide (c.qubit < q)) with
  | none => none
  | some c => if q < c.qubit then none else some c

namespace Pkg

section
variable {R : Type} [Field R] [LinearOrder R] [IsStrictOrderedRing R] [HasSqrt R]

/-- `gateBelow` (Package.hpp:502-519) with the controls as they are stored. -/
def gateBelowQ (P : PCfg R) (z : Nat) (s : Pkg R) (em : Fin 4 → PEdge R) (it : List QCtrl) :
    (Pkg R × (Fin 4 → PEdge R)) × List QCtrl :=
  let plain := seqFin 4 (fun i s => makeDDNode P .m s z ![em i, zeroE, zeroE, em i] false) s
  match it with
  | [] => (plain, [])
  | c :: rest =>
    if c.qubit = z then
      (seqFin 4 (fun i s =>
        let id := if i = 0 ∨ i = 3 then makeIdentR P s 0 z else (s, zeroE)
        makeDDNode P .m id.1 z (if c.neg then ![em i, zeroE, zeroE, id.2] else ![id.2, zeroE, zeroE, em i]) false) s, rest)
    else (plain, c :: rest)

/-- `gateBelowLoop` (Package.hpp:500-519) with the controls as they are stored. -/
def gateBelowLoopQ (P : PCfg R) : Nat → Pkg R → (Fin 4 → PEdge R) → List QCtrl → (Pkg R × (Fin 4 → PEdge R)) × List QCtrl
  | 0, s, em, it => ((s, em), it)
  | z + 1, s, em, it =>
    let r := gateBelowLoopQ P z s em it
    gateBelowQ P z r.1.1 r.1.2 r.2

/-- `gateAbove` (Package.hpp:525-537) with the controls as they are stored. -/
def gateAboveQ (P : PCfg R) (q : Nat) (s : Pkg R) (e : PEdge R) (it : List QCtrl) : (Pkg R × PEdge R) × List QCtrl :=
  match it with
  | [] => (makeDDNode P .m s q ![e, zeroE, zeroE, e] false, [])
  | c :: rest =>
    if c.qubit = q then
      let id := makeIdentR P s 0 q
      (makeDDNode P .m id.1 q (if c.neg then ![e, zeroE, zeroE, id.2] else ![id.2, zeroE, zeroE, e]) false, rest)
    else (makeDDNode P .m s q ![e, zeroE, zeroE, e] false, c :: rest)

/-- `gateAboveLoop` (Package.hpp:525-537) with the controls as they are stored. -/
def gateAboveLoopQ (P : PCfg R) (q0 : Nat) : Nat → Pkg R → PEdge R → List QCtrl → (Pkg R × PEdge R) × List QCtrl
  | 0, s, e, it => ((s, e), it)
  | n + 1, s, e, it =>
    let r := gateAboveLoopQ P q0 n s e it
    gateAboveQ P (q0 + n) r.1.1 r.1.2 r.2

/-- `makeGateDD` (Package.hpp:480-539) with the controls as they are stored; `none` is the exception. Simplification: `n` and `target` are
numbers; they are not above 128 if no exception is thrown. -/
def makeGateDDQ (P : PCfg R) (s : Pkg R) (U : Fin 4 → Cx R) (n : Nat) (controls : List QCtrl) (target : Nat) :
    Option (Pkg R × PEdge R) :=
  if n > (s.ut .m).nvars then none
  else
    let b := gateBelowLoopQ P target s (fun i => gateEntry (U i)) controls
    let e := makeDDNode P .m b.1.1 target b.1.2 false
    some (gateAboveLoopQ P (target + 1) (n - 1 - target) e.1 e.2 b.2).1

end

end Pkg

end DD
