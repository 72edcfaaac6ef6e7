import Verif.Model.Build

/-!
# Diagrams that do not start at qubit 0

The functions that build states and gates have a last parameter `start` (default 0), which `Model/Build.lean` leaves
out: the diagram is built over the qubits `start .. n + start - 1`, and its lowest nodes have terminal successors
although they are not at level 0.
-/

namespace DD

/-- Outcome of a call: it returns, it throws, or its behaviour is undefined (a read beyond the end of a vector). -/
inductive SOut (α : Type) where
  | ok (a : α)
  | error
  | undef

namespace Pkg

section
variable {R : Type} [Field R] [LinearOrder R] [IsStrictOrderedRing R] [HasSqrt R]

/-- The loops over the qubits `start .. start + n - 1` of `makeZeroState` and `makeBasisState` (Package.hpp:243-245,
258-264, 281-302); `st p` is what reading `state[p]` yields, `none` for a read beyond the end. -/
def basisLoopS (P : PCfg R) (st : Nat → Option Basis) (start : Nat) : Nat → Pkg R → Option (Pkg R × PEdge R)
  | 0, s => some (s, oneE)
  | n + 1, s =>
    match basisLoopS P st start n s with
    | none => none
    | some r =>
      match st (start + n) with
      | none => none
      | some b => some (basisStep P b (start + n) r.1 r.2)

/-- What the loop yields as outcome of the call. -/
def SOut.ofOption {α : Type} : Option α → SOut α
  | none => .undef
  | some a => .ok a

/-- `makeZeroState(n, start)` (Package.hpp:234-247). -/
def makeZeroStateS (P : PCfg R) (s : Pkg R) (n start : Nat) : SOut (Pkg R × PEdge R) :=
  if n + start > (s.ut .v).nvars then .error
  else SOut.ofOption (basisLoopS P (fun _ => some .zero) start n s)

/-- `makeBasisState(n, state, start)` for bits (Package.hpp:249-266). The length of `state` is not checked. -/
def makeBasisStateS (P : PCfg R) (s : Pkg R) (n : Nat) (state : List Bool) (start : Nat) : SOut (Pkg R × PEdge R) :=
  if n + start > (s.ut .v).nvars then .error
  else SOut.ofOption (basisLoopS P (fun p => (state[p]?).map (fun b => if b then .one else .zero)) start n s)

/-- `makeBasisState(n, state, start)` for general states (Package.hpp:268-304). The length of `state` is compared with
`n`, the loop reads the entries `start .. n + start - 1`. -/
def makeBasisStatesS (P : PCfg R) (s : Pkg R) (n : Nat) (state : List Basis) (start : Nat) : SOut (Pkg R × PEdge R) :=
  if n + start > (s.ut .v).nvars then .error
  else if state.length < n then .error
  else SOut.ofOption (basisLoopS P (fun p => state[p]?) start n s)

/-- One line below the target in `makeGateDD` with `start` (Package.hpp:502-519), cf. `gateBelow`. -/
def gateBelowS (P : PCfg R) (start z : Nat) (s : Pkg R) (em : Fin 4 → PEdge R) (it : List Ctrl) :
    (Pkg R × (Fin 4 → PEdge R)) × List Ctrl :=
  let plain := seqFin 4 (fun i s => makeDDNode P .m s z ![em i, zeroE, zeroE, em i] false) s
  match it with
  | [] => (plain, [])
  | c :: rest =>
    if c.qubit = z then
      (seqFin 4 (fun i s =>
        let id := if i = 0 ∨ i = 3 then makeIdentR P s start z else (s, zeroE)
        makeDDNode P .m id.1 z (if c.neg then ![em i, zeroE, zeroE, id.2] else ![id.2, zeroE, zeroE, em i]) false) s, rest)
    else (plain, c :: rest)

/-- The loop over the lines `start .. start + n - 1` below the target (Package.hpp:500-519). -/
def gateBelowLoopS (P : PCfg R) (start : Nat) : Nat → Pkg R → (Fin 4 → PEdge R) → List Ctrl →
    (Pkg R × (Fin 4 → PEdge R)) × List Ctrl
  | 0, s, em, it => ((s, em), it)
  | z + 1, s, em, it =>
    let r := gateBelowLoopS P start z s em it
    gateBelowS P start (start + z) r.1.1 r.1.2 r.2

/-- One line above the target (Package.hpp:525-537), cf. `gateAbove`. -/
def gateAboveS (P : PCfg R) (start q : Nat) (s : Pkg R) (e : PEdge R) (it : List Ctrl) : (Pkg R × PEdge R) × List Ctrl :=
  match it with
  | [] => (makeDDNode P .m s q ![e, zeroE, zeroE, e] false, [])
  | c :: rest =>
    if c.qubit = q then
      let id := makeIdentR P s start q
      (makeDDNode P .m id.1 q (if c.neg then ![e, zeroE, zeroE, id.2] else ![id.2, zeroE, zeroE, e]) false, rest)
    else (makeDDNode P .m s q ![e, zeroE, zeroE, e] false, c :: rest)

/-- The loop over the lines above the target: `n` lines starting with line `q0`. -/
def gateAboveLoopS (P : PCfg R) (start q0 : Nat) : Nat → Pkg R → PEdge R → List Ctrl → (Pkg R × PEdge R) × List Ctrl
  | 0, s, e, it => ((s, e), it)
  | n + 1, s, e, it =>
    let r := gateAboveLoopS P start q0 n s e it
    gateAboveS P start (q0 + n) r.1.1 r.1.2 r.2

/-- `makeGateDD(mat, n, controls, target, start)` (Package.hpp:480-539); `none` is the exception. The line of the target
is the line reached after the first loop, `start` if `target` is below. -/
def makeGateDDS (P : PCfg R) (s : Pkg R) (U : Fin 4 → Cx R) (n : Nat) (controls : List Ctrl) (target start : Nat) :
    Option (Pkg R × PEdge R) :=
  if n + start > (s.ut .m).nvars then none
  else
    let b := gateBelowLoopS P start (target - start) s (fun i => gateEntry (U i)) controls
    let z := max start target
    let e := makeDDNode P .m b.1.1 z b.1.2 false
    some (gateAboveLoopS P start (z + 1) (n + start - 1 - z) e.1 e.2 b.2).1

/-- `makeTwoQubitGateDD(mat, n, target0, target1, start)` (Package.hpp:551-627), cf. `makeTwoQubitGateDD`; `none` is the
exception. The lines of the two targets are the lines the counter `z` has reached: the lower one is `start` if both
targets are below it, and the upper one is never the same as the lower one. Simplification: `start` and the targets are
below 128, so that they are represented as `Qubit`; and a line beyond the package, which the code reaches for equal targets
at the top, is handed to `makeDDNode` like any other. -/
def makeTwoQubitGateDDS (P : PCfg R) (s : Pkg R) (U : Fin 4 → Fin 4 → Cx R) (n target0 target1 start : Nat) :
    Option (Pkg R × PEdge R) :=
  if n + start > (s.ut .m).nvars then none
  else
    let em0 : Fin 16 → PEdge R := fun i => gateEntry (U ⟨i / 4, by omega⟩ ⟨i % 4, by omega⟩)
    let lo := max start (min target0 target1)
    let hi := max (lo + 1) (max target0 target1)
    let r1 := wrapLoop P start (lo - start) s em0
    let em (i j : Fin 4) : PEdge R := r1.2 ⟨4 * i + j, by omega⟩
    let r2 := seqFin 4 (fun q s =>
      let row := hi2 q
      let col := lo2 q
      makeDDNode P .m s lo (fun ij =>
        if target0 > target1 then em (idx2 row (hi2 ij)) (idx2 col (lo2 ij))
        else em (idx2 (hi2 ij) row) (idx2 (lo2 ij) col)) false) r1.1
    let r3 := wrapLoop P (lo + 1) (hi - lo - 1) r2.1 r2.2
    let e := makeDDNode P .m r3.1 hi r3.2 false
    let r4 := wrapLoop P (hi + 1) (upperLines (n + start) hi) e.1 (fun _ : Fin 1 => e.2)
    some (r4.1, r4.2 0)

end

end Pkg

end DD
