import Verif.Model.Joint

/-!
# Consistency checks

Model of `isLocallyConsistent` and `isGloballyConsistent` (`include/dd/Package.hpp`, 3144-3261). Messages are not modelled. The maps of the code are
functions to natural numbers; an entry that is missing is 0. This is the same as an exception of `at` (3229, 3236, 3247), since all entries the code
asks for have been counted at least once.
-/

namespace DD

/-- The two maps of `isGloballyConsistent` (Package.hpp:3157-3158): occurrences of numbers and of nodes. -/
structure Occ where
  num : Loc → Nat
  node : Nat → Nat

/-- Count the two parts of a weight (Package.hpp:3206-3207, 3218-3219). -/
def Occ.addW (M : Occ) (w : CNum Loc) : Occ :=
  { M with num := fun l => M.num l + (if w.r.loc = l then 1 else 0) + (if w.i.loc = l then 1 else 0) }

/-- Count a node (Package.hpp:3212, 3217). -/
def Occ.addN (M : Occ) (p : Option Nat) : Occ :=
  match p with
  | none => M
  | some a => { M with node := Function.update M.node a (M.node a + 1) }

/-- Occurrences of a node; the terminal is never counted (Package.hpp:3209-3211, 3214). -/
def Occ.at (M : Occ) : Option Nat → Nat
  | none => 0
  | some a => M.node a

namespace UTable

variable {n : Nat}

/-- `fillConsistencyCounter` (Package.hpp:3204-3222). The first argument bounds the depth of the recursion. -/
def fillF (t : UTable (CNum Loc) n) : Nat → Occ → PtrEdge → Occ
  | f, M, e =>
    let M := M.addW e.w
    match e.p with
    | none => M
    | some a =>
      match f with
      | 0 => M
      | f + 1 =>
        (List.finRange n).foldl (fun M i =>
          let c := (t.mem a).e i
          if M.at c.p = 0 then fillF t f M c else (M.addN c.p).addW c.w) (M.addN (some a))

/-- The test of one part of a weight (Package.hpp:3229, 3236); `ref` are the reference counts of the numbers. -/
def okNum (ref : Loc → Nat) (M : Occ) (l : Loc) : Bool :=
  !decide (M.num l = 0) && !(decide (ref l < M.num l) && decide (l ≠ .one) && decide (l ≠ .zero) && decide (l ≠ .sqrt2_2))

/-- `checkConsistencyCounter` (Package.hpp:3224-3261); `false` is an exception. The first argument bounds the depth of the recursion. -/
def checkF (t : UTable (CNum Loc) n) (ref : Loc → Nat) (M : Occ) : Nat → PtrEdge → Bool
  | f, e =>
    okNum ref M e.w.r.loc && okNum ref M e.w.i.loc &&
    match e.p with
    | none => true
    | some a =>
      !decide (M.node a = 0) && decide (M.node a = (t.mem a).ref) &&
      match f with
      | 0 => true
      | f + 1 => (List.finRange n).all fun i =>
        let c := (t.mem a).e i
        (match c.p with
          | none => true
          | some b => decide ((t.mem b).v + 1 = (t.mem a).v)) && checkF t ref M f c

/-- `isLocallyConsistent2` (Package.hpp:3165-3202). The first argument bounds the depth of the recursion. -/
def localF (t : UTable (CNum Loc) n) (ref : Loc → Nat) : Nat → PtrEdge → Bool
  | f, e =>
    if (ref e.w.r.loc = 0 ∨ ref e.w.i.loc = 0) ∧ e.w ≠ CNum.one ∧ e.w ≠ CNum.zero then false
    else
      match e.p with
      | none => true
      | some a =>
        if (t.mem a).ref = 0 then false
        else
          match f with
          | 0 => true
          | f + 1 => (List.finRange n).all fun i =>
            let c := (t.mem a).e i
            (match c.p with
              | none => true
              | some b => decide ((t.mem b).v + 1 = (t.mem a).v) && !decide ((t.mem b).ref = 0)) && localF t ref f c

end UTable

namespace JState

variable {R : Type}

/-- The reference counts of the numbers; those of the static entries are 1 and never change (ComplexTable.hpp:109-111, 264, 285). -/
def numRef (s : JState R) : Loc → Nat
  | .cell a => s.ct.ref (.cell a)
  | _ => 1

/-- `isLocallyConsistent` (Package.hpp:3144-3153). -/
def isLocallyConsistent (s : JState R) (k : NK) (e : PtrEdge) : Bool := (s.tab k).tab.localF s.numRef ((s.tab k).tab.lvl e) e

/-- `isGloballyConsistent` (Package.hpp:3155-3162): `true`, or an exception (`false`). -/
def isGloballyConsistent (s : JState R) (k : NK) (e : PtrEdge) : Bool :=
  let M := (s.tab k).tab.fillF ((s.tab k).tab.lvl e) ⟨fun _ => 0, fun _ => 0⟩ e
  (s.tab k).tab.checkF s.numRef M ((s.tab k).tab.lvl e) e

end JState

end DD
