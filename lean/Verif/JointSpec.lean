import Verif.Model.Joint
import Mathlib.Algebra.BigOperators.Group.Multiset.Basic
import Mathlib.Algebra.BigOperators.Group.Finset.Basic
import Mathlib.Data.Multiset.Count

/-! # What it means that a number is referenced (specification for C17) -/

namespace DD

/-- How often the complex number `c` refers to the entry `a` of the number table: with its real and its imaginary part. -/
def CNum.uses (c : CNum Loc) (a : Nat) : Nat :=
  (if c.r.loc = .cell a then 1 else 0) + (if c.i.loc = .cell a then 1 else 0)

/-- How often the complex numbers in `M` refer to the entry `a`. -/
def usesOf (M : Multiset (CNum Loc)) (a : Nat) : Nat := (M.map (fun c => c.uses a)).sum

/-- The weights of all edges out of stored nodes that have references. -/
def UTable.weights {W : Type} {n : Nat} (t : UTable W n) : Multiset W :=
  ∑ b ∈ t.all.toFinset,
    if 0 < (t.mem b).ref then (((List.finRange n).map (fun i => ((t.mem b).e i).w) : List W) : Multiset W) else 0

/-- The complex numbers in use: weights of the edges the user references, weights of edges out of referenced nodes, numbers
the user references directly. -/
def JState.inUse {R : Type} (s : JState R) : Multiset (CNum Loc) :=
  (∑ k : NK, ((((s.tab k).held.map (fun e => e.w) : List _) : Multiset (CNum Loc)) + (s.tab k).tab.weights)) +
    (s.nums : Multiset (CNum Loc))

/-- What a user can get at: by the edges and numbers they reference, and by following edges out of nodes. -/
inductive JState.Reachable {R : Type} (s : JState R) : PRef → Prop
  | held (k : NK) (e : PtrEdge) (he : e ∈ (s.tab k).held) (x : PRef) (hx : x ∈ ptrRefs k e) : s.Reachable x
  | numR (c : CNum Loc) (hc : c ∈ s.nums) : s.Reachable (.num c.r.loc)
  | numI (c : CNum Loc) (hc : c ∈ s.nums) : s.Reachable (.num c.i.loc)
  | child (k : NK) (a : Nat) (h : s.Reachable (.node k a)) (i : Fin k.ar) (x : PRef)
      (hx : x ∈ ptrRefs k (((s.tab k).tab.mem a).e i)) : s.Reachable x

/-- What a pointer shows is the same in both states: level and edges of the node, value of the number. -/
def JState.SameAt {R : Type} [Field R] [LinearOrder R] [FloorRing R] (J : JCfg R) (s s' : JState R) : PRef → Prop
  | .node k a => (s'.tab k).tab.mem a = (s.tab k).tab.mem a
  | .num l => s'.ct.value J.C l = s.ct.value J.C l

/-- The entries of the cache `c`. -/
def JState.Entry {R : Type} (s : JState R) (c : CK) (key : CKey R) (r : CArg R) : Prop :=
  ∃ i, (s.cache c).slot i = some (key, r)

/-- The pointers in an entry. -/
def entryRefs {R : Type} (key : CKey R) (r : CArg R) : List PRef := key.1.flatMap CArg.refs ++ r.refs

end DD
