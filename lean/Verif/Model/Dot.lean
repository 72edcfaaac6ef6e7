import Verif.Model.UniqueTable

/-!
# Drawing a diagram

Model of the walks of `toDot` and `exportEdgeWeights` (`include/dd/Export.hpp`, 540-601, 791-830). What is printed for a node or an edge is not
modelled as text: a node declaration is the node, an edge declaration is the node, the index of the port and the edge. Which of the edges with the
highest level the priority queue returns is not determined.
-/

namespace DD

/-- Processed nodes in the order of their declaration, the queue, and the declared edges. -/
structure DotState (W : Type) (n : Nat) where
  nodes : List Nat
  queue : List (Edge W)
  edges : List (Nat × Fin n × Edge W)

namespace UTable

variable {W : Type} {n : Nat}

/-- The edges declared for a node (Export.hpp:577-596): those that are not skipped, last one first. -/
def dotEdges (t : UTable W n) (skip : W → Bool) (a : Nat) : List (Nat × Fin n × Edge W) :=
  ((List.finRange n).reverse.filter fun i => !skip ((t.mem a).e i).w).map fun i => (a, i, (t.mem a).e i)

/-- The body of the loop after the edge `x` has been removed from the queue, leaving `q` (Export.hpp:560-597, 811-828). -/
def dotVisit (t : UTable W n) (skip : W → Bool) (s : DotState W n) (x : Edge W) (q : List (Edge W)) : DotState W n :=
  match x.p with
  | none => { s with queue := q }
  | some a =>
    if a ∈ s.nodes then { s with queue := q }
    else ⟨s.nodes ++ [a], q ++ (t.dotEdges skip a).map fun d => d.2.2, s.edges ++ t.dotEdges skip a⟩

/-- One round of the loop (Export.hpp:555-598, 806-829): an edge whose node has the highest level (547, 793-797; the terminal has level -1,
Node.hpp:32, 69) is removed. -/
inductive DotStep (t : UTable W n) (skip : W → Bool) (s : DotState W n) : DotState W n → Prop
  | pop (q1 q2 : List (Edge W)) (x : Edge W) : s.queue = q1 ++ x :: q2 → (∀ y ∈ s.queue, t.lvl y ≤ t.lvl x) →
      DotStep t skip s (t.dotVisit skip s x (q1 ++ q2))

/-- Before the loop (Export.hpp:545-552, 801-804). -/
def dotStart (e : Edge W) : DotState W n := ⟨[], [e], []⟩

/-- The output of `exportEdgeWeights` (Export.hpp:791-830) when the walk ends in `s`. -/
def edgeWeights (e : Edge W) (s : DotState W n) : List W := e.w :: s.edges.map fun d => d.2.2.w

end UTable

/-- The label of the node at the address `p` (Export.hpp:165, 256, 273, 283, 321, 345, 367-368). -/
def dotLabel (p : Nat) : Nat := (p &&& 0x1fffff) >>> 1

end DD
