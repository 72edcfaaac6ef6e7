import Verif.StartSpec
import Verif.Model.StartMul
import Verif.Model.StartKron

/-!
# Specification of sums and products of diagrams over the qubits `st .. st + l - 1`
-/

namespace DD

section
variable {R : Type} [Field R]

/-- The edge is a diagram over the `l` qubits `st .. st + l - 1`: every path from it to the terminal whose weights are not
zero visits one stored node per qubit of the range, and no other. -/
def Span {n : Nat} (t : UTable (Cx R) n) (st : Nat) : Nat → PEdge R → Prop
  | 0, e => e.p = none
  | l + 1, e => (e.p = none ∧ e.w = 0) ∨ (e.w ≠ 0 ∧ ∃ a, e.p = some a ∧ a ∈ t.all ∧ (t.mem a).v = st + l ∧
      (∀ i, Span t st l ((t.mem a).e i)) ∧ ∃ i, ((t.mem a).e i).w ≠ 0)

/-- No node of the matrix is like an identity on its qubit: each one has a block beside the diagonal or blocks of different
weight on the diagonal. -/
def NoIdent (t : UTable (Cx R) 4) : Nat → PEdge R → Prop
  | 0, _ => True
  | l + 1, e => ∀ a, e.p = some a → ¬(((t.mem a).e 1).w = 0 ∧ ((t.mem a).e 2).w = 0 ∧ ((t.mem a).e 0).w = ((t.mem a).e 3).w) ∧
      ∀ i, NoIdent t l ((t.mem a).e i)

/-- The condition on the left operand of a tensor product without shift: there is none for vectors. -/
def NoId : (k : Kind) → UTable (Cx R) (ar k) → Nat → PEdge R → Prop
  | .v, _, _, _ => True
  | .m, t, l, e => NoIdent t l e

/-- The bits `c` on the qubits `st .. st + l - 1`. -/
def onRange (st : Nat) {l : Nat} (c : Fin l → Fin 2) (q : Nat) : Fin 2 :=
  if h : st ≤ q ∧ q - st < l then c ⟨q - st, h.2⟩ else 0

variable [LinearOrder R] [IsStrictOrderedRing R] [HasSqrt R]

/-- The entry of the product of two matrices over the qubits of the range, for row bits `a` and column bits `b`. -/
def matProdAt (t : UTable (Cx R) 4) (st l : Nat) (x y : PEdge R) (a b : Nat → Fin 2) : Cx R :=
  ∑ c : Fin l → Fin 2, Pkg.valueByPath t x (fun q => rc (a q) (onRange st c q)) *
    Pkg.valueByPath t y (fun q => rc (onRange st c q) (b q))

/-- The entry of the product of a matrix and a vector over the qubits of the range. -/
def vecProdAt (tm : UTable (Cx R) 4) (t : UTable (Cx R) 2) (st l : Nat) (x y : PEdge R) (a : Nat → Fin 2) : Cx R :=
  ∑ c : Fin l → Fin 2, Pkg.valueByPath tm x (fun q => rc (a q) (onRange st c q)) * Pkg.valueByPath t y (onRange st c)

/-- The states of the package reached from an ordinary history by building states and gates at any position, and by forming
sums and products of diagrams over the same range of qubits, with the first qubit of the range as `start`, and tensor products
of states over adjacent ranges and of matrices without identities. -/
inductive SpanReach (P : PCfg R) : Pkg R → Prop
  | base {h : PHist R} (hr : PReach P h) : SpanReach P h.pkg
  | zero {s : Pkg R} (hs : SpanReach P s) {n start : Nat} {r : Pkg R × PEdge R}
      (h : Pkg.makeZeroStateS P s n start = .ok r) : SpanReach P r.1
  | bits {s : Pkg R} (hs : SpanReach P s) {n start : Nat} {state : List Bool} {r : Pkg R × PEdge R}
      (h : Pkg.makeBasisStateS P s n state start = .ok r) : SpanReach P r.1
  | states {s : Pkg R} (hs : SpanReach P s) {n start : Nat} {state : List Basis} {r : Pkg R × PEdge R}
      (h : Pkg.makeBasisStatesS P s n state start = .ok r) : SpanReach P r.1
  | gate {s : Pkg R} (hs : SpanReach P s) {U : Fin 4 → Cx R} {n target start : Nat} (h1 : start ≤ target)
      (h2 : target < n + start) {r : Pkg R × PEdge R}
      (h : Pkg.makeGateDDS P s U n [] target start = some r) : SpanReach P r.1
  | two {s : Pkg R} (hs : SpanReach P s) {U : Fin 4 → Fin 4 → Cx R} {n t0 t1 start : Nat} (ht : t0 ≠ t1) (h0 : start ≤ t0)
      (h1 : start ≤ t1) (h2 : t0 < n + start) (h3 : t1 < n + start) {r : Pkg R × PEdge R}
      (h : Pkg.makeTwoQubitGateDDS P s U n t0 t1 start = some r) : SpanReach P r.1
  | add {s : Pkg R} (hs : SpanReach P s) {k : Kind} {st l : Nat} {x y : PEdge R} (hx : Span (s.ut k) st l x)
      (hy : Span (s.ut k) st l y) : SpanReach P (Pkg.add P k s x y).1
  | mul {s : Pkg R} (hs : SpanReach P s) {k : Kind} {st l : Nat} {x y : PEdge R} (hx : Span (s.ut .m) st l x)
      (hy : Span (s.ut k) st l y) : SpanReach P (Pkg.multiplyS P k s x y st).1
  | kron {s : Pkg R} (hs : SpanReach P s) {k : Kind} {st lx ly : Nat} (hl : 0 < ly) {x y : PEdge R}
      (hx : Span (s.ut k) (st + ly) lx x) (hy : Span (s.ut k) st ly y) (hi : NoId k (s.ut k) lx x) :
      SpanReach P (Pkg.kroneckerI P k s x y).1

end

end DD
