import Verif.Model.Start

/-!
# `kronecker` with `incIdx = false`

The left operand keeps its qubits, which is meant for diagrams that have been built above the qubits of the right operand.
-/

namespace DD

namespace Pkg

section
variable {R : Type} [Field R] [LinearOrder R] [IsStrictOrderedRing R] [HasSqrt R]

/-- The loop of the identity shortcut of `kronecker2` with `incIdx = false` (Package.hpp:1986-1992): `n` times
`e = makeDDNode(e.p->v, {e, 0, 0, e})`. Simplification: the index of a terminal, -1, is 0 here. -/
def identInPlace (P : PCfg R) : Nat → Pkg R → PEdge R → Pkg R × PEdge R
  | 0, s, e => (s, e)
  | n + 1, s, e =>
    let r := makeDDNode P .m s (s.lv .m e - 1) ![e, zeroE, zeroE, e] false
    identInPlace P n r.1 r.2

/-- `kronecker2` (Package.hpp:1963-2011) with `incIdx = false`, cf. `kron2F`. The first argument bounds the level of `x`. The
table of results is the same as for `incIdx = true`, and so are its keys. -/
def kron2FI (P : PCfg R) (k : Kind) : Nat → Pkg R → PEdge R → PEdge R → Pkg R × PEdge R
  | l, s, x, y =>
    if x.w = 0 ∨ y.w = 0 then (s, zeroE)
    else match x.p with
    | none => (s, ⟨y.p, x.w * y.w⟩)
    | some a =>
      match look (P.kronH k) (s.kronC k) (x, y) with
      | some r => if r.w = 0 then (s, zeroE) else (s, r)
      | none =>
        let nd := (s.ut k).mem a
        if k = .m ∧ nd.ident = true then
          let r := identInPlace P (nd.v + 1) s y
          let e : PEdge R := ⟨r.2.p, y.w⟩
          ({ r.1 with kronC := Function.update r.1.kronC k ((r.1.kronC k).insert (P.kronH k) (x, y) e) }, e)
        else match l with
        | 0 => (s, zeroE)
        | l + 1 =>
          let q := seqFin (ar k) (fun i s' => kron2FI P k l s' (nd.e i) y) s
          let r := makeDDNode P k q.1 nd.v q.2 true
          let e : PEdge R := ⟨r.2.p, r.2.w * x.w⟩
          ({ r.1 with kronC := Function.update r.1.kronC k ((r.1.kronC k).insert (P.kronH k) (x, y) e) }, e)

/-- `kronecker` (Package.hpp:1939-1953) with `incIdx = false`. -/
def kroneckerI (P : PCfg R) (k : Kind) (s : Pkg R) (x y : PEdge R) : Pkg R × PEdge R :=
  kron2FI P k (s.lv k x) s x y

end

end Pkg

end DD
