import Verif.Model.Package

/-!
# Output of amplitudes and bit strings
-/

namespace DD
namespace Pkg

variable {R : Type} [Field R]

/-- `exportAmplitudesRec` to a stream (Package.hpp:2787-2808): the sequence of numbers written. The conversion of a number to
text or bytes is not modelled; the parameter `path` is not used by the code. The first argument is `level`. -/
def exportStreamF (t : UTable (Cx R) 2) : Nat → PEdge R → Cx R → List (Cx R)
  | 0, e, am => List.replicate (2 ^ 0) (am * e.w)
  | l + 1, e, am =>
    match e.p with
    | none => List.replicate (2 ^ (l + 1)) (am * e.w)
    | some a =>
      let c := am * e.w
      exportStreamF t l ((t.mem a).e 0) c ++ exportStreamF t l ((t.mem a).e 1) c

/-- `exportAmplitudes` to a stream (Package.hpp:2809-2817). -/
def exportStream (t : UTable (Cx R) 2) (e : PEdge R) (nq : Nat) : List (Cx R) :=
  match e.p with
  | none => []
  | some _ => exportStreamF t nq e 1

/-- The loop that fills a part of an array (Package.hpp:2831-2833). -/
def fill (idx n : Nat) (x : Cx R) (arr : Nat → Cx R) : Nat → Cx R :=
  (List.range n).foldl (fun a i => Function.update a (idx + i) x) arr

/-- `exportAmplitudesRec` to an array (Package.hpp:2826-2842); the array is a function from indices. -/
def exportArrayF (t : UTable (Cx R) 2) : Nat → PEdge R → Cx R → Nat → (Nat → Cx R) → (Nat → Cx R)
  | 0, e, am, idx, arr => fill (idx <<< 0) (2 ^ 0) (am * e.w) arr
  | l + 1, e, am, idx, arr =>
    match e.p with
    | none => fill (idx <<< (l + 1)) (2 ^ (l + 1)) (am * e.w) arr
    | some a =>
      let c := am * e.w
      let arr' := exportArrayF t l ((t.mem a).e 0) c (idx <<< 1) arr
      exportArrayF t l ((t.mem a).e 1) c (idx <<< 1 ||| 1) arr'

/-- `exportAmplitudes` to an array (Package.hpp:2843-2851). -/
def exportArray (t : UTable (Cx R) 2) (e : PEdge R) (nq : Nat) (arr : Nat → Cx R) : Nat → Cx R :=
  match e.p with
  | none => arr
  | some _ => exportArrayF t nq e 1 0 arr

/-- The loop that adds a number to a part of an array (Package.hpp:2860-2863). -/
def addFill (idx n : Nat) (x : Cx R) (arr : Nat → Cx R) : Nat → Cx R :=
  (List.range n).foldl (fun a i => Function.update a (idx + i) (x + a (idx + i))) arr

/-- `addAmplitudesRec` (Package.hpp:2853-2870). -/
def addAmplitudesF (t : UTable (Cx R) 2) : Nat → PEdge R → Cx R → Nat → (Nat → Cx R) → (Nat → Cx R)
  | 0, e, am, idx, arr => addFill (idx <<< 0) (2 ^ 0) ⟨e.w.re * am.re - e.w.im * am.im, e.w.re * am.im + e.w.im * am.re⟩ arr
  | l + 1, e, am, idx, arr =>
    let c : Cx R := ⟨e.w.re * am.re - e.w.im * am.im, e.w.re * am.im + e.w.im * am.re⟩
    match e.p with
    | none => addFill (idx <<< (l + 1)) (2 ^ (l + 1)) c arr
    | some a =>
      let arr' := addAmplitudesF t l ((t.mem a).e 0) c (idx <<< 1) arr
      addAmplitudesF t l ((t.mem a).e 1) c (idx <<< 1 ||| 1) arr'

/-- `addAmplitudes` (Package.hpp:2871-2878). -/
def addAmplitudes (t : UTable (Cx R) 2) (e : PEdge R) (nq : Nat) (arr : Nat → Cx R) : Nat → Cx R :=
  match e.p with
  | none => arr
  | some _ => addAmplitudesF t nq e 1 0 arr

end Pkg

/-- `intToString(targetNumber, value, size)` (Package.hpp:2628-2637): a string of `size` characters '0'; in round `i`, the
lowest bit decides about the character at position `size - i`, then the number is shifted. -/
def intToString (m : Nat) (value : Char) (size : Nat) : List Char :=
  ((List.range size).foldl
    (fun p i => (if p.2 % 2 ≠ 0 then p.1.set (size - (i + 1)) value else p.1, p.2 >>> 1))
    (List.replicate size '0', m)).1

end DD
