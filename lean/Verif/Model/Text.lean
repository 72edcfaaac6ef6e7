import Verif.Model.Serialize
import Verif.Model.Regex
import Verif.Model.Double
import Mathlib.Data.Nat.Digits.Defs
import Mathlib.Data.List.DropRight

/-!
# The text format of `serialize`

The characters written by `serialize` in text mode and the way `deserialize` reads them, down to the decimal notation of the numbers. `T` is the
tolerance. `fl` rounds a real number to the type `fp`. Numbers that are not finite are not modelled.
-/

namespace DD

/-! ## Decimal notation -/

/-- Decimal digits of a natural number (`operator<<` for integers). -/
def digits (n : Nat) : List Char := if n = 0 then ['0'] else (Nat.digits 10 n).reverse.map Nat.digitChar

/-- Output of an integer (`operator<<`). -/
def intText (z : Int) : List Char := if z < 0 then '-' :: digits z.natAbs else digits z.natAbs

/-- A number in decimal notation: sign, digits before and after the point, exponent. -/
structure Dec where
  neg : Bool
  ip : List Char
  fp : List Char
  ex : Option (Bool × List Char)

/-- The characters of a number. Without digits after the point, the point is not written either. -/
def Dec.text (d : Dec) : List Char :=
  (if d.neg then ['-'] else []) ++ d.ip ++ (if d.fp = [] then [] else '.' :: d.fp) ++
    (match d.ex with
     | none => []
     | some (n, ds) => 'e' :: (if n then '-' else '+') :: ds)

/-- Remove zeros at the end. -/
def strip (l : List Char) : List Char := l.rdropWhile (· == '0')

/-- The exponent is written with at least two digits. -/
def pad2 (l : List Char) : List Char := if l.length < 2 then '0' :: l else l

/-- The first `p` decimal digits of `x ≠ 0`, rounded (to even in case of a tie), as an integer `m`, and the exponent `e` of the first one: `x` is
about `m · 10 ^ (e + 1 - p)`. -/
noncomputable def sig (p : Nat) (x : ℝ) : Nat × Int :=
  let e := Int.log 10 |x|
  let m := (rne (|x| * 10 ^ ((p : Int) - 1 - e))).toNat
  if m = 10 ^ p then (10 ^ (p - 1), e + 1) else (m, e)

/-- Output of a number with `std::setprecision(p)`, `p ≥ 1`, and the default format, which is `%.pg` of `printf` (`ss << real`, `ss << imag` in
ComplexValue.hpp:195, 211, 216). -/
noncomputable def decG (p : Nat) (x : ℝ) : Dec :=
  if x = 0 then ⟨false, ['0'], [], none⟩
  else
    let m := (sig p x).1
    let e := (sig p x).2
    let ds := digits m
    if e < -4 ∨ (p : Int) ≤ e then ⟨x < 0, ds.take 1, strip (ds.drop 1), some (e < 0, pad2 (digits e.natAbs))⟩
    else if 0 ≤ e then ⟨x < 0, ds.take (e.toNat + 1), strip (ds.drop (e.toNat + 1)), none⟩
    else ⟨x < 0, ['0'], List.replicate (-e - 1).toNat '0' ++ strip ds, none⟩

/-- The characters written for a number. -/
noncomputable def numText (p : Nat) (x : ℝ) : List Char := (decG p x).text

/-- The number with the given digits. -/
def digVal (ds : List Char) : Nat := ds.foldl (fun a c => 10 * a + (c.toNat - 48)) 0

/-- The optional sign read by `std::stoi` and `std::stod`. -/
def splitSign : List Char → Bool × List Char
  | [] => (false, [])
  | a :: s => if a = '-' then (true, s) else if a = '+' then (false, s) else (false, a :: s)

/-- `std::stoi`: reads as many digits as possible, ignores the rest; `none` if it throws. -/
def stoi (s : List Char) : Option Int :=
  let q := splitSign s
  let ds := q.2.takeWhile Char.isDigit
  if ds = [] then none
  else
    let z : Int := if q.1 then -(digVal ds : Int) else digVal ds
    if -2 ^ 31 ≤ z ∧ z < 2 ^ 31 then some z else none

/-- The exponent read by `std::stod`. -/
def stodExp : List Char → Int
  | [] => 0
  | a :: s =>
    if a = 'e' ∨ a = 'E' then
      let q := splitSign s
      let ds := q.2.takeWhile Char.isDigit
      if q.1 then -(digVal ds : Int) else digVal ds
    else 0

/-- The digits after the point read by `std::stod`, and the rest of the text. -/
def stodFrac : List Char → List Char × List Char
  | [] => ([], [])
  | a :: s => if a = '.' then (s.takeWhile Char.isDigit, s.dropWhile Char.isDigit) else ([], a :: s)

/-- `std::stod`: the number read, before rounding; `none` if it throws. Hexadecimal numbers, infinity and errors of range are left out. -/
noncomputable def stodR (s : List Char) : Option ℝ :=
  let q := splitSign s
  let ip := q.2.takeWhile Char.isDigit
  let r := stodFrac (q.2.dropWhile Char.isDigit)
  if ip = [] ∧ r.1 = [] then none
  else
    let x : ℝ := ((digVal ip : ℝ) + (digVal r.1 : ℝ) / 10 ^ r.1.length) * 10 ^ stodExp r.2
    some (if q.1 then -x else x)

/-- `std::stod`: the number rounded to the type `fp`. -/
noncomputable def stod (fl : ℝ → ℝ) (s : List Char) : Option ℝ := (stodR s).map fl

/-! ## Writing -/

open Classical in
/-- `toString(real, imag, false, p)` (ComplexValue.hpp:179-223). -/
noncomputable def weightText (T : ℝ) (p : Nat) (w : Cx ℝ) : List Char :=
  if |w.re| ≤ T ∧ |w.im| ≤ T then ['0']
  else
    (if T < |w.re| then numText p w.re else []) ++
    (if T < |w.im| then (if |w.re| ≤ T then numText p w.im else if 0 < w.im then '+' :: numText p w.im else numText p w.im) ++ ['i'] else [])

open Classical in
/-- The part of a line written for an edge (Export.hpp:711-717, 752-758); nothing is written between the parentheses if the weight is (nearly) zero. -/
noncomputable def edgeText (T : ℝ) : Option (Int × Cx ℝ) → List Char
  | none => [' ', '(', ')']
  | some (z, w) => if |w.re| ≤ T ∧ |w.im| ≤ T then [' ', '(', ')'] else ' ' :: '(' :: (intText z ++ ' ' :: weightText T 16 w ++ [')'])

/-- The line written for a record (Export.hpp:707-719, 748-761), without the end of line. -/
noncomputable def lineText {n : Nat} (T : ℝ) (r : Rec ℝ n) : List Char :=
  intText r.idx ++ ' ' :: intText r.v ++ (List.ofFn fun i => edgeText T (r.e i)).flatten

/-- The whole text (Export.hpp:633-634, 770-771); the root weight of a vector is written with 16 digits, that of a matrix with `p = 17`. -/
noncomputable def fileText {n : Nat} (T : ℝ) (p : Nat) (w : Cx ℝ) (recs : List (Rec ℝ n)) : List Char :=
  digits serializationVersion ++ '\n' :: weightText T p w ++ '\n' :: (recs.map fun r => lineText T r ++ ['\n']).flatten

/-! ## Reading -/

namespace Rx

/-- `(?:\d+(?:\.\d*)?|\.\d+)(?:[eE][+-]?\d+)?` (Package.hpp:3006-3007) -/
def num : Rx :=
  .seq (.alt (.seq (plus dig) (opt (.seq (chr '.') (.star dig)))) (.seq (chr '.') (plus dig)))
    (opt (.seq ee (.seq (opt sgn) (plus dig))))

/-- `[ \d\.]*(?:[eE][+-])?\d*[iI]` (Package.hpp:3006) -/
def ahead : Rx :=
  .seq (.star (.cls fun a => a == ' ' || a.isDigit || a == '.')) (.seq (opt (.seq ee sgn)) (.seq (.star dig) ii))

/-- `complexRealRegex` (Package.hpp:3006), as group `k`. -/
def real (k : Nat) : Rx := opt (.grp k (.seq (opt sgn) (.seq num (.nla ahead))))

/-- `complexImagRegex` (Package.hpp:3007), as group `k`. -/
def imag (k : Nat) : Rx := opt (.grp k (.seq (opt (chr ' ')) (.seq (opt sgn) (.seq (opt (chr ' ')) (.seq (opt num) ii)))))

/-- `complexWeightRegex` (Package.hpp:3009). -/
def weight (k : Nat) : Rx := .seq (real k) (imag (k + 1))

/-- `edgeRegex` (Package.hpp:3008), whose groups are `k`, …, `k + 4`. -/
def edge (k : Nat) : Rx :=
  .seq (chr ' ') (.seq (chr '(')
    (.seq (opt (.grp k (.seq (.grp (k + 1) (.seq (opt (chr '-')) (plus dig))) (.seq (chr ' ') (.grp (k + 2) (weight (k + 3)))))))
      (chr ')')))

/-- The edges of a line, followed by spaces and a comment (Package.hpp:3012-3015); `k` is the first group. -/
def edges : Nat → Nat → Rx
  | 0, _ => .seq (.star (chr ' ')) (opt (.seq (chr '#') (.star (.cls fun a => a != '\n'))))
  | n + 1, k => .seq (edge k) (edges n (k + 5))

/-- `lineRegex` (Package.hpp:3011-3016). -/
def line (n : Nat) : Rx := .seq (.grp 1 (plus dig)) (.seq (chr ' ') (.seq (.grp 2 (plus dig)) (edges n 3)))

end Rx

/-- `ComplexValue::fromString` (ComplexValue.hpp:60-71); `none` if it throws. -/
noncomputable def fromString (fl : ℝ → ℝ) (realStr imagStr : List Char) : Option (Cx ℝ) :=
  let i0 := (imagStr.filter (· != ' ')).filter (· != 'i')
  let i1 := if i0 = ['+'] ∨ i0 = ['-'] then i0 ++ ['1'] else i0
  match (if realStr = [] then some 0 else stod fl realStr), (if i1 = [] then some 0 else stod fl i1) with
  | some re, some im => some ⟨re, im⟩
  | _, _ => none

/-- The edge read from the groups `k`, …, `k + 4` (Package.hpp:3048-3055): `some none` if nothing is there, `none` if the code throws. -/
noncomputable def readEdge (fl : ℝ → ℝ) (c : Caps) (k : Nat) : Option (Option (Int × Cx ℝ)) :=
  if c.str k = [] then some none
  else
    match stoi (c.str (k + 1)), fromString fl (c.str (k + 3)) (c.str (k + 4)) with
    | some z, some w => some (some (z, w))
    | _, _ => none

/-- The record read from a line (Package.hpp:3036-3055); `none` if the code throws. A qubit that the type `Qubit` cannot hold is counted as an error,
too; the code would convert it. -/
noncomputable def readRec (fl : ℝ → ℝ) (n : Nat) (c : Caps) : Option (Rec ℝ n) :=
  match stoi (c.str 1), stoi (c.str 2) with
  | some i, some v =>
    if (∀ j : Fin n, (readEdge fl c (3 + 5 * j)).isSome) ∧ v < 128 then
      some ⟨i, v.toNat, fun j => (readEdge fl c (3 + 5 * j)).getD none⟩
    else none
  | _, _ => none

/-- `std::getline`: the text up to the end of the line, and the text after it; `none` at the end of the stream. -/
def getline : List Char → Option (List Char × List Char)
  | [] => none
  | s => some (s.takeWhile (· != '\n'), (s.dropWhile (· != '\n')).drop 1)

/-- The loop over the lines (Package.hpp:3027-3058) reads the records. -/
inductive ReadsLines (fl : ℝ → ℝ) (n : Nat) : List Char → List (Rec ℝ n) → Prop
  | eof {s : List Char} : getline s = none → ReadsLines fl n s []
  | skip {s l s' : List Char} {rs : List (Rec ℝ n)} : getline s = some (l, s') → l.length ≤ 1 → ReadsLines fl n s' rs → ReadsLines fl n s rs
  | line {s l s' : List Char} {c : Caps} {r : Rec ℝ n} {rs : List (Rec ℝ n)} : getline s = some (l, s') → 1 < l.length →
      (Rx.line n).Match l c → readRec fl n c = some r → ReadsLines fl n s' rs → ReadsLines fl n s (r :: rs)

/-- `deserialize` in text mode (Package.hpp:2999-3058) reads the root weight `w` and the records. -/
inductive ReadsText (fl : ℝ → ℝ) (n : Nat) (s : List Char) : Cx ℝ → List (Rec ℝ n) → Prop
  | short {v s1 : List Char} : getline s = some (v, s1) → stoi v = some (serializationVersion : Int) → getline s1 = none →
      ReadsText fl n s 0 []
  | root {v l s1 s2 : List Char} {c : Caps} {w : Cx ℝ} {recs : List (Rec ℝ n)} : getline s = some (v, s1) →
      stoi v = some (serializationVersion : Int) → getline s1 = some (l, s2) → (Rx.weight 1).Match l c →
      fromString fl (c.str 1) (c.str 2) = some w → ReadsLines fl n s2 recs → ReadsText fl n s w recs

end DD
