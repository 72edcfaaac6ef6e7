import Mathlib.Data.List.Basic

/-!
# Regular expressions

The part of the regular expressions of `std::regex` (ECMAScript) used by `deserialize` (Package.hpp:3006-3016). `std::regex_match` asks for a match of
the whole text; when there are several ways to match, the library takes the first one in a certain order. This order is not modelled: what is proved
holds for every way to match.
-/

namespace DD

/-- Regular expressions: `grp k` is the capture group number `k`, `nla` is `(?!…)`. -/
inductive Rx where
  | eps
  | cls (p : Char → Bool)
  | seq (a b : Rx)
  | alt (a b : Rx)
  | star (a : Rx)
  | grp (k : Nat) (a : Rx)
  | nla (a : Rx)

/-- The texts captured by groups. -/
abbrev Caps := List (Nat × List Char)

/-- `m.str(k)`: the text captured by group `k`, empty if the group takes no part in the match. (No group occurs in a repetition.) -/
def Caps.str (c : Caps) (k : Nat) : List Char := ((c.find? (fun x => x.1 == k)).map Prod.snd).getD []

/-- Repetition. -/
inductive StarM (m : List Char → List Char → Caps → Prop) : List Char → List Char → Caps → Prop
  | nil (s : List Char) : StarM m s s []
  | cons {s u t : List Char} {c d : Caps} : m s u c → StarM m u t d → StarM m s t (c ++ d)

/-- `r.M s t c`: the expression matches a prefix of the text `s`, `t` remains, and the groups capture `c`. -/
def Rx.M : Rx → List Char → List Char → Caps → Prop
  | .eps, s, t, c => s = t ∧ c = []
  | .cls p, s, t, c => ∃ a, s = a :: t ∧ p a = true ∧ c = []
  | .seq a b, s, t, c => ∃ u c1 c2, a.M s u c1 ∧ b.M u t c2 ∧ c = c1 ++ c2
  | .alt a b, s, t, c => a.M s t c ∨ b.M s t c
  | .star a, s, t, c => StarM a.M s t c
  | .grp k a, s, t, c => ∃ w c1, s = w ++ t ∧ a.M s t c1 ∧ c = (k, w) :: c1
  | .nla a, s, t, c => s = t ∧ c = [] ∧ ¬ ∃ u d, a.M s u d

/-- `std::regex_match(s, m, r)` may return true with the captures `c`. -/
def Rx.Match (r : Rx) (s : List Char) (c : Caps) : Prop := r.M s [] c

namespace Rx

/-- A literal character. -/
def chr (a : Char) : Rx := .cls (· == a)
/-- `r?` -/
def opt (r : Rx) : Rx := .alt r .eps
/-- `r+` -/
def plus (r : Rx) : Rx := .seq r (.star r)
/-- `\d` -/
def dig : Rx := .cls Char.isDigit
/-- `[+-]` -/
def sgn : Rx := .cls (fun a => a == '+' || a == '-')
/-- `[eE]` -/
def ee : Rx := .cls (fun a => a == 'e' || a == 'E')
/-- `[iI]` -/
def ii : Rx := .cls (fun a => a == 'i' || a == 'I')

end Rx

end DD
