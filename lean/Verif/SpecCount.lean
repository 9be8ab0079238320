import Verif.Spec

/-!
# How many ranges a query can have

For property C97.
-/

namespace Norm.Spec

/-- A character of a fuzzy word may get a range of its own, other words have one, and negated ones have none. -/
def mostOf (p : Pattern) : Nat :=
  if p.isInverse then 0
  else match p.matchType with
    | .fuzzy => p.text.length
    | _ => 1

/-- Of each condition one alternative is highlighted. A lone fuzzy word is highlighted whether or not it is negated. -/
def most : FzfQuery → Nat
  | .extended cs => (cs.map fun c => (c.map mostOf).foldl max 0).sum
  | .notExtended p => p.text.length

/-- How many characters of a candidate a query can highlight: those of the words that are not negated, of each condition one alternative. -/
def mostChars : FzfQuery → Nat
  | .extended cs => (cs.map fun c => (c.map fun p => if p.isInverse then 0 else p.text.length).foldl max 0).sum
  | .notExtended p => p.text.length

end Norm.Spec
