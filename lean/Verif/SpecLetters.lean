import Verif.Spec

/-!
# Queries of distinct letters

Candidates for queries of any length on which FzfV2's score is too large or too small. -/

namespace Norm.Spec

/-- Distinct lower case letters, none of which is in the normalization tables. -/
structure PlainLetters (U : Unicode) (S : FzfScheme) (l : List Char) : Prop where
  nodup : l.Nodup
  lower : ∀ c ∈ l, classOf U S c = .lower
  plain : ∀ c ∈ l, ∀ t, ¬ Listed c t

/-- All letters twice, each after a space: ` a b c a b c`. -/
def twice (l : List Char) : List Char := (l ++ l).flatMap fun c => [' ', c]

/-- The first letter, and words that repeat each of the others `k` more times: ` abbb ccc ` for `k = 2`. -/
def repeating (k : Nat) : List Char → List Char
  | [] => []
  | a :: l => ' ' :: a :: l.flatMap fun c => List.replicate (k + 1) c ++ [' ']

end Norm.Spec
