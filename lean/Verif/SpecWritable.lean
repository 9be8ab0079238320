import Verif.SpecGrammar

/-!
# Which queries can be written

The patterns that have a word, and a string for every query whose patterns have one. -/

namespace Norm.Spec

/-- Patterns of this kind are written without `'` and `^` before their text: `foo`, `!foo`, `foo$`, `!foo$`. -/
def NoSigil (p : Pattern) : Prop :=
  p.matchType = .suffixExact ∨ (p.matchType = .fuzzy ∧ p.isInverse = false) ∨ (p.matchType = .exact ∧ p.isInverse = true)

/-- Patterns of this kind are written without `$` after their text: `foo`, `!foo`, `^foo`, `!^foo`. (To `'foo` and `!'foo` a
`$` may be added, which means nothing.) -/
def NoDollar (p : Pattern) : Prop :=
  p.matchType = .prefixExact ∨ (p.matchType = .fuzzy ∧ p.isInverse = false) ∨ (p.matchType = .exact ∧ p.isInverse = true)

/-- The pattern is that of a word: its text is not empty and is not taken for a sigil. -/
structure Writable (U : Unicode) (p : Pattern) : Prop where
  ok : PatternOk U p
  sigil : NoSigil p → p.text.head? ≠ some '\'' ∧ p.text.head? ≠ some '^'
  bang : NoSigil p → p.isInverse = false → p.text.head? ≠ some '!'
  dollar : NoDollar p → p.text.getLast? = some '$' → p.text = ['$'] ∧ p.matchType ≠ .prefixExact
  bar : p.matchType = .fuzzy → p.isInverse = false → p.text ≠ ['|']

/-- The word of this pattern ends with a backslash, which would escape a space that follows. -/
def LastOnly (p : Pattern) : Prop := NoDollar p ∧ p.text.getLast? = some '\\'

/-- A word for a pattern. -/
def wordOf (p : Pattern) : List Char :=
  match p.matchType, p.isInverse with
  | .fuzzy, false => p.text
  | .fuzzy, true => "!'".toList ++ p.text ++ ['$']
  | .exact, false => '\'' :: p.text ++ ['$']
  | .exact, true => '!' :: p.text
  | .prefixExact, false => '^' :: p.text
  | .prefixExact, true => "!^".toList ++ p.text
  | .suffixExact, false => p.text ++ ['$']
  | .suffixExact, true => '!' :: p.text ++ ['$']
  | .equalExact, false => '^' :: p.text ++ ['$']
  | .equalExact, true => "!^".toList ++ p.text ++ ['$']

/-- The words of a condition. -/
def condWords (c : List Pattern) : List (List Char) := (c.map wordOf).intersperse ['|']

/-- A string for a query: the words of its conditions with their spaces escaped, separated by spaces. -/
def written (cs : List (List Pattern)) : List Char := [' '].intercalate ((cs.flatMap condWords).map escape)

end Norm.Spec
