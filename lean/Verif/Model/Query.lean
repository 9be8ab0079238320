import Verif.Model.Str

/-!
# `src/metrics/fzf/query.rs`
-/

namespace Norm

/-- `/repo/src/metrics/fzf/query.rs:295-311` `MatchType`. -/
inductive MatchType where
  | fuzzy | exact | prefixExact | suffixExact | equalExact
deriving Repr, DecidableEq

/-- `/repo/src/metrics/fzf/query.rs:136-154` `Pattern` (the borrowed `text` slice is held by value). -/
structure Pattern where
  text : List Char
  hasUppercase : Bool
  matchType : MatchType
  isInverse : Bool
  leadingSpaces : Nat
  trailingSpaces : Nat
deriving Repr, DecidableEq

/-- `/repo/src/metrics/fzf/query.rs:134` `#[derive(Default)]` for `Pattern`. -/
def Pattern.default : Pattern := ⟨[], false, .fuzzy, false, 0, 0⟩

/-- `/repo/src/metrics/fzf/query.rs:80-84` `Condition`: its `or_patterns`. -/
abbrev Condition := List Pattern

/-- `/repo/src/metrics/fzf/query.rs:13-20` `SearchMode` (and the wrapper `FzfQuery`, lines 8-10). -/
inductive FzfQuery where
  | extended (conditions : List Condition)
  | notExtended (pattern : Pattern)
deriving Repr, DecidableEq

namespace Pattern

/-- `/repo/src/metrics/fzf/query.rs:166-168` `char_len`. -/
def charLen (p : Pattern) : Nat := p.text.length

/-- `/repo/src/metrics/fzf/query.rs:172-174` `char`. -/
def char (p : Pattern) (idx : Nat) : Res Char := getR p.text idx

/-- `/repo/src/metrics/fzf/query.rs:184-186` `is_empty`. -/
def isEmpty (p : Pattern) : Bool := p.text.isEmpty

/-- `/repo/src/metrics/fzf/query.rs:289-291` `starts_with`. -/
def startsWith (haystack : List Char) (needle : Char) : Bool := haystack.head? == some needle

/-- `/repo/src/metrics/fzf/query.rs:284-286` `ends_with`. -/
def endsWith (haystack : List Char) (needle : Char) : Bool := haystack.getLast? == some needle

/-- `/repo/src/metrics/fzf/query.rs:202-216` `Pattern::raw`. -/
def raw (U : Unicode) (text : List Char) : Pattern where
  text := text
  hasUppercase := text.any U.isUppercase
  matchType := .fuzzy
  isInverse := false
  leadingSpaces := (text.takeWhile (· == ' ')).length
  trailingSpaces := (text.reverse.takeWhile (· == ' ')).length

/-- `/repo/src/metrics/fzf/query.rs:220-274` `Pattern::parse`. -/
def parse (U : Unicode) (text : List Char) : Res (Option Pattern) := do
  Res.assert (!text.isEmpty)
  let (isInverse, matchType, text) ←
    if startsWith text '!' then
      (do return (true, MatchType.exact, ← sliceFromR text 1) : Res (Bool × MatchType × List Char))
    else pure (false, MatchType.fuzzy, text)
  let (matchType, text) ←
    if endsWith text '$' && text.length > 1 then
      (do return (MatchType.suffixExact, ← sliceToR text (text.length - 1)) : Res (MatchType × List Char))
    else pure (matchType, text)
  let (matchType, text) ←
    if startsWith text '\'' then
      (do return (if !isInverse then MatchType.exact else MatchType.fuzzy, ← sliceFromR text 1) :
        Res (MatchType × List Char))
    else if startsWith text '^' then
      (do return (if matchType == .suffixExact then MatchType.equalExact else MatchType.prefixExact,
        ← sliceFromR text 1) : Res (MatchType × List Char))
    else pure (matchType, text)
  if text.isEmpty then
    return none
  else
    return some {
      isInverse := isInverse
      matchType := matchType
      text := text
      hasUppercase := text.any U.isUppercase
      leadingSpaces := (text.takeWhile (· == ' ')).length
      trailingSpaces := (text.reverse.takeWhile (· == ' ')).length }

end Pattern

namespace FzfQuery

/-- `/repo/src/metrics/fzf/query.rs:41-46` `FzfQuery::is_empty`. -/
def isEmpty : FzfQuery → Bool
  | extended conditions => conditions.isEmpty
  | notExtended pattern => pattern.isEmpty

/-- `/repo/src/metrics/fzf/query.rs:50-70` `FzfQuery::new_extended`. -/
def newExtended (conditions : List Condition) : Res FzfQuery := do
  if conditions.length == 1 then
    let patterns ← getR conditions 0
    let firstPattern ← Res.unwrap patterns.head?
    if patterns.tail.isEmpty && firstPattern.matchType == .fuzzy then
      return notExtended firstPattern
    else
      return extended conditions
  else
    return extended conditions

/-- `/repo/src/metrics/fzf/query.rs:74-76` `FzfQuery::new_not_extended`. -/
def newNotExtended (U : Unicode) (chars : List Char) : FzfQuery := notExtended (Pattern.raw U chars)

end FzfQuery

end Norm
