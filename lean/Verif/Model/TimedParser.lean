import Verif.Model.Parser
import Verif.Model.Timed

/-!
# The parser again, counting steps

`Verif.Model.Parser`, counting one step for each byte or character of the string looked at, each character, pattern or condition
written, and each element of a buffer that is made longer (old or new). `C72_result` proves that these functions return what those of
`Verif.Model.Parser` return. -/

namespace Norm

namespace Timed

/-- `/repo/src/utils.rs:48-50,64-66` `strip_leading_spaces`. -/
def stripSpaces (s : List Char) : Timed (List Char) := do
  let n ← countWhile (· == 32) (strBytes s)
  free (strFromR s n)

/-- `/repo/src/metrics/fzf/parser.rs:325-330` `Words::alloc`. -/
def wordsAlloc (w : Words) : List Char → Timed Words
  | [] => pure w
  | ch :: rest => do
    tick 1
    let buf ← set w.buf w.allocated ch
    wordsAlloc { w with buf := buf, allocated := w.allocated + 1 } rest

/-- `/repo/src/metrics/fzf/parser.rs:334-336` `Words::new`. -/
def wordsNew (buf : List Char) (s : List Char) : Timed Words := do
  let s ← stripSpaces s
  return { buf := buf, s := s, allocated := 0 }

/-- The `loop` of `/repo/src/metrics/fzf/parser.rs:354-385`. -/
def wordsNextLoop : (fuel : Nat) → Words → (s : List Char) → (wordByteEnd : Nat) → Timed (Words × Nat)
  | 0, _, _, _ => free .panic
  | fuel + 1, w, s, wordByteEnd => do
    let space ← findIdx (· == 32) (strBytes s)
    match space with
    | some 0 => return (w, wordByteEnd)
    | some offset => do
      let before ← get (strBytes s) (offset - 1)
      if before == 92 then do
        let word ← free (strToR s (offset - 1))
        let w ← wordsAlloc w word
        let w ← wordsAlloc w [' ']
        let s ← free (strFromR s (offset + 1))
        wordsNextLoop fuel w s (wordByteEnd + (offset + 1))
      else do
        let s ← free (strToR s offset)
        let w ← wordsAlloc w s
        return (w, wordByteEnd + strLen s)
    | none => do
      let w ← wordsAlloc w s
      return (w, wordByteEnd + strLen s)

/-- `/repo/src/metrics/fzf/parser.rs:343-395` `Words::next`. -/
def wordsNext (w : Words) : Timed (Option (List Char) × Words) :=
  if w.s.isEmpty then pure (none, w)
  else do
    let prevAllocated := w.allocated
    let (w, wordByteEnd) ← wordsNextLoop (w.s.length + 1) w w.s 0
    let s ← free (strFromR w.s wordByteEnd)
    let s ← stripSpaces s
    let w := { w with s := s }
    let word ← free (sliceR w.buf prevAllocated w.allocated)
    return (some word, w)

/-- The three passes over a pattern's text, `/repo/src/metrics/fzf/query.rs:203-211,257-262`. -/
def scanText (U : Unicode) (text : List Char) : Timed (Bool × Nat × Nat) := do
  let upper ← findIdx U.isUppercase text
  let leadingSpaces ← countWhile (· == ' ') text
  let trailingSpaces ← countWhile (· == ' ') text.reverse
  return (upper.isSome, leadingSpaces, trailingSpaces)

/-- `/repo/src/metrics/fzf/query.rs:202-216` `Pattern::raw`. -/
def patternRaw (U : Unicode) (text : List Char) : Timed Pattern := do
  let (hasUppercase, leadingSpaces, trailingSpaces) ← scanText U text
  return {
    text := text
    hasUppercase := hasUppercase
    matchType := .fuzzy
    isInverse := false
    leadingSpaces := leadingSpaces
    trailingSpaces := trailingSpaces }

/-- `/repo/src/metrics/fzf/query.rs:220-274` `Pattern::parse`. At most four characters are compared with the special ones. -/
def patternParse (U : Unicode) (text : List Char) : Timed (Option Pattern) := do
  free (Res.assert (!text.isEmpty))
  tick 4
  let (isInverse, matchType, text) ← free (
    if Pattern.startsWith text '!' then
      (do return (true, MatchType.exact, ← sliceFromR text 1) : Res (Bool × MatchType × List Char))
    else pure (false, MatchType.fuzzy, text))
  let (matchType, text) ← free (
    if Pattern.endsWith text '$' && text.length > 1 then
      (do return (MatchType.suffixExact, ← sliceToR text (text.length - 1)) : Res (MatchType × List Char))
    else pure (matchType, text))
  let (matchType, text) ← free (
    if Pattern.startsWith text '\'' then
      (do return (if !isInverse then MatchType.exact else MatchType.fuzzy, ← sliceFromR text 1) :
        Res (MatchType × List Char))
    else if Pattern.startsWith text '^' then
      (do return (if matchType == .suffixExact then MatchType.equalExact else MatchType.prefixExact,
        ← sliceFromR text 1) : Res (MatchType × List Char))
    else pure (matchType, text))
  if text.isEmpty then
    return none
  else do
    let (hasUppercase, leadingSpaces, trailingSpaces) ← scanText U text
    return some {
      isInverse := isInverse
      matchType := matchType
      text := text
      hasUppercase := hasUppercase
      leadingSpaces := leadingSpaces
      trailingSpaces := trailingSpaces }

/-- `/repo/src/metrics/fzf/parser.rs:203-206` `Patterns::alloc`. -/
def patternsAlloc (p : Patterns) (pattern : Pattern) : Timed Patterns := do
  let buf ← set p.buf p.allocated pattern
  return { p with buf := buf, allocated := p.allocated + 1 }

/-- The `loop` of `/repo/src/metrics/fzf/parser.rs:242-263`. -/
def patternsNextLoop (U : Unicode) : (fuel : Nat) → Patterns → (lookingForOr : Bool) → Timed Patterns
  | 0, _, _ => free .panic
  | fuel + 1, p, lookingForOr => do
    let (word?, words) ← wordsNext p.words
    match word? with
    | none => return { p with words := words }
    | some word => do
      tick 1
      if word != ['|'] then do
        let pattern? ← patternParse U word
        match pattern? with
        | none => patternsNextLoop U fuel { p with words := words } lookingForOr
        | some pattern =>
          if lookingForOr then
            return { p with words := words, next := some pattern }
          else do
            let p ← patternsAlloc { p with words := words } pattern
            patternsNextLoop U fuel p true
      else
        patternsNextLoop U fuel { p with words := words } false

/-- `/repo/src/metrics/fzf/parser.rs:227-276` `Patterns::next`. -/
def patternsNext (U : Unicode) (p : Patterns) : Timed (Option (List Pattern) × Patterns) := do
  let prevAllocated := p.allocated
  let (p, lookingForOr) ←
    match p.next with
    | some firstPattern =>
      (do
        let p ← patternsAlloc { p with next := none } firstPattern
        return (p, true) : Timed (Patterns × Bool))
    | none => pure (p, false)
  let p ← patternsNextLoop U (p.words.s.length + 1) p lookingForOr
  if p.allocated == prevAllocated then
    return (none, p)
  else do
    let patterns ← free (sliceR p.buf prevAllocated p.allocated)
    return (some patterns, p)

/-- The `for` loop of `/repo/src/metrics/fzf/parser.rs:122-133`. -/
def parseLoop (U : Unicode) : (fuel : Nat) → Patterns → List Condition → (numConditions : Nat) →
    Timed (Patterns × List Condition × Nat)
  | 0, _, _, _ => free .panic
  | fuel + 1, p, conditions, numConditions => do
    let (item, p) ← patternsNext U p
    match item with
    | none => return (p, conditions, numConditions)
    | some condition => do
      let conditions ← set conditions numConditions condition
      parseLoop U fuel p conditions (numConditions + 1)

/-- The `for` loop of `/repo/src/metrics/fzf/parser.rs:175-178`. -/
def writeChars (chars : List Char) : List Char → (charLen : Nat) → Timed (List Char × Nat)
  | [], charLen => pure (chars, charLen)
  | ch :: rest, charLen => do
    tick 1
    let chars ← set chars charLen ch
    writeChars chars rest (charLen + 1)

end Timed

namespace FzfParser
open Timed

/-- `/repo/src/metrics/fzf/parser.rs:87-136` `FzfParser::parse`. `FzfQuery::new_extended` looks at two patterns at most. -/
def timedParse (U : Unicode) (self : FzfParser) (query : List Char) : Timed (FzfParser × FzfQuery) := do
  let maxConditions := strLen query / 2 + 1
  let chars ← grow self.chars (strLen query) charDefault
  let conditions ← grow self.conditions maxConditions []
  let patterns ← grow self.patterns maxConditions Pattern.default
  let words ← wordsNew chars query
  let (p, conditions, numConditions) ← Timed.parseLoop U (patterns.length + 1)
    { buf := patterns, allocated := 0, words := words, next := none } conditions 0
  let conditions' ← free (sliceToR conditions numConditions)
  tick 2
  let q ← free (FzfQuery.newExtended conditions')
  return ({ chars := p.words.buf, patterns := p.buf, conditions := conditions }, q)

/-- `/repo/src/metrics/fzf/parser.rs:172-181` `FzfParser::parse_not_extended`. -/
def timedParseNotExtended (U : Unicode) (self : FzfParser) (query : List Char) : Timed (FzfParser × FzfQuery) := do
  let (chars, charLen) ← Timed.writeChars self.chars query 0
  let text ← free (sliceToR chars charLen)
  let pattern ← patternRaw U text
  return ({ self with chars := chars }, .notExtended pattern)

end FzfParser

end Norm
