import Verif.Model.Utils
import Verif.Model.Query

/-!
# `src/metrics/fzf/parser.rs`

The parser's buffers are modelled by value: where the Rust code returns a sub-slice of a buffer
(extending its lifetime with `transmute`), the model returns a copy of that sub-slice. This is
faithful because a returned sub-slice is never written again while it is in use: words and patterns
are bump-allocated within one call, and the resulting query mutably borrows the parser. `Model/Memory.lean` has the
slices as references; property C62 is that both come to the same.
-/

namespace Norm

/-- `/repo/src/metrics/fzf/parser.rs:14-23` `FzfParser`. -/
structure FzfParser where
  chars : List Char
  patterns : List Pattern
  conditions : List Condition
deriving Repr, DecidableEq

/-- `char::default()`. Source: `/repo/src/metrics/fzf/parser.rs:29,91`, `/repo/src/metrics/fzf/slab.rs:87,95`. -/
def charDefault : Char := Char.ofNat 0

/-- `/repo/src/metrics/fzf/parser.rs:25-34,46-48` `FzfParser::default`, `FzfParser::new`. -/
def FzfParser.new : FzfParser where
  chars := List.replicate 64 charDefault
  patterns := List.replicate 64 Pattern.default
  conditions := List.replicate 64 []

/-- `/repo/src/metrics/fzf/parser.rs:311-320` `Words`. -/
structure Words where
  buf : List Char
  allocated : Nat
  s : List Char
deriving Repr, DecidableEq

namespace Words

/-- `/repo/src/metrics/fzf/parser.rs:325-330` `Words::alloc`. -/
def alloc (w : Words) : List Char → Res Words
  | [] => .ok w
  | ch :: rest => do
    let buf ← setR w.buf w.allocated ch
    alloc { w with buf := buf, allocated := w.allocated + 1 } rest

/-- `/repo/src/metrics/fzf/parser.rs:334-336` `Words::new`. -/
def new (buf : List Char) (s : List Char) : Res Words := do
  return { buf := buf, s := ← stripLeadingSpaces s, allocated := 0 }

/-- The `loop` of `/repo/src/metrics/fzf/parser.rs:354-385`; returns the iterator and the final
`word_byte_end`. `fuel` bounds the iterations (each one that continues consumes at least two bytes). -/
def nextLoop : (fuel : Nat) → Words → (s : List Char) → (wordByteEnd : Nat) → Res (Words × Nat)
  | 0, _, _, _ => .panic
  | fuel + 1, w, s, wordByteEnd =>
    match memchr 32 (strBytes s) with
    | some 0 => .ok (w, wordByteEnd)
    | some offset => do
      if (← getR (strBytes s) (offset - 1)) == 92 then
        let w ← w.alloc (← strToR s (offset - 1))
        let w ← w.alloc [' ']
        let s ← strFromR s (offset + 1)
        nextLoop fuel w s (wordByteEnd + (offset + 1))
      else
        let s ← strToR s offset
        let w ← w.alloc s
        return (w, wordByteEnd + strLen s)
    | none => do
      let w ← w.alloc s
      return (w, wordByteEnd + strLen s)

/-- `/repo/src/metrics/fzf/parser.rs:343-395` `Words::next`. -/
def next (w : Words) : Res (Option (List Char) × Words) :=
  if w.s.isEmpty then .ok (none, w)
  else do
    let prevAllocated := w.allocated
    let (w, wordByteEnd) ← nextLoop (w.s.length + 1) w w.s 0
    let s ← stripLeadingSpaces (← strFromR w.s wordByteEnd)
    let w := { w with s := s }
    let word ← sliceR w.buf prevAllocated w.allocated
    return (some word, w)

end Words

/-- `/repo/src/metrics/fzf/parser.rs:187-199` `Patterns`. -/
structure Patterns where
  buf : List Pattern
  allocated : Nat
  words : Words
  next : Option Pattern
deriving Repr, DecidableEq

namespace Patterns

/-- `/repo/src/metrics/fzf/parser.rs:203-206` `Patterns::alloc`. -/
def alloc (p : Patterns) (pattern : Pattern) : Res Patterns := do
  return { p with buf := ← setR p.buf p.allocated pattern, allocated := p.allocated + 1 }

/-- `/repo/src/metrics/fzf/parser.rs:209-220` `Patterns::new`. -/
def new (patternsBuf : List Pattern) (charBuf : List Char) (s : List Char) : Res Patterns := do
  return { buf := patternsBuf, allocated := 0, words := ← Words.new charBuf s, next := none }

/-- The `loop` of `/repo/src/metrics/fzf/parser.rs:242-263`. `fuel` bounds the iterations (each one
consumes at least one character of `words.s`). -/
def nextLoop (U : Unicode) : (fuel : Nat) → Patterns → (lookingForOr : Bool) → Res Patterns
  | 0, _, _ => .panic
  | fuel + 1, p, lookingForOr => do
    let (word?, words) ← p.words.next
    let p := { p with words := words }
    match word? with
    | none => return p
    | some word =>
      -- `OR_BLOCK_SEPARATOR`, line 184
      let wordIsCondition := word != ['|']
      if wordIsCondition then
        match ← Pattern.parse U word with
        | none => nextLoop U fuel p lookingForOr
        | some pattern =>
          if lookingForOr then
            return { p with next := some pattern }
          else
            nextLoop U fuel (← p.alloc pattern) true
      else
        nextLoop U fuel p false

/-- `/repo/src/metrics/fzf/parser.rs:227-276` `Patterns::next`. -/
def nextItem (U : Unicode) (p : Patterns) : Res (Option (List Pattern) × Patterns) := do
  let prevAllocated := p.allocated
  let (p, lookingForOr) ←
    match p.next with
    | some firstPattern =>
      (do return (← ({ p with next := none } : Patterns).alloc firstPattern, true) :
        Res (Patterns × Bool))
    | none => pure (p, false)
  let p ← nextLoop U (p.words.s.length + 1) p lookingForOr
  if p.allocated == prevAllocated then
    return (none, p)
  else
    return (some (← sliceR p.buf prevAllocated p.allocated), p)

end Patterns

namespace FzfParser

/-- The `for` loop of `/repo/src/metrics/fzf/parser.rs:122-133`. `fuel` bounds the iterations (each
one allocates at least one pattern, and the pattern buffer is finite). -/
def parseLoop (U : Unicode) : (fuel : Nat) → Patterns → List Condition → (numConditions : Nat) →
    Res (Patterns × List Condition × Nat)
  | 0, _, _, _ => .panic
  | fuel + 1, p, conditions, numConditions => do
    let (item, p) ← p.nextItem U
    match item with
    | none => return (p, conditions, numConditions)
    | some condition =>
      let conditions ← setR conditions numConditions condition
      parseLoop U fuel p conditions (numConditions + 1)

/-- `/repo/src/metrics/fzf/parser.rs:87-136` `FzfParser::parse`. -/
def parse (U : Unicode) (self : FzfParser) (query : List Char) : Res (FzfParser × FzfQuery) := do
  let maxChars := strLen query
  let chars := if self.chars.length < maxChars then resize self.chars maxChars charDefault else self.chars
  let maxConditions := strLen query / 2 + 1
  let conditions :=
    if self.conditions.length < maxConditions then resize self.conditions maxConditions []
    else self.conditions
  let patterns :=
    if self.patterns.length < maxConditions then resize self.patterns maxConditions Pattern.default
    else self.patterns
  let p ← Patterns.new patterns chars query
  let (p, conditions, numConditions) ← parseLoop U (patterns.length + 1) p conditions 0
  let q ← FzfQuery.newExtended (← sliceToR conditions numConditions)
  return ({ chars := p.words.buf, patterns := p.buf, conditions := conditions }, q)

/-- The `for` loop of `/repo/src/metrics/fzf/parser.rs:175-178`. -/
def writeChars (chars : List Char) : List Char → (charLen : Nat) → Res (List Char × Nat)
  | [], charLen => .ok (chars, charLen)
  | ch :: rest, charLen => do
    let chars ← setR chars charLen ch
    writeChars chars rest (charLen + 1)

/-- `/repo/src/metrics/fzf/parser.rs:172-181` `FzfParser::parse_not_extended`. -/
def parseNotExtended (U : Unicode) (self : FzfParser) (query : List Char) :
    Res (FzfParser × FzfQuery) := do
  let (chars, charLen) ← writeChars self.chars query 0
  return ({ self with chars := chars }, FzfQuery.newNotExtended U (← sliceToR chars charLen))

end FzfParser

/-- `/repo/src/metrics/fzf/parser.rs:566-575` `words` (test-only public helper): all the words of a
string. `fuel` bounds the number of words. -/
def wordsCollect : (fuel : Nat) → Words → Res (List (List Char))
  | 0, _ => .panic
  | fuel + 1, w => do
    let (word?, w) ← w.next
    match word? with
    | none => return []
    | some word => return word :: (← wordsCollect fuel w)

/-- The words of a string, `/repo/src/metrics/fzf/parser.rs:566-575`. -/
def wordsOf (s : List Char) : Res (List (List Char)) := do
  wordsCollect (s.length + 1) (← Words.new (List.replicate (strLen s) charDefault) s)

end Norm
