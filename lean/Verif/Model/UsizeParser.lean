import Verif.Model.Usize

/-!
# Parsing with `usize` offsets and bounded vectors

The functions of `Model/Parser.lean` that add offsets or grow a vector, as in `Model/Usize.lean`.
-/

namespace Norm.Usize

variable (B : Build)

/-- `/repo/src/metrics/fzf/parser.rs:325-330` `Words::alloc`. -/
def wordsAlloc (w : Words) : List Char → Res Words
  | [] => .ok w
  | ch :: rest => do
    let buf ← setR w.buf w.allocated ch
    let allocated ← B.usize (w.allocated + 1)
    wordsAlloc { w with buf := buf, allocated := allocated } rest

/-- The `loop` of `/repo/src/metrics/fzf/parser.rs:354-385`. -/
def wordsNextLoop : (fuel : Nat) → Words → (s : List Char) → (wordByteEnd : Nat) → Res (Words × Nat)
  | 0, _, _, _ => .panic
  | fuel + 1, w, s, wordByteEnd =>
    match memchr 32 (strBytes s) with
    | some 0 => .ok (w, wordByteEnd)
    | some offset => do
      if (← getR (strBytes s) (offset - 1)) == 92 then
        let w ← wordsAlloc B w (← strToR s (offset - 1))
        let w ← wordsAlloc B w [' ']
        let s ← strFromR s (← B.usize (offset + 1))
        let wordByteEnd ← B.usize (wordByteEnd + (← B.usize (offset + 1)))
        wordsNextLoop fuel w s wordByteEnd
      else
        let s ← strToR s offset
        let w ← wordsAlloc B w s
        return (w, ← B.usize (wordByteEnd + strLen s))
    | none => do
      let w ← wordsAlloc B w s
      return (w, ← B.usize (wordByteEnd + strLen s))

/-- `/repo/src/metrics/fzf/parser.rs:343-395` `Words::next`. -/
def wordsNext (w : Words) : Res (Option (List Char) × Words) :=
  if w.s.isEmpty then .ok (none, w)
  else do
    let prevAllocated := w.allocated
    let (w, wordByteEnd) ← wordsNextLoop B (w.s.length + 1) w w.s 0
    let s ← stripLeadingSpaces (← strFromR w.s wordByteEnd)
    let w := { w with s := s }
    let word ← sliceR w.buf prevAllocated w.allocated
    return (some word, w)

/-- `/repo/src/metrics/fzf/parser.rs:203-206` `Patterns::alloc`. -/
def patternsAlloc (p : Patterns) (pattern : Pattern) : Res Patterns := do
  let buf ← setR p.buf p.allocated pattern
  return { p with buf := buf, allocated := ← B.usize (p.allocated + 1) }

/-- The `loop` of `/repo/src/metrics/fzf/parser.rs:242-263`. -/
def patternsNextLoop (U : Unicode) : (fuel : Nat) → Patterns → (lookingForOr : Bool) → Res Patterns
  | 0, _, _ => .panic
  | fuel + 1, p, lookingForOr => do
    let (word?, words) ← wordsNext B p.words
    let p := { p with words := words }
    match word? with
    | none => return p
    | some word =>
      let wordIsCondition := word != ['|']
      if wordIsCondition then
        match ← Pattern.parse U word with
        | none => patternsNextLoop U fuel p lookingForOr
        | some pattern =>
          if lookingForOr then
            return { p with next := some pattern }
          else
            patternsNextLoop U fuel (← patternsAlloc B p pattern) true
      else
        patternsNextLoop U fuel p false

/-- `/repo/src/metrics/fzf/parser.rs:227-276` `Patterns::next`. -/
def patternsNextItem (U : Unicode) (p : Patterns) : Res (Option (List Pattern) × Patterns) := do
  let prevAllocated := p.allocated
  let (p, lookingForOr) ←
    match p.next with
    | some firstPattern =>
      (do return (← patternsAlloc B { p with next := none } firstPattern, true) :
        Res (Patterns × Bool))
    | none => pure (p, false)
  let p ← patternsNextLoop B U (p.words.s.length + 1) p lookingForOr
  if p.allocated == prevAllocated then
    return (none, p)
  else
    return (some (← sliceR p.buf prevAllocated p.allocated), p)

/-- The `for` loop of `/repo/src/metrics/fzf/parser.rs:122-133`. -/
def parseLoop (U : Unicode) : (fuel : Nat) → Patterns → List Condition → (numConditions : Nat) →
    Res (Patterns × List Condition × Nat)
  | 0, _, _, _ => .panic
  | fuel + 1, p, conditions, numConditions => do
    let (item, p) ← patternsNextItem B U p
    match item with
    | none => return (p, conditions, numConditions)
    | some condition =>
      let conditions ← setR conditions numConditions condition
      parseLoop U fuel p conditions (← B.usize (numConditions + 1))

/-- `/repo/src/metrics/fzf/parser.rs:87-136` `FzfParser::parse`. -/
def parse (U : Unicode) (self : FzfParser) (query : List Char) : Res (FzfParser × FzfQuery) := do
  let chars ← B.ensure .char self.chars (strLen query) charDefault
  let maxConditions ← B.usize (strLen query / 2 + 1)
  let conditions ← B.ensure .condition self.conditions maxConditions []
  let patterns ← B.ensure .pattern self.patterns maxConditions Pattern.default
  let p ← Patterns.new patterns chars query
  let (p, conditions, numConditions) ← parseLoop B U (patterns.length + 1) p conditions 0
  let q ← FzfQuery.newExtended (← sliceToR conditions numConditions)
  return ({ chars := p.words.buf, patterns := p.buf, conditions := conditions }, q)

/-- The `for` loop of `/repo/src/metrics/fzf/parser.rs:175-178`. -/
def writeChars (chars : List Char) : List Char → (charLen : Nat) → Res (List Char × Nat)
  | [], charLen => .ok (chars, charLen)
  | ch :: rest, charLen => do
    let chars ← setR chars charLen ch
    writeChars chars rest (← B.usize (charLen + 1))

/-- `/repo/src/metrics/fzf/parser.rs:172-181` `FzfParser::parse_not_extended`. -/
def parseNotExtended (U : Unicode) (self : FzfParser) (query : List Char) :
    Res (FzfParser × FzfQuery) := do
  let (chars, charLen) ← writeChars B self.chars query 0
  return ({ self with chars := chars }, FzfQuery.newNotExtended U (← sliceToR chars charLen))

/-- What `parse` leaves of the parser when it panics because a vector cannot grow (`/repo/src/metrics/fzf/parser.rs:90-108`):
the vectors before it have grown, if they had to. -/
def parseLeaves (self : FzfParser) (query : List Char) : FzfParser :=
  match B.ensure .char self.chars (strLen query) charDefault with
  | .panic => self
  | .ok chars =>
    match (do B.ensure .condition self.conditions (← B.usize (strLen query / 2 + 1)) [] : Res (List Condition)) with
    | .panic => { self with chars := chars }
    | .ok conditions => { self with chars := chars, conditions := conditions }

/-- What the `for` loop of `/repo/src/metrics/fzf/parser.rs:175-178` leaves of the vector when it panics because the vector
ends. -/
def writeCharsLeaves (chars : List Char) : List Char → (charLen : Nat) → List Char
  | [], _ => chars
  | ch :: rest, charLen =>
    match setR chars charLen ch with
    | .panic => chars
    | .ok chars => writeCharsLeaves chars rest (charLen + 1)

/-- What `parse_not_extended` leaves of the parser when it panics, `/repo/src/metrics/fzf/parser.rs:172-181`. -/
def parseNotExtendedLeaves (self : FzfParser) (query : List Char) : FzfParser :=
  { self with chars := writeCharsLeaves self.chars query 0 }

end Norm.Usize
