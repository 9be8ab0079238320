import Verif.Model.Parser

/-!
# The parser's memory

`Model/Parser.lean` holds slices by value. Here the parser of `src/metrics/fzf/parser.rs` and the constructors of
`src/metrics/fzf/query.rs` are modelled again with references, as the code has them: a slice is a reference into an
allocation, its lifetime is whatever the `transmute`s say (lines 115, 127, 273, 392), buffers are reused, and growing one
frees its old allocation. Reading through a reference that is dangling or out of bounds is `Res.panic`.
-/

namespace Norm

/-- A reference to a slice: the allocation it points into, and which part of it.
Source: `/repo/src/metrics/fzf/query.rs:15-20,82-84,138`. -/
structure Ref where
  block : Nat
  start : Nat
  len : Nat
deriving Repr, DecidableEq

/-- `/repo/src/metrics/fzf/query.rs:136-154` `Pattern`, with its `text` a reference. -/
structure PatternR where
  text : Ref
  hasUppercase : Bool
  matchType : MatchType
  isInverse : Bool
  leadingSpaces : Nat
  trailingSpaces : Nat
deriving Repr, DecidableEq

/-- `/repo/src/metrics/fzf/query.rs:80-84` `Condition`: a reference to its `or_patterns`. -/
abbrev ConditionR := Ref

/-- `/repo/src/metrics/fzf/query.rs:13-20` `SearchMode`. -/
inductive FzfQueryR where
  | extended (conditions : Ref)
  | notExtended (pattern : PatternR)
deriving Repr, DecidableEq

/-- Memory: the allocations of `Vec<char>`s, `Vec<Pattern>`s and `Vec<Condition>`s by number (`none`: freed, or never
allocated). Numbers from `next` on have not been used. Source: `/repo/src/metrics/fzf/parser.rs:14-23`. -/
structure Heap where
  chars : Nat → Option (List Char)
  patterns : Nat → Option (List PatternR)
  conditions : Nat → Option (List ConditionR)
  next : Nat

/-- The empty slice, `&[]`. Source: `/repo/src/metrics/fzf/query.rs:80,134`. -/
def Ref.empty : Ref := ⟨0, 0, 0⟩

/-- `/repo/src/metrics/fzf/query.rs:134` `#[derive(Default)]` for `Pattern`. -/
def PatternR.default : PatternR := ⟨.empty, false, .fuzzy, false, 0, 0⟩

/-- `&r[a..]`. Source: `/repo/src/metrics/fzf/query.rs:230,242,250`. -/
def Ref.fromR (r : Ref) (a : Nat) : Res Ref := if a ≤ r.len then .ok ⟨r.block, r.start + a, r.len - a⟩ else .panic

/-- `&r[..b]`. Source: `/repo/src/metrics/fzf/query.rs:235`, `/repo/src/metrics/fzf/parser.rs:135,180`. -/
def Ref.toR (r : Ref) (b : Nat) : Res Ref := if b ≤ r.len then .ok ⟨r.block, r.start, b⟩ else .panic

/-- Reading the contents of a slice. Source: `/repo/src/metrics/fzf/query.rs:172-174`. -/
def readR {α : Type} (m : Nat → Option (List α)) (r : Ref) : Res (List α) := do
  let l ← Res.unwrap (m r.block)
  sliceR l r.start (r.start + r.len)

/-- Writing an allocation. Source: `/repo/src/metrics/fzf/parser.rs:203-206,325-330`. -/
def update {α : Type} (m : Nat → Option α) (b : Nat) (x : Option α) : Nat → Option α := fun i => if i = b then x else m i

namespace Heap

/-- Memory at the start of the program. Source: `/repo/src/metrics/fzf/parser.rs:14-23`. -/
def init : Heap := ⟨fun _ => none, fun _ => none, fun _ => none, 0⟩

/-- Writing the `Vec<char>` of a parser, `/repo/src/metrics/fzf/parser.rs:325-330`. -/
def setChars (h : Heap) (b : Nat) (l : List Char) : Heap := { h with chars := update h.chars b (some l) }
/-- Writing the `Vec<Pattern>` of a parser, `/repo/src/metrics/fzf/parser.rs:203-206`. -/
def setPatterns (h : Heap) (b : Nat) (l : List PatternR) : Heap := { h with patterns := update h.patterns b (some l) }
/-- Writing the `Vec<Condition>` of a parser, `/repo/src/metrics/fzf/parser.rs:130-132`. -/
def setConditions (h : Heap) (b : Nat) (l : List ConditionR) : Heap :=
  { h with conditions := update h.conditions b (some l) }

/-- `self.chars.resize(len, char::default())`. If `moves`, the elements are moved to a new allocation and the old one
is freed. Returns where the elements are now. Source: `/repo/src/metrics/fzf/parser.rs:90-92`. -/
def growChars (h : Heap) (moves : Bool) (b len : Nat) : Res (Heap × Nat) := do
  let l ← Res.unwrap (h.chars b)
  let l := resize l len charDefault
  if moves then
    return ({ h with chars := update (update h.chars b none) h.next (some l), next := h.next + 1 }, h.next)
  else return (h.setChars b l, b)

/-- As `growChars`, for the patterns, `/repo/src/metrics/fzf/parser.rs:106-108`. -/
def growPatterns (h : Heap) (moves : Bool) (b len : Nat) : Res (Heap × Nat) := do
  let l ← Res.unwrap (h.patterns b)
  let l := resize l len PatternR.default
  if moves then
    return ({ h with patterns := update (update h.patterns b none) h.next (some l), next := h.next + 1 }, h.next)
  else return (h.setPatterns b l, b)

/-- As `growChars`, for the conditions, `/repo/src/metrics/fzf/parser.rs:102-104`. -/
def growConditions (h : Heap) (moves : Bool) (b len : Nat) : Res (Heap × Nat) := do
  let l ← Res.unwrap (h.conditions b)
  let l := resize l len Ref.empty
  if moves then
    return ({ h with conditions := update (update h.conditions b none) h.next (some l), next := h.next + 1 }, h.next)
  else return (h.setConditions b l, b)

end Heap

/-- `/repo/src/metrics/fzf/parser.rs:311-320` `Words`; `buf` is the allocation of the characters. -/
structure WordsR where
  buf : Nat
  allocated : Nat
  s : List Char
deriving Repr, DecidableEq

namespace WordsR

/-- `/repo/src/metrics/fzf/parser.rs:325-330` `Words::alloc`. -/
def alloc (h : Heap) (w : WordsR) : List Char → Res (Heap × WordsR)
  | [] => .ok (h, w)
  | ch :: rest => do
    let buf ← setR (← Res.unwrap (h.chars w.buf)) w.allocated ch
    alloc (h.setChars w.buf buf) { w with allocated := w.allocated + 1 } rest

/-- `/repo/src/metrics/fzf/parser.rs:334-336` `Words::new`. -/
def new (buf : Nat) (s : List Char) : Res WordsR := do
  return { buf := buf, s := ← stripLeadingSpaces s, allocated := 0 }

/-- The `loop` of `/repo/src/metrics/fzf/parser.rs:354-385`. -/
def nextLoop : (fuel : Nat) → Heap → WordsR → (s : List Char) → (wordByteEnd : Nat) → Res (Heap × WordsR × Nat)
  | 0, _, _, _, _ => .panic
  | fuel + 1, h, w, s, wordByteEnd =>
    match memchr 32 (strBytes s) with
    | some 0 => .ok (h, w, wordByteEnd)
    | some offset => do
      if (← getR (strBytes s) (offset - 1)) == 92 then
        let (h, w) ← w.alloc h (← strToR s (offset - 1))
        let (h, w) ← w.alloc h [' ']
        let s ← strFromR s (offset + 1)
        nextLoop fuel h w s (wordByteEnd + (offset + 1))
      else
        let s ← strToR s offset
        let (h, w) ← w.alloc h s
        return (h, w, wordByteEnd + strLen s)
    | none => do
      let (h, w) ← w.alloc h s
      return (h, w, wordByteEnd + strLen s)

/-- `/repo/src/metrics/fzf/parser.rs:343-395` `Words::next`. The word is a reference into the buffer (line 392: its
lifetime is not that of the borrow of `self`). -/
def next (h : Heap) (w : WordsR) : Res (Heap × Option Ref × WordsR) :=
  if w.s.isEmpty then .ok (h, none, w)
  else do
    let prevAllocated := w.allocated
    let (h, w, wordByteEnd) ← nextLoop (w.s.length + 1) h w w.s 0
    let s ← stripLeadingSpaces (← strFromR w.s wordByteEnd)
    let w := { w with s := s }
    let word : Ref := ⟨w.buf, prevAllocated, ← subR w.allocated prevAllocated⟩
    -- the bounds check of the slicing
    let _ ← readR h.chars word
    return (h, some word, w)

end WordsR

namespace PatternR

/-- `/repo/src/metrics/fzf/query.rs:202-216` `Pattern::raw`. -/
def raw (U : Unicode) (h : Heap) (text : Ref) : Res PatternR := do
  let t ← readR h.chars text
  return {
    text := text
    hasUppercase := t.any U.isUppercase
    matchType := .fuzzy
    isInverse := false
    leadingSpaces := (t.takeWhile (· == ' ')).length
    trailingSpaces := (t.reverse.takeWhile (· == ' ')).length }

/-- `/repo/src/metrics/fzf/query.rs:220-274` `Pattern::parse`. -/
def parse (U : Unicode) (h : Heap) (text : Ref) : Res (Option PatternR) := do
  Res.assert (text.len != 0)
  let (isInverse, matchType, text) ←
    if Pattern.startsWith (← readR h.chars text) '!' then
      (do return (true, MatchType.exact, ← text.fromR 1) : Res (Bool × MatchType × Ref))
    else pure (false, MatchType.fuzzy, text)
  let (matchType, text) ←
    if Pattern.endsWith (← readR h.chars text) '$' && text.len > 1 then
      (do return (MatchType.suffixExact, ← text.toR (text.len - 1)) : Res (MatchType × Ref))
    else pure (matchType, text)
  let (matchType, text) ←
    if Pattern.startsWith (← readR h.chars text) '\'' then
      (do return (if !isInverse then MatchType.exact else MatchType.fuzzy, ← text.fromR 1) : Res (MatchType × Ref))
    else if Pattern.startsWith (← readR h.chars text) '^' then
      (do return (if matchType == .suffixExact then MatchType.equalExact else MatchType.prefixExact,
        ← text.fromR 1) : Res (MatchType × Ref))
    else pure (matchType, text)
  if text.len == 0 then
    return none
  else
    let t ← readR h.chars text
    return some {
      isInverse := isInverse
      matchType := matchType
      text := text
      hasUppercase := t.any U.isUppercase
      leadingSpaces := (t.takeWhile (· == ' ')).length
      trailingSpaces := (t.reverse.takeWhile (· == ' ')).length }

end PatternR

namespace FzfQueryR

/-- `/repo/src/metrics/fzf/query.rs:50-70` `FzfQuery::new_extended`. -/
def newExtended (h : Heap) (conditions : Ref) : Res FzfQueryR := do
  if conditions.len == 1 then
    let patterns ← readR h.patterns (← getR (← readR h.conditions conditions) 0)
    let firstPattern ← Res.unwrap patterns.head?
    if patterns.tail.isEmpty && firstPattern.matchType == .fuzzy then
      return notExtended firstPattern
    else
      return extended conditions
  else
    return extended conditions

/-- `/repo/src/metrics/fzf/query.rs:74-76` `FzfQuery::new_not_extended`. -/
def newNotExtended (U : Unicode) (h : Heap) (chars : Ref) : Res FzfQueryR := do
  return notExtended (← PatternR.raw U h chars)

end FzfQueryR

/-- `/repo/src/metrics/fzf/parser.rs:187-199` `Patterns`; `buf` is the allocation of the patterns. -/
structure PatternsR where
  buf : Nat
  allocated : Nat
  words : WordsR
  next : Option PatternR
deriving Repr, DecidableEq

namespace PatternsR

/-- `/repo/src/metrics/fzf/parser.rs:203-206` `Patterns::alloc`. -/
def alloc (h : Heap) (p : PatternsR) (pattern : PatternR) : Res (Heap × PatternsR) := do
  let buf ← setR (← Res.unwrap (h.patterns p.buf)) p.allocated pattern
  return (h.setPatterns p.buf buf, { p with allocated := p.allocated + 1 })

/-- `/repo/src/metrics/fzf/parser.rs:209-220` `Patterns::new`. -/
def new (patternsBuf charBuf : Nat) (s : List Char) : Res PatternsR := do
  return { buf := patternsBuf, allocated := 0, words := ← WordsR.new charBuf s, next := none }

/-- The `loop` of `/repo/src/metrics/fzf/parser.rs:242-263`. -/
def nextLoop (U : Unicode) : (fuel : Nat) → Heap → PatternsR → (lookingForOr : Bool) → Res (Heap × PatternsR)
  | 0, _, _, _ => .panic
  | fuel + 1, h, p, lookingForOr => do
    let (h, word?, words) ← p.words.next h
    let p := { p with words := words }
    match word? with
    | none => return (h, p)
    | some word =>
      let wordIsCondition := (← readR h.chars word) != ['|']
      if wordIsCondition then
        match ← PatternR.parse U h word with
        | none => nextLoop U fuel h p lookingForOr
        | some pattern =>
          if lookingForOr then
            return (h, { p with next := some pattern })
          else
            let (h, p) ← p.alloc h pattern
            nextLoop U fuel h p true
      else
        nextLoop U fuel h p false

/-- `/repo/src/metrics/fzf/parser.rs:227-276` `Patterns::next`. The condition is a reference into the buffer (line 273).
-/
def nextItem (U : Unicode) (h : Heap) (p : PatternsR) : Res (Heap × Option ConditionR × PatternsR) := do
  let prevAllocated := p.allocated
  let (h, p, lookingForOr) ←
    match p.next with
    | some firstPattern =>
      (do
        let (h, p) ← ({ p with next := none } : PatternsR).alloc h firstPattern
        return (h, p, true) : Res (Heap × PatternsR × Bool))
    | none => pure (h, p, false)
  let (h, p) ← nextLoop U (p.words.s.length + 1) h p lookingForOr
  if p.allocated == prevAllocated then
    return (h, none, p)
  else
    let condition : ConditionR := ⟨p.buf, prevAllocated, ← subR p.allocated prevAllocated⟩
    -- the bounds check of the slicing
    let _ ← readR h.patterns condition
    return (h, some condition, p)

end PatternsR

/-- `/repo/src/metrics/fzf/parser.rs:14-23` `FzfParser`: the allocations of its three `Vec`s. -/
structure FzfParserR where
  chars : Nat
  patterns : Nat
  conditions : Nat
deriving Repr, DecidableEq

/-- Which of the three `Vec`s are moved, should they have to grow. Source: `/repo/src/metrics/fzf/parser.rs:90-108`. -/
structure Moves where
  chars : Bool
  conditions : Bool
  patterns : Bool

namespace FzfParserR

/-- `/repo/src/metrics/fzf/parser.rs:25-34,46-48` `FzfParser::default`, `FzfParser::new`. -/
def new (h : Heap) : Heap × FzfParserR :=
  ({ chars := update h.chars h.next (some (List.replicate 64 charDefault))
     patterns := update h.patterns h.next (some (List.replicate 64 PatternR.default))
     conditions := update h.conditions h.next (some (List.replicate 64 Ref.empty))
     next := h.next + 1 }, ⟨h.next, h.next, h.next⟩)

/-- `/repo/src/metrics/fzf/parser.rs:13` `#[derive(Clone)]`: the `Vec`s are copied element by element, so the references
in them are, too. -/
def clone (h : Heap) (self : FzfParserR) : Res (Heap × FzfParserR) := do
  let chars ← Res.unwrap (h.chars self.chars)
  let patterns ← Res.unwrap (h.patterns self.patterns)
  let conditions ← Res.unwrap (h.conditions self.conditions)
  return ({ chars := update h.chars h.next (some chars)
            patterns := update h.patterns h.next (some patterns)
            conditions := update h.conditions h.next (some conditions)
            next := h.next + 1 }, ⟨h.next, h.next, h.next⟩)

/-- Dropping a parser frees its `Vec`s. Source: `/repo/src/metrics/fzf/parser.rs:14-23`. -/
def drop (h : Heap) (self : FzfParserR) : Heap :=
  { h with
    chars := update h.chars self.chars none
    patterns := update h.patterns self.patterns none
    conditions := update h.conditions self.conditions none }

/-- The `for` loop of `/repo/src/metrics/fzf/parser.rs:122-133`. -/
def parseLoop (U : Unicode) (conditions : Nat) : (fuel : Nat) → Heap → PatternsR → (numConditions : Nat) →
    Res (Heap × Nat)
  | 0, _, _, _ => .panic
  | fuel + 1, h, p, numConditions => do
    let (h, item, p) ← p.nextItem U h
    match item with
    | none => return (h, numConditions)
    | some condition =>
      let l ← setR (← Res.unwrap (h.conditions conditions)) numConditions condition
      parseLoop U conditions fuel (h.setConditions conditions l) p (numConditions + 1)

/-- `/repo/src/metrics/fzf/parser.rs:87-136` `FzfParser::parse`. -/
def parse (U : Unicode) (h : Heap) (self : FzfParserR) (moves : Moves) (query : List Char) :
    Res (Heap × FzfParserR × FzfQueryR) := do
  let maxChars := strLen query
  let (h, chars) ←
    if (← Res.unwrap (h.chars self.chars)).length < maxChars then h.growChars moves.chars self.chars maxChars
    else pure (h, self.chars)
  let maxConditions := strLen query / 2 + 1
  let (h, conditions) ←
    if (← Res.unwrap (h.conditions self.conditions)).length < maxConditions then
      h.growConditions moves.conditions self.conditions maxConditions
    else pure (h, self.conditions)
  let (h, patterns) ←
    if (← Res.unwrap (h.patterns self.patterns)).length < maxConditions then
      h.growPatterns moves.patterns self.patterns maxConditions
    else pure (h, self.patterns)
  let p ← PatternsR.new patterns chars query
  let (h, numConditions) ← parseLoop U conditions ((← Res.unwrap (h.patterns patterns)).length + 1) h p 0
  let slice : Ref := ⟨conditions, 0, numConditions⟩
  let _ ← readR h.conditions slice
  let q ← FzfQueryR.newExtended h slice
  return (h, ⟨chars, patterns, conditions⟩, q)

/-- The `for` loop of `/repo/src/metrics/fzf/parser.rs:175-178`. -/
def writeChars (chars : Nat) : Heap → List Char → (charLen : Nat) → Res (Heap × Nat)
  | h, [], charLen => .ok (h, charLen)
  | h, ch :: rest, charLen => do
    let l ← setR (← Res.unwrap (h.chars chars)) charLen ch
    writeChars chars (h.setChars chars l) rest (charLen + 1)

/-- `/repo/src/metrics/fzf/parser.rs:172-181` `FzfParser::parse_not_extended`. -/
def parseNotExtended (U : Unicode) (h : Heap) (self : FzfParserR) (query : List Char) : Res (Heap × FzfQueryR) := do
  let (h, charLen) ← writeChars self.chars h query 0
  return (h, ← FzfQueryR.newNotExtended U h ⟨self.chars, 0, charLen⟩)

end FzfParserR

end Norm
