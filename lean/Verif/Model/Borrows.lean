import Verif.Model.Memory

/-!
# The parser's memory and what is borrowed of it

The functions of `Model/Memory.lean` again, with a record of the shared references that are in use. While a shared
reference is in use the compiler may assume that what it refers to does not change, and programs that write to it have
undefined behaviour; the `transmute`s of `src/metrics/fzf/parser.rs:115,127,273,392` take away the compiler's own check.
Here every write checks that nothing it may touch is borrowed, and is `Res.panic` otherwise. Which part that is depends on
how the code writes: an assignment to an element of a slice (`Words::alloc`, `Patterns::alloc`) touches the element;
`Vec::resize` and an assignment to an element of a `Vec` (which goes through `IndexMut for Vec` and borrows the whole of
it) touch all of the buffer.

Source: `/repo/src/metrics/fzf/parser.rs:87-181`.
-/

namespace Norm

/-- Memory, with the slices of its three kinds of buffers to which there are references in use.
Source: `/repo/src/metrics/fzf/parser.rs:14-23,115,127,135,180,273,392`. -/
structure BHeap where
  heap : Heap
  chars : List Ref
  patterns : List Ref
  conditions : List Ref

/-- Is the element `i` of the allocation `b` part of the slice? Source: `/repo/src/metrics/fzf/parser.rs:388,269`. -/
def Ref.covers (r : Ref) (b i : Nat) : Bool := r.block == b && r.start ≤ i && i < r.start + r.len

/-- Writing one element of a slice: no borrowed slice may have it. Source: `/repo/src/metrics/fzf/parser.rs:204,327`. -/
def assertElement (refs : List Ref) (b i : Nat) : Res Unit := Res.assert (!refs.any (·.covers b i))

/-- Borrowing all of a buffer exclusively: no element of it may be borrowed.
Source: `/repo/src/metrics/fzf/parser.rs:91,103,107,110-111,123,130,176`. -/
def assertBuffer (refs : List Ref) (b : Nat) : Res Unit := Res.assert (!refs.any (fun r => r.block == b && r.len != 0))

namespace WordsR

/-- `/repo/src/metrics/fzf/parser.rs:325-330` `Words::alloc`. -/
def allocB (h : BHeap) (w : WordsR) : List Char → Res (BHeap × WordsR)
  | [] => .ok (h, w)
  | ch :: rest => do
    assertElement h.chars w.buf w.allocated
    let buf ← setR (← Res.unwrap (h.heap.chars w.buf)) w.allocated ch
    allocB { h with heap := h.heap.setChars w.buf buf } { w with allocated := w.allocated + 1 } rest

/-- The `loop` of `/repo/src/metrics/fzf/parser.rs:354-385`. -/
def nextLoopB : (fuel : Nat) → BHeap → WordsR → (s : List Char) → (wordByteEnd : Nat) → Res (BHeap × WordsR × Nat)
  | 0, _, _, _, _ => .panic
  | fuel + 1, h, w, s, wordByteEnd =>
    match memchr 32 (strBytes s) with
    | some 0 => .ok (h, w, wordByteEnd)
    | some offset => do
      if (← getR (strBytes s) (offset - 1)) == 92 then
        let (h, w) ← w.allocB h (← strToR s (offset - 1))
        let (h, w) ← w.allocB h [' ']
        let s ← strFromR s (offset + 1)
        nextLoopB fuel h w s (wordByteEnd + (offset + 1))
      else
        let s ← strToR s offset
        let (h, w) ← w.allocB h s
        return (h, w, wordByteEnd + strLen s)
    | none => do
      let (h, w) ← w.allocB h s
      return (h, w, wordByteEnd + strLen s)

/-- `/repo/src/metrics/fzf/parser.rs:343-395` `Words::next`: the word is borrowed. -/
def nextB (h : BHeap) (w : WordsR) : Res (BHeap × Option Ref × WordsR) :=
  if w.s.isEmpty then .ok (h, none, w)
  else do
    let prevAllocated := w.allocated
    let (h, w, wordByteEnd) ← nextLoopB (w.s.length + 1) h w w.s 0
    let s ← stripLeadingSpaces (← strFromR w.s wordByteEnd)
    let w := { w with s := s }
    let word : Ref := ⟨w.buf, prevAllocated, ← subR w.allocated prevAllocated⟩
    let _ ← readR h.heap.chars word
    return ({ h with chars := word :: h.chars }, some word, w)

end WordsR

namespace PatternsR

/-- `/repo/src/metrics/fzf/parser.rs:203-206` `Patterns::alloc`. -/
def allocB (h : BHeap) (p : PatternsR) (pattern : PatternR) : Res (BHeap × PatternsR) := do
  assertElement h.patterns p.buf p.allocated
  let buf ← setR (← Res.unwrap (h.heap.patterns p.buf)) p.allocated pattern
  return ({ h with heap := h.heap.setPatterns p.buf buf }, { p with allocated := p.allocated + 1 })

/-- The `loop` of `/repo/src/metrics/fzf/parser.rs:242-263`. -/
def nextLoopB (U : Unicode) : (fuel : Nat) → BHeap → PatternsR → (lookingForOr : Bool) → Res (BHeap × PatternsR)
  | 0, _, _, _ => .panic
  | fuel + 1, h, p, lookingForOr => do
    let (h, word?, words) ← p.words.nextB h
    let p := { p with words := words }
    match word? with
    | none => return (h, p)
    | some word =>
      let wordIsCondition := (← readR h.heap.chars word) != ['|']
      if wordIsCondition then
        match ← PatternR.parse U h.heap word with
        | none => nextLoopB U fuel h p lookingForOr
        | some pattern =>
          if lookingForOr then
            return (h, { p with next := some pattern })
          else
            let (h, p) ← p.allocB h pattern
            nextLoopB U fuel h p true
      else
        nextLoopB U fuel h p false

/-- `/repo/src/metrics/fzf/parser.rs:227-276` `Patterns::next`: the condition is borrowed. -/
def nextItemB (U : Unicode) (h : BHeap) (p : PatternsR) : Res (BHeap × Option ConditionR × PatternsR) := do
  let prevAllocated := p.allocated
  let (h, p, lookingForOr) ←
    match p.next with
    | some firstPattern =>
      (do
        let (h, p) ← ({ p with next := none } : PatternsR).allocB h firstPattern
        return (h, p, true) : Res (BHeap × PatternsR × Bool))
    | none => pure (h, p, false)
  let (h, p) ← nextLoopB U (p.words.s.length + 1) h p lookingForOr
  if p.allocated == prevAllocated then
    return (h, none, p)
  else
    let condition : ConditionR := ⟨p.buf, prevAllocated, ← subR p.allocated prevAllocated⟩
    let _ ← readR h.heap.patterns condition
    return ({ h with patterns := condition :: h.patterns }, some condition, p)

end PatternsR

namespace BHeap

/-- What is borrowed of a parser's buffers is no longer in use when the parser is borrowed exclusively or dropped: it was
borrowed for as long as the parser was (`&'a mut self`, `FzfQuery<'a>`, which the compiler checks).
Source: `/repo/src/metrics/fzf/parser.rs:87,172`. -/
def expire (h : BHeap) (P : FzfParserR) : BHeap where
  heap := h.heap
  chars := h.chars.filter (fun r => r.block != P.chars)
  patterns := h.patterns.filter (fun r => r.block != P.patterns)
  conditions := h.conditions.filter (fun r => r.block != P.conditions)

end BHeap

namespace FzfParserR

/-- The `for` loop of `/repo/src/metrics/fzf/parser.rs:122-133`. -/
def parseLoopB (U : Unicode) (conditions : Nat) : (fuel : Nat) → BHeap → PatternsR → (numConditions : Nat) →
    Res (BHeap × Nat)
  | 0, _, _, _ => .panic
  | fuel + 1, h, p, numConditions => do
    let (h, item, p) ← p.nextItemB U h
    match item with
    | none => return (h, numConditions)
    | some condition =>
      assertBuffer h.conditions conditions
      let l ← setR (← Res.unwrap (h.heap.conditions conditions)) numConditions condition
      parseLoopB U conditions fuel { h with heap := h.heap.setConditions conditions l } p (numConditions + 1)

/-- `/repo/src/metrics/fzf/parser.rs:87-136` `FzfParser::parse`: the conditions are borrowed. -/
def parseB (U : Unicode) (h : BHeap) (self : FzfParserR) (moves : Moves) (query : List Char) :
    Res (BHeap × FzfParserR × FzfQueryR) := do
  let h := h.expire self
  let maxChars := strLen query
  let (h, chars) ←
    if (← Res.unwrap (h.heap.chars self.chars)).length < maxChars then
      (do
        assertBuffer h.chars self.chars
        let (heap, chars) ← h.heap.growChars moves.chars self.chars maxChars
        return ({ h with heap := heap }, chars) : Res (BHeap × Nat))
    else pure (h, self.chars)
  let maxConditions := strLen query / 2 + 1
  let (h, conditions) ←
    if (← Res.unwrap (h.heap.conditions self.conditions)).length < maxConditions then
      (do
        assertBuffer h.conditions self.conditions
        let (heap, conditions) ← h.heap.growConditions moves.conditions self.conditions maxConditions
        return ({ h with heap := heap }, conditions) : Res (BHeap × Nat))
    else pure (h, self.conditions)
  let (h, patterns) ←
    if (← Res.unwrap (h.heap.patterns self.patterns)).length < maxConditions then
      (do
        assertBuffer h.patterns self.patterns
        let (heap, patterns) ← h.heap.growPatterns moves.patterns self.patterns maxConditions
        return ({ h with heap := heap }, patterns) : Res (BHeap × Nat))
    else pure (h, self.patterns)
  -- `as_mut_slice` (line 111), `&mut self.chars` (line 123)
  assertBuffer h.patterns patterns
  assertBuffer h.chars chars
  let p ← PatternsR.new patterns chars query
  let (h, numConditions) ← parseLoopB U conditions ((← Res.unwrap (h.heap.patterns patterns)).length + 1) h p 0
  let slice : Ref := ⟨conditions, 0, numConditions⟩
  let _ ← readR h.heap.conditions slice
  let q ← FzfQueryR.newExtended h.heap slice
  return ({ h with conditions := slice :: h.conditions }, ⟨chars, patterns, conditions⟩, q)

/-- The `for` loop of `/repo/src/metrics/fzf/parser.rs:175-178`. -/
def writeCharsB (chars : Nat) : BHeap → List Char → (charLen : Nat) → Res (BHeap × Nat)
  | h, [], charLen => .ok (h, charLen)
  | h, ch :: rest, charLen => do
    assertBuffer h.chars chars
    let l ← setR (← Res.unwrap (h.heap.chars chars)) charLen ch
    writeCharsB chars { h with heap := h.heap.setChars chars l } rest (charLen + 1)

/-- `/repo/src/metrics/fzf/parser.rs:172-181` `FzfParser::parse_not_extended`: the characters are borrowed. -/
def parseNotExtendedB (U : Unicode) (h : BHeap) (self : FzfParserR) (query : List Char) : Res (BHeap × FzfQueryR) := do
  let h := h.expire self
  let (h, charLen) ← writeCharsB self.chars h query 0
  let slice : Ref := ⟨self.chars, 0, charLen⟩
  let q ← FzfQueryR.newNotExtended U h.heap slice
  return ({ h with chars := slice :: h.chars }, q)

end FzfParserR

end Norm
