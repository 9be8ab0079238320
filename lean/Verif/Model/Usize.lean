import Verif.Model.Metric

/-!
# The same code with `usize` offsets and bounded vectors

The main model computes offsets, lengths and cell numbers in unbounded natural numbers, and lets vectors grow without
bound. In the code they are `usize`: a sum or a product that does not fit panics in a debug build and wraps around in a
release build, a difference below zero likewise, `debug_assert!` is compiled only into a debug build, and a `Vec` that
would get too long panics ("capacity overflow"; running out of memory aborts). The functions below repeat every function
of the main model that does one of those things, for any width of `usize`, either build, and any limits on the lengths of
vectors. C78 and C79 compare them with the main model.

What is taken as it is: the functions that do none of it; the position an iterator has reached (`enumerate`, `count`, the
columns `a..b` of a `for` loop), which is at most the length of what it iterates over; `x - 1` under a test that `x` is
not zero; and the arithmetic on scores, which are `i64` and the subject of `Model/Checked.lean` and C42. The `Debug`
implementations are not repeated.
-/

namespace Norm.Usize

/-- What the vectors of the library hold: `char`s (`/repo/src/metrics/fzf/slab.rs:79-82`,
`/repo/src/metrics/fzf/parser.rs:16`), `Range<usize>` (`/repo/src/matched_ranges.rs:6`), `Bonus`, `usize` and `Score`
(`/repo/src/metrics/fzf/slab.rs:9-20`), `Pattern` and `Condition` (`/repo/src/metrics/fzf/parser.rs:19-22`). -/
inductive Elem where
  | char | range | bonus | index | score | pattern | condition
deriving Repr, DecidableEq

/-- A way to compile and run the library: the width of `usize`, whether `debug_assertions` and `overflow-checks` are on
(`/repo/Cargo.toml:1-64` leaves both to the profile), and how long a vector of each kind can get. -/
structure Build where
  bits : Nat
  debug : Bool
  limit : Elem → Nat

namespace Build

/-- The result of `+` or `*` on `usize`, of which `x` is the exact value.
Source: `/repo/src/candidate.rs:83,90,242,404,431-435`, `/repo/src/matched_ranges.rs:65,79,94,186,210,220`,
`/repo/src/metrics/fzf/slab.rs:102,191-197,334,358-359,387-393`, `/repo/src/metrics/fzf/parser.rs:100,132,177,205,328,367-381`,
`/repo/src/metrics/fzf/fzf.rs:220-237,313,548-581`, `/repo/src/metrics/fzf/fzf_v1.rs:302`, `/repo/src/metrics/fzf/fzf_v2.rs:361-377,446,471,515,530,533,553,561,620-622,681`. -/
def usize (B : Build) (x : Nat) : Res Nat :=
  if x < 2 ^ B.bits then .ok x else if B.debug then .panic else .ok (x % 2 ^ B.bits)

/-- `a - b` on `usize`.
Source: `/repo/src/metrics/fzf/fzf_v2.rs:309,497-498,516,524,526,530,533,627,630,636`, `/repo/src/metrics/fzf/slab.rs:346,398`,
`/repo/src/metrics/fzf/fzf.rs:345,363,412,463,478`, `/repo/src/matched_ranges.rs:135,198`. -/
def sub (B : Build) (a b : Nat) : Res Nat :=
  if b ≤ a then .ok (a - b) else if B.debug then .panic else .ok (a + 2 ^ B.bits - b)

/-- `debug_assert!(b)`. Source: `/repo/src/metrics/fzf/slab.rs:191,385`. -/
def assert (B : Build) (b : Bool) : Res Unit := if B.debug then Res.assert b else .ok ()

/-- A vector of `e`s gets `len` long.
Source: `/repo/src/metrics/fzf/slab.rs:65,95,127,194`, `/repo/src/metrics/fzf/parser.rs:91,103,107`, `/repo/src/matched_ranges.rs:186,204`. -/
def grow (B : Build) (e : Elem) (len : Nat) : Res Unit := if len ≤ B.limit e then .ok () else .panic

/-- `if len > vec.len() { vec.resize(len, fill) }`.
Source: `/repo/src/metrics/fzf/slab.rs:64-66,94-96,126-128,193-195`, `/repo/src/metrics/fzf/parser.rs:90-92,102-108`. -/
def ensure {α : Type} (B : Build) (e : Elem) (l : List α) (len : Nat) (fill : α) : Res (List α) :=
  if len > l.length then do
    B.grow e len
    return resize l len fill
  else .ok l

end Build

variable (B : Build)

/-! ### `src/candidate.rs` -/

/-- `.map(|&ch| ch.len_utf8()).sum()`, from a partial sum. Source: `/repo/src/candidate.rs:221,235-239,242`. -/
def sumUtf8 : List Char → (sum : Nat) → Res Nat
  | [], sum => .ok sum
  | c :: cs, sum => do sumUtf8 cs (← B.usize (sum + lenUtf8 c))

/-- An offset found in a part of the candidate, as an offset in the candidate. Source: `/repo/src/candidate.rs:83,90`. -/
def shiftFound (off : Nat) : Option Nat → Res (Option Nat)
  | none => .ok none
  | some o => do return some (← B.usize (o + off))

/-- `/repo/src/candidate.rs:424-438` `UnicodeMatches::next`. -/
def unicodeMatchesNext (it : UnicodeMatches) : Res (Option (Nat × UnicodeMatches)) :=
  match it.haystack.findIdx? (fun ch => it.eq it.needle ch) with
  | none => .ok none
  | some idx => do
    let haystack ← sliceFromR it.haystack (← B.usize (idx + 1))
    let offset ← B.usize (it.offset + idx)
    return some (offset, { it with haystack := haystack, offset := ← B.usize (offset + 1) })

/-- All items of a `UnicodeMatches` iterator. Source: `/repo/src/metrics/fzf/fzf_v2.rs:443,510-511,653-654`. -/
def unicodeMatchesCollect : (fuel : Nat) → UnicodeMatches → Res (List Nat)
  | 0, _ => .panic
  | fuel + 1, it => do
    match ← unicodeMatchesNext B it with
    | none => return []
    | some (i, it') => return i :: (← unicodeMatchesCollect fuel it')

/-- `.map(|offset| self.start_offset + offset)` on all items. Source: `/repo/src/candidate.rs:404`. -/
def shiftAll (startOffset : Nat) : List Nat → Res (List Nat)
  | [] => .ok []
  | o :: l => do
    let o ← B.usize (startOffset + o)
    return o :: (← shiftAll startOffset l)

/-- `/repo/src/candidate.rs:67-93` `Candidate::find_first_from`. -/
def findFirstFrom (c : Candidate) (off : Nat) (ch : Char) (isCaseSensitive : Bool) (eq : CharEq) :
    Res (Option Nat) :=
  match c with
  | .ascii bs =>
    if !isAscii ch then .ok none
    else do
      let slice ← sliceFromR bs off
      shiftFound B off (findFirstAscii (charToByte ch) slice isCaseSensitive)
  | .unicode cs => do
    let slice ← sliceFromR cs off
    shiftFound B off (findFirstUnicode ch slice eq)

/-- `/repo/src/candidate.rs:351-374` `CandidateMatches::from_ascii` and the items it yields
(`/repo/src/candidate.rs:394-406`). -/
def matchesAscii (needle : Char) (haystack : List UInt8) (isCaseSensitive : Bool) (startOffset : Nat) :
    Res (List Nat) :=
  if !isAscii needle then
    unicodeMatchesCollect B 1 ⟨needle, [], charEq false false, 0⟩
  else
    shiftAll B startOffset (allIdxFrom (asciiNeedle (charToByte needle) isCaseSensitive) haystack 0)

/-- `/repo/src/candidate.rs:377-385` `CandidateMatches::from_unicode` and the items it yields. -/
def matchesUnicode (needle : Char) (haystack : List Char) (eq : CharEq) (startOffset : Nat) :
    Res (List Nat) := do
  let l ← unicodeMatchesCollect B (haystack.length + 1) ⟨needle, haystack, eq, 0⟩
  shiftAll B startOffset l

/-- `/repo/src/candidate.rs:159-174` `Candidate::matches`. -/
def candidateMatches (c : Candidate) (ch : Char) (isCaseSensitive : Bool) (eq : CharEq) : Res (List Nat) :=
  match c with
  | .ascii bs => matchesAscii B ch bs isCaseSensitive 0
  | .unicode cs => matchesUnicode B ch cs eq 0

/-- `/repo/src/candidate.rs:178-201` `Candidate::matches_from`. -/
def candidateMatchesFrom (c : Candidate) (off : Nat) (ch : Char) (isCaseSensitive : Bool) (eq : CharEq) :
    Res (List Nat) :=
  match c with
  | .ascii bs => do
    let slice ← sliceFromR bs off
    matchesAscii B ch slice isCaseSensitive off
  | .unicode cs => do
    let slice ← sliceFromR cs off
    matchesUnicode B ch slice eq off

/-- `/repo/src/candidate.rs:217-224` `Candidate::to_byte_offset`. -/
def toByteOffset (c : Candidate) (off : Nat) : Res Nat :=
  match c with
  | .ascii _ => .ok off
  | .unicode cs => do sumUtf8 B (← sliceToR cs off) 0

/-- `/repo/src/candidate.rs:228-247` `Candidate::to_byte_range`. -/
def toByteRange (c : Candidate) (r : Range) : Res Range :=
  match c with
  | .ascii _ => .ok r
  | .unicode cs => do
    let s ← sliceToR cs r.stop
    let start ← sumUtf8 B (s.take r.start) 0
    let rest ← sumUtf8 B (s.drop r.start) 0
    return ⟨start, ← B.usize (start + rest)⟩

/-! ### `src/matched_ranges.rs` -/

/-- `/repo/src/matched_ranges.rs:203-205` `push`. -/
def rangesPush (m : MatchedRanges) (r : Range) : Res MatchedRanges := do
  B.grow .range (m.ranges.length + 1)
  return m.push r

/-- `/repo/src/matched_ranges.rs:184-187` `insert_at`. -/
def rangesInsertAt (m : MatchedRanges) (idx : Nat) (r : Range) : Res MatchedRanges := do
  let ranges ← insertAtR m.ranges (← B.usize (m.initialLen + idx)) r
  B.grow .range (m.ranges.length + 1)
  return { m with ranges := ranges }

/-- `/repo/src/matched_ranges.rs:209-211` `remove`. -/
def rangesRemove (m : MatchedRanges) (idx : Nat) : Res MatchedRanges := do
  return { m with ranges := ← removeR m.ranges (← B.usize (m.initialLen + idx)) }

/-- `/repo/src/matched_ranges.rs:214-223` `split_at_mut`, as a read of both parts. -/
def rangesSplitAt (m : MatchedRanges) (idx : Nat) : Res (List Range × List Range) := do
  let mid ← B.usize (m.initialLen + idx)
  let left ← sliceToR m.ranges mid
  let right ← sliceFromR m.ranges mid
  return (← sliceFromR left m.initialLen, right)

/-- `/repo/src/matched_ranges.rs:70-181` `MatchedRanges::insert`. An element of one of the parts of a split is assigned
through a reference to it (`setAt`), which is no arithmetic. -/
def rangesInsert (m : MatchedRanges) (new : Range) : Res MatchedRanges := do
  let this ← sliceFromR m.ranges m.initialLen
  match ← binarySearchStart this new.start with
  | .found idx =>
    let (left, right) ← rangesSplitAt B m (← B.usize (idx + 1))
    let range ← getR left idx
    if range.stop ≥ new.stop then
      return m
    else
      match right.head? with
      | some next =>
        if new.stop ≥ next.start then
          let m ← m.setAt idx { range with stop := next.stop }
          rangesRemove B m (← B.usize (idx + 1))
        else
          m.setAt idx { range with stop := new.stop }
      | none => m.setAt idx { range with stop := new.stop }
  | .notFound insertIdx =>
    if insertIdx == 0 then
      match m.ranges[← B.usize (m.initialLen + 0)]? with
      | none => rangesPush B m new
      | some first =>
        if new.stop ≥ first.start then
          m.setAt 0 { first with start := new.start }
        else
          rangesInsertAt B m 0 new
    else if insertIdx == (← B.sub m.ranges.length m.initialLen) then
      let last ← Res.unwrap m.ranges.getLast?
      if new.start ≤ last.stop then
        return { m with
          ranges := m.ranges.dropLast ++ [{ last with stop := max last.stop new.stop }] }
      else
        rangesPush B m new
    else
      let (left, right) ← rangesSplitAt B m insertIdx
      let prevIdx ← B.sub insertIdx 1
      let prev ← getR left prevIdx
      let next ← getR right 0
      match decide (new.start ≤ prev.stop), decide (new.stop ≥ next.start) with
      | true, true =>
        let m ← m.setAt prevIdx { prev with stop := next.stop }
        rangesRemove B m insertIdx
      | true, false =>
        if new.stop > prev.stop then
          m.setAt prevIdx { prev with stop := new.stop }
        else
          return m
      | false, true => m.setAt insertIdx { next with start := new.start }
      | false, false => rangesInsertAt B m insertIdx new

/-! ### `src/metrics/fzf/slab.rs` -/

/-- `/repo/src/metrics/fzf/slab.rs:63-75` `BonusSlab::alloc`: new vector and view. -/
def bonusAlloc (vec : List BonusCell) (len : Nat) : Res (List BonusCell × List BonusCell) := do
  let vec ← B.ensure .bonus vec len BonusCell.default
  let slice ← sliceToR vec len
  return (vec, slice.map (fun b => { b with isSet := false }))

/-- `/repo/src/metrics/fzf/slab.rs:100-103` the `for` loop of `CandidateSlab::alloc`. -/
def slabWriteChars (chars : List Char) : List Char → (charLen : Nat) → Res (List Char × Nat)
  | [], charLen => .ok (chars, charLen)
  | ch :: rest, charLen => do
    let chars ← setR chars charLen ch
    slabWriteChars chars rest (← B.usize (charLen + 1))

/-- `/repo/src/metrics/fzf/slab.rs:93-106` `CandidateSlab::alloc`: new slab and the returned slice. -/
def candidateAlloc (chars : List Char) (text : List Char) : Res (List Char × List Char) := do
  let chars ← B.ensure .char chars (strLen text) (Char.ofNat 0)
  let (chars, charLen) ← slabWriteChars B chars text 0
  return (chars, ← sliceToR chars charLen)

/-- `/repo/src/metrics/fzf/slab.rs:125-131` `MatchedIndicesSlab::alloc`: new vector and view. -/
def indicesAlloc (vec : List Nat) (len : Nat) : Res (List Nat × List Nat) := do
  let vec ← B.ensure .index vec len 0
  return (vec, ← sliceToR vec len)

/-- `/repo/src/metrics/fzf/slab.rs:190-202` `MatrixSlab::alloc`: new vector and matrix. The product is computed up to four
times, always with the same result. -/
def matrixAlloc {α : Type} (e : Elem) (fill : α) (vec : List α) (width height : Nat) :
    Res (List α × Matrix α) := do
  let area ← B.usize (height * width)
  B.assert (area > 0)
  let vec ← B.ensure e vec area fill
  let slice ← sliceToR vec area
  return (vec, ⟨slice.map (fun _ => fill), height, width⟩)

section Matrix
variable {α : Type}

/-- `/repo/src/metrics/fzf/slab.rs:333-335` `down_right`. -/
def downRight (m : Matrix α) (cell : Nat) : Res Nat := do B.usize ((← B.usize (cell + m.width)) + 1)

/-- `/repo/src/metrics/fzf/slab.rs:345-347` `left`. -/
def left (cell : Nat) : Res Nat := B.sub cell 1

/-- `/repo/src/metrics/fzf/slab.rs:397-399` `up_left`. -/
def upLeft (m : Matrix α) (cell : Nat) : Res Nat := do B.sub (← B.sub cell m.width) 1

/-- `/repo/src/metrics/fzf/slab.rs:357-361` `row_mut`: where the row starts, and the row. -/
def matrixRow (m : Matrix α) (row : Nat) : Res (Nat × List α) := do
  let start ← B.usize (row * m.width)
  let stop ← B.usize (start + m.width)
  return (start, ← sliceR m.slice start stop)

/-- End of the mutable borrow of a row, which starts at `start`. Source: `/repo/src/metrics/fzf/slab.rs:357-361,380-394`. -/
def setRowAt (m : Matrix α) (start : Nat) (r : List α) : Matrix α :=
  { m with slice := m.slice.take start ++ r ++ m.slice.drop (start + m.width) }

/-- `/repo/src/metrics/fzf/slab.rs:380-394` `two_rows_mut`: where the second row starts, and both rows. -/
def twoRows (m : Matrix α) (rowA rowB : Nat) : Res (Nat × List α × List α) := do
  B.assert (rowA < rowB)
  let startB ← B.usize (rowB * m.width)
  let partA ← sliceToR m.slice startB
  let partB ← sliceFromR m.slice startB
  let startA ← B.usize (rowA * m.width)
  let stopA ← B.usize (startA + m.width)
  return (startB, ← sliceR partA startA stopA, ← sliceToR partB m.width)

end Matrix

/-! ### `src/metrics/fzf/fzf.rs` -/

/-- The `for` loop of `compute_score`, `/repo/src/metrics/fzf/fzf.rs:524-583`. -/
def computeScoreLoop (U : Unicode) (RANGES : Bool) (eq : CharEq) (scheme : Scheme)
    (byteRangeStart : Nat) : List Char → ScoreState → Res ScoreState
  | [], st => .ok st
  | candidateCh :: rest, st => do
    let chClass := charClass U candidateCh scheme
    if eq st.patternChar candidateCh then
      let bonus := computeBonus st.prevClass chClass scheme
      let firstBonus :=
        if st.consecutive == 0 then bonus
        else if bonus ≥ Bonus.boundary && bonus > st.firstBonus then bonus
        else st.firstBonus
      let bonus :=
        if st.consecutive == 0 then bonus
        else max (max bonus firstBonus) Bonus.consecutive
      let score := st.score + Bonus.match +
        (if st.isFirstPatternChar then bonus * Bonus.firstQueryCharMultiplier else bonus)
      let ranges ←
        if RANGES then (do
          let start ← B.usize (byteRangeStart + st.byteOffset)
          rangesInsert B st.ranges ⟨start, ← B.usize (start + lenUtf8 candidateCh)⟩ : Res MatchedRanges)
        else pure st.ranges
      let st := { st with
        firstBonus := firstBonus, score := score, ranges := ranges, isInGap := false,
        isFirstPatternChar := false, consecutive := st.consecutive + 1 }
      match st.patternChars with
      | nextChar :: patternChars => do
        let byteOffset ← if RANGES then B.usize (st.byteOffset + lenUtf8 candidateCh) else pure st.byteOffset
        computeScoreLoop U RANGES eq scheme byteRangeStart rest { st with
          patternChar := nextChar, patternChars := patternChars, prevClass := chClass,
          byteOffset := byteOffset }
      | [] => return st
    else
      let score := st.score - (if st.isInGap then Penalty.gapExtension else Penalty.gapStart)
      let byteOffset ← if RANGES then B.usize (st.byteOffset + lenUtf8 candidateCh) else pure st.byteOffset
      computeScoreLoop U RANGES eq scheme byteRangeStart rest { st with
        score := score, isInGap := true, consecutive := 0, firstBonus := 0, prevClass := chClass,
        byteOffset := byteOffset }

/-- `/repo/src/metrics/fzf/fzf.rs:484-586` `compute_score`. -/
def computeScore (U : Unicode) (RANGES : Bool) (pattern : Pattern) (candidate : Candidate)
    (charRange : Range) (eq : CharEq) (scheme : Scheme) (ranges : MatchedRanges) :
    Res (MatchedRanges × Score) := do
  let byteRangeStart ← if RANGES then toByteOffset B candidate charRange.start else pure 0
  let prevClass ←
    if charRange.start == 0 then pure scheme.initialCharClass
    else (do return charClass U (← candidate.char (charRange.start - 1)) scheme : Res CharClass)
  let patternChar ← Res.unwrap pattern.text.head?
  let chars ← (← candidate.slice charRange).chars
  let st ← computeScoreLoop B U RANGES eq scheme byteRangeStart chars {
    isInGap := false, isFirstPatternChar := true, firstBonus := 0, consecutive := 0
    byteOffset := 0, prevClass := prevClass, patternChars := pattern.text.tail
    patternChar := patternChar, score := 0, ranges := ranges }
  return (st.ranges, st.score)

/-- The inner `for` loop of `exact_match`, `/repo/src/metrics/fzf/fzf.rs:213-251`. -/
def exactInner (U : Unicode) (pattern : Pattern) (eq : CharEq) (scheme : Scheme)
    (currentStartOffset : Nat) : List Char → (charOffset : Nat) → ExactState →
    Res (ExactExit × ExactState)
  | [], _, st => .ok (.done [], st)
  | candidateCh :: rest, charOffset, st => do
    let patternCh ← pattern.char st.patternCharIdx
    let chClass := charClass U candidateCh scheme
    if eq patternCh candidateCh then
      let st ←
        if st.patternCharIdx == 0 then (do
          let bonusStart ← B.usize (currentStartOffset + charOffset)
          let startOffset ← B.usize (st.startOffset + (← B.usize (charOffset + 1)))
          return { st with
            bonusStart := bonusStart
            startOffset := startOffset
            currentBonus := computeBonus st.prevClass chClass scheme } : Res ExactState)
        else pure st
      let patternCharIdx ← B.usize (st.patternCharIdx + 1)
      let st := { st with patternCharIdx := patternCharIdx }
      if st.patternCharIdx == pattern.charLen then
        let st := { st with matched := true }
        let st ←
          if st.currentBonus > st.bestBonus then (do
            let stop ← B.usize ((← B.usize (currentStartOffset + charOffset)) + 1)
            return { st with
              bestBonus := st.currentBonus
              bestBonusCharStart := st.bonusStart
              bestBonusCharEnd := stop } : Res ExactState)
          else pure st
        if st.currentBonus ≥ Bonus.boundary then
          return (.breakOuter, st)
        else
          return (.done rest, st)
      else
        exactInner U pattern eq scheme currentStartOffset rest (charOffset + 1)
          { st with prevClass := chClass }
    else if st.patternCharIdx > 0 then
      return (.done rest, st)
    else
      exactInner U pattern eq scheme currentStartOffset rest (charOffset + 1)
        { st with prevClass := chClass }

/-- The `'outer` loop of `exact_match`, `/repo/src/metrics/fzf/fzf.rs:205-256`. -/
def exactOuter (U : Unicode) (pattern : Pattern) (candidate : Candidate) (eq : CharEq)
    (scheme : Scheme) : (fuel : Nat) → ExactState → Res ExactState
  | 0, _ => .panic
  | fuel + 1, st => do
    let currentStartOffset := st.startOffset
    let st := { st with bonusStart := 0, currentBonus := 0, patternCharIdx := 0 }
    let chars ← candidate.charsFrom st.startOffset
    let (exit, st) ← exactInner B U pattern eq scheme currentStartOffset chars 0 st
    match exit with
    | .breakOuter => return st
    | .done [] => return st
    | .done (_ :: _) => exactOuter U pattern candidate eq scheme fuel st

/-- The common tail of the exact matchers: `/repo/src/metrics/fzf/fzf.rs:264-277,317-330,372-385,436-449`. -/
def finishExact (U : Unicode) (RANGES : Bool) (pattern : Pattern) (candidate : Candidate)
    (matchedRange : Range) (eq : CharEq) (scheme : Scheme) (ranges : MatchedRanges) :
    Res (MatchedRanges × Option Score) := do
  let (ranges, score) ← computeScore B U false pattern candidate matchedRange eq scheme ranges
  let ranges ←
    if RANGES then (do rangesInsert B ranges (← toByteRange B candidate matchedRange) : Res MatchedRanges)
    else pure ranges
  return (ranges, some score)

/-- `/repo/src/metrics/fzf/fzf.rs:178-278` `exact_match`. -/
def exactMatch (U : Unicode) (RANGES : Bool) (pattern : Pattern) (candidate : Candidate)
    (eq : CharEq) (scheme : Scheme) (ranges : MatchedRanges) :
    Res (MatchedRanges × Option Score) := do
  if pattern.isEmpty then
    return (ranges, some 0)
  else
    let st ← exactOuter B U pattern candidate eq scheme (candidate.charLen + 1) {
      bestBonus := -1, bestBonusCharStart := 0, bestBonusCharEnd := 0, matched := false
      prevClass := scheme.initialCharClass, startOffset := 0
      bonusStart := 0, currentBonus := 0, patternCharIdx := 0 }
    if !st.matched then
      return (ranges, none)
    else
      finishExact B U RANGES pattern candidate ⟨st.bestBonusCharStart, st.bestBonusCharEnd⟩ eq scheme
        ranges

/-- `/repo/src/metrics/fzf/fzf.rs:454-465` `ignored_candidate_leading_spaces`. -/
def ignoredCandidateLeadingSpaces (pattern : Pattern) (candidate : Candidate) : Res (Option Nat) :=
  let candidateLeadingSpaces := candidate.leadingSpaces
  if pattern.leadingSpaces > candidateLeadingSpaces then .ok none
  else do return some (← B.sub candidateLeadingSpaces pattern.leadingSpaces)

/-- `/repo/src/metrics/fzf/fzf.rs:469-480` `ignored_candidate_trailing_spaces`. -/
def ignoredCandidateTrailingSpaces (pattern : Pattern) (candidate : Candidate) : Res (Option Nat) :=
  let candidateTrailingSpaces := candidate.trailingSpaces
  if pattern.trailingSpaces > candidateTrailingSpaces then .ok none
  else do return some (← B.sub candidateTrailingSpaces pattern.trailingSpaces)

/-- `/repo/src/metrics/fzf/fzf.rs:282-331` `prefix_match`. -/
def prefixMatch (U : Unicode) (RANGES : Bool) (pattern : Pattern) (candidate : Candidate)
    (eq : CharEq) (scheme : Scheme) (ranges : MatchedRanges) :
    Res (MatchedRanges × Option Score) := do
  if pattern.isEmpty then
    return (ranges, some 0)
  else
    match ← ignoredCandidateLeadingSpaces B pattern candidate with
    | none => return (ranges, none)
    | some ignoredLeadingSpaces =>
      let chars ← candidate.charsFrom ignoredLeadingSpaces
      match zipLoop eq false pattern.text chars with
      | none => return (ranges, none)
      | some (_ :: _, _) => return (ranges, none)
      | some ([], _) =>
        let stop ← B.usize (ignoredLeadingSpaces + pattern.charLen)
        finishExact B U RANGES pattern candidate ⟨ignoredLeadingSpaces, stop⟩ eq scheme ranges

/-- `/repo/src/metrics/fzf/fzf.rs:335-386` `suffix_match`. -/
def suffixMatch (U : Unicode) (RANGES : Bool) (pattern : Pattern) (candidate : Candidate)
    (eq : CharEq) (scheme : Scheme) (ranges : MatchedRanges) :
    Res (MatchedRanges × Option Score) := do
  if pattern.isEmpty then
    return (ranges, some 0)
  else
    match ← ignoredCandidateTrailingSpaces B pattern candidate with
    | none => return (ranges, none)
    | some ignoredTrailingSpaces =>
      let upToIgnoredSpaces ← B.sub candidate.charLen ignoredTrailingSpaces
      let chars ← (← candidate.slice ⟨0, upToIgnoredSpaces⟩).chars
      match zipLoop eq false pattern.text.reverse chars.reverse with
      | none => return (ranges, none)
      | some (_ :: _, _) => return (ranges, none)
      | some ([], _) =>
        let start ← B.sub upToIgnoredSpaces pattern.charLen
        finishExact B U RANGES pattern candidate ⟨start, upToIgnoredSpaces⟩ eq scheme ranges

/-- `/repo/src/metrics/fzf/fzf.rs:390-450` `equal_match`. -/
def equalMatch (U : Unicode) (RANGES : Bool) (pattern : Pattern) (candidate : Candidate)
    (eq : CharEq) (scheme : Scheme) (ranges : MatchedRanges) :
    Res (MatchedRanges × Option Score) := do
  if pattern.isEmpty then
    return (ranges, some 0)
  else
    match ← ignoredCandidateLeadingSpaces B pattern candidate with
    | none => return (ranges, none)
    | some ignoredLeadingSpaces =>
      if ignoredLeadingSpaces == candidate.charLen then
        return (ranges, none)
      else
        match ← ignoredCandidateTrailingSpaces B pattern candidate with
        | none => return (ranges, none)
        | some ignoredTrailingSpaces =>
          let matchedCharRange : Range :=
            ⟨ignoredLeadingSpaces, ← B.sub candidate.charLen ignoredTrailingSpaces⟩
          if matchedCharRange.len < pattern.charLen then
            return (ranges, none)
          else
            let chars ← (← candidate.slice matchedCharRange).chars
            match zipLoop eq true pattern.text chars with
            | none => return (ranges, none)
            | some (patternRest, candidateRest) =>
              if !patternRest.isEmpty || !candidateRest.isEmpty then
                return (ranges, none)
              else
                finishExact B U RANGES pattern candidate matchedCharRange eq scheme ranges

/-- `/repo/src/metrics/fzf/fzf.rs:27-136` `Fzf::score`. -/
def score {σ : Type} (U : Unicode) (I : FzfImpl σ) (RANGES : Bool) (self : σ) (pattern : Pattern)
    (candidate : Candidate) (ranges : MatchedRanges) : Res (σ × MatchedRanges × Option Score) := do
  let R := if pattern.isInverse then false else RANGES
  let (self, ranges, score) ←
    match pattern.matchType with
    | .fuzzy => I.fuzzy R self pattern candidate ranges
    | .exact =>
      let (ranges, s) ← exactMatch B U R pattern candidate (I.charEq self pattern) (I.scheme self) ranges
      pure (self, ranges, s)
    | .prefixExact =>
      let (ranges, s) ← prefixMatch B U R pattern candidate (I.charEq self pattern) (I.scheme self) ranges
      pure (self, ranges, s)
    | .suffixExact =>
      let (ranges, s) ← suffixMatch B U R pattern candidate (I.charEq self pattern) (I.scheme self) ranges
      pure (self, ranges, s)
    | .equalExact =>
      let (ranges, s) ← equalMatch B U R pattern candidate (I.charEq self pattern) (I.scheme self) ranges
      pure (self, ranges, s)
  match score.isSome, pattern.isInverse with
  | true, false => return (self, ranges, score)
  | false, true => return (self, ranges, some 0)
  | _, _ => return (self, ranges, none)

/-- `condition.iter().find_map(|pattern| self.score(..))`, `/repo/src/metrics/fzf/fzf.rs:166-168`. -/
def scoreCondition {σ : Type} (U : Unicode) (I : FzfImpl σ) (RANGES : Bool) (candidate : Candidate) :
    List Pattern → σ → MatchedRanges → Res (σ × MatchedRanges × Option Score)
  | [], self, ranges => .ok (self, ranges, none)
  | pattern :: rest, self, ranges => do
    let (self, ranges, s) ← score B U I RANGES self pattern candidate ranges
    match s with
    | some s => return (self, ranges, some s)
    | none => scoreCondition U I RANGES candidate rest self ranges

/-- The `for` loop over conditions, `/repo/src/metrics/fzf/fzf.rs:164-170`. -/
def scoreConditions {σ : Type} (U : Unicode) (I : FzfImpl σ) (RANGES : Bool) (candidate : Candidate) :
    List Condition → σ → MatchedRanges → (totalScore : Score) →
    Res (σ × MatchedRanges × Option Score)
  | [], self, ranges, totalScore => .ok (self, ranges, some totalScore)
  | condition :: rest, self, ranges, totalScore => do
    let (self, ranges, s) ← scoreCondition B U I RANGES candidate condition self ranges
    match s with
    | none => return (self, ranges, none)
    | some s => scoreConditions U I RANGES candidate rest self ranges (totalScore + s)

/-- `/repo/src/metrics/fzf/fzf.rs:140-173` `Fzf::distance`. Returns the metric, the caller's vector and
the result. -/
def distance {σ : Type} (U : Unicode) (I : FzfImpl σ) (RANGES : Bool) (self : σ) (query : FzfQuery)
    (candidate : List Char) (ranges : List Range) :
    Res (σ × List Range × Option FzfDistance) := do
  if query.isEmpty then
    return (self, ranges, some (FzfDistance.fromScore 0))
  else
    let (self, candidate) ←
      if strIsAscii candidate then pure (self, Candidate.ascii (strBytes candidate))
      else (do
        let (self, chars) ← I.allocChars self candidate
        return (self, Candidate.unicode chars) : Res (σ × Candidate))
    let ranges := MatchedRanges.ofVec ranges
    let (self, ranges, s) ←
      match query with
      | .notExtended pattern => I.fuzzy RANGES self pattern candidate ranges
      | .extended conditions => scoreConditions B U I RANGES candidate conditions self ranges 0
    return (self, ranges.ranges, s.map FzfDistance.fromScore)

/-! ### `src/metrics/fzf/fzf_v1.rs` -/

/-- The loop of `forward_pass`, `/repo/src/metrics/fzf/fzf_v1.rs:296-309`. -/
def forwardLoop (candidate : Candidate) (opts : CandidateOpts) :
    (patternChars : List Char) → (patternChar : Char) → (endOffset : Nat) → Res (Option Nat)
  | rest, patternChar, endOffset => do
    match ← findFirstFrom B candidate endOffset patternChar opts.isCaseSensitive opts.charEq with
    | none => return none
    | some off =>
      let endOffset ← B.usize (off + 1)
      match rest with
      | next :: rest => forwardLoop candidate opts rest next endOffset
      | [] => return some endOffset

/-- `/repo/src/metrics/fzf/fzf_v1.rs:285-310` `forward_pass`. -/
def forwardPass (pattern : Pattern) (candidate : Candidate) (opts : CandidateOpts) :
    Res (Option Nat) :=
  match pattern.text with
  | [] => .ok none
  | patternChar :: rest => forwardLoop B candidate opts rest patternChar 0

/-- `/repo/src/metrics/fzf/fzf_v1.rs:250-280` `fuzzy`. -/
def fuzzyV1 (U : Unicode) (RANGES : Bool) (self : FzfV1) (pattern : Pattern) (candidate : Candidate)
    (ranges : MatchedRanges) : Res (FzfV1 × MatchedRanges × Option Score) := do
  let opts := CandidateOpts.new (isSensitive self.caseSensitivity pattern) self.candidateNormalization
  match ← forwardPass B pattern candidate opts with
  | none => return (self, ranges, none)
  | some endForward =>
    let startBackward ← backwardPass pattern candidate endForward opts
    let (ranges, score) ← computeScore B U RANGES pattern candidate ⟨startBackward, endForward⟩
      opts.charEq self.scoringScheme ranges
    return (self, ranges, some score)

/-- `/repo/src/metrics/fzf/fzf_v1.rs:229-231` `alloc_chars`. -/
def allocCharsV1 (self : FzfV1) (s : List Char) : Res (FzfV1 × List Char) := do
  let (slab, chars) ← candidateAlloc B self.candidateSlab s
  return ({ self with candidateSlab := slab }, chars)

/-- `/repo/src/metrics/fzf/fzf_v1.rs:227-281` `impl Fzf for FzfV1`. -/
def implV1 (U : Unicode) : FzfImpl FzfV1 where
  allocChars := allocCharsV1 B
  charEq := FzfV1.charEq
  scheme := fun self => self.scoringScheme
  fuzzy := fuzzyV1 B U

/-! ### `src/metrics/fzf/fzf_v2.rs` -/

/-- The loop of `matches`, `/repo/src/metrics/fzf/fzf_v2.rs:349-368`. -/
def matchesLoop (pattern : Pattern) (candidate : Candidate) (opts : CandidateOpts) :
    (fuel : Nat) → (matchOffsets : List Nat) → (patternCharIdx lastMatchOffset : Nat) →
    Res (List Nat × Option Nat)
  | 0, _, _, _ => .panic
  | fuel + 1, matchOffsets, patternCharIdx, lastMatchOffset => do
    let patternChar ← pattern.char patternCharIdx
    match ← findFirstFrom B candidate lastMatchOffset patternChar opts.isCaseSensitive opts.charEq with
    | none => return (matchOffsets, none)
    | some off =>
      let matchOffsets ← setR matchOffsets patternCharIdx off
      let lastMatchOffset ← B.usize (off + 1)
      let nextIdx ← B.usize (patternCharIdx + 1)
      if nextIdx < pattern.charLen then
        matchesLoop pattern candidate opts fuel matchOffsets nextIdx lastMatchOffset
      else
        return (matchOffsets, some patternCharIdx)

/-- `/repo/src/metrics/fzf/fzf_v2.rs:337-380` `matches`. -/
def v2Matches (indices : List Nat) (pattern : Pattern) (candidate : Candidate)
    (opts : CandidateOpts) : Res (List Nat × List Nat × Option Nat) := do
  let (indices, matchOffsets) ← indicesAlloc B indices pattern.charLen
  let (matchOffsets, r) ←
    matchesLoop B pattern candidate opts (pattern.charLen + 1) matchOffsets 0 0
  match r with
  | none => return (indices, matchOffsets, none)
  | some patternCharIdx =>
    let last ← Res.unwrap
      (candidate.findLast (← pattern.char patternCharIdx) opts.isCaseSensitive opts.charEq)
    let last ← B.usize (last + 1)
    return (indices, matchOffsets, some last)

/-- The `for` loop of `score_first_row`, `/repo/src/metrics/fzf/fzf_v2.rs:443-469`. -/
def firstRowLoop (U : Unicode) (scheme : Scheme) : List Nat → FirstRowState → Res FirstRowState
  | [], st => .ok st
  | charOffset :: rest, st => do
    let penalty := Penalty.gapStart
    let col ← B.usize (st.column + 1)
    let (scores, _, penalty) ← firstRowGap (charOffset - col) col st.scores st.prevScore penalty
    let column := charOffset
    let consecutives ← setR st.consecutives column 1
    let (candidate, bonus) ← st.candidate.bonusAt U column scheme
    let score := Bonus.match + bonus * Bonus.firstQueryCharMultiplier
    let scores ← setR scores column score
    let (maxScore, maxScoreCol) :=
      if score > st.maxScore then (score, column) else (st.maxScore, st.maxScoreCol)
    firstRowLoop U scheme rest {
      scores := scores, consecutives := consecutives, candidate := candidate
      maxScore := maxScore, prevScore := score, maxScoreCol := maxScoreCol, column := column
      penalty := penalty }

/-- `/repo/src/metrics/fzf/fzf_v2.rs:426-479` `score_first_row`. -/
def scoreFirstRow (U : Unicode) (scores : List Score) (consecutives : List Nat)
    (firstPatternChar : Char) (candidate : CandidateV2) (scheme : Scheme) :
    Res (List Score × List Nat × CandidateV2 × Score × Nat) := do
  let offs ← candidateMatches B candidate.base firstPatternChar candidate.opts.isCaseSensitive candidate.opts.charEq
  let st ← firstRowLoop B U scheme offs {
    scores := scores, consecutives := consecutives, candidate := candidate, maxScore := 0
    prevScore := 0, maxScoreCol := 0, column := 0, penalty := Penalty.gapStart }
  let col ← B.usize (st.column + 1)
  let (scores, _, _) ← firstRowGap (st.scores.length - col) col st.scores st.prevScore st.penalty
  return (scores, st.consecutives, st.candidate, st.maxScore, st.maxScoreCol)

/-- The gap loops of `score_remaining_rows` (`/repo/src/metrics/fzf/fzf_v2.rs:515-520,561-566`), over
columns `col .. col + n`. -/
def rowGap : (n : Nat) → (col : Nat) → (row : List Score) → (penalty : Score) →
    Res (List Score × Score)
  | 0, _, row, penalty => .ok (row, penalty)
  | n + 1, col, row, penalty => do
    let scoreLeft ← getR row (← B.sub col 1)
    let row ← setR row col (saturatingSub scoreLeft penalty)
    rowGap n (col + 1) row Penalty.gapExtension

/-- The `for char_offset in ..` loop of `score_remaining_rows`,
`/repo/src/metrics/fzf/fzf_v2.rs:510-559`. -/
def rowLoop (U : Unicode) (scheme : Scheme) (matrixWidth rowIdx : Nat)
    (prevScores : List Score) (prevConsecutives : List Nat) :
    List Nat → RowState → Res RowState
  | [], st => .ok st
  | charOffset :: rest, st => do
    let penalty := Penalty.gapStart
    let col ← B.usize (st.column + 1)
    let (scores, penalty) ← rowGap B (charOffset - col) col st.scores penalty
    let column := charOffset
    let scoreLeft := saturatingSub (← getR scores (← B.sub column 1)) penalty
    let scoreUpLeft := (← getR prevScores (← B.sub column 1)) + Bonus.match
    let (candidate, bonus) ← st.candidate.bonusAt U column scheme
    let consecutive ← B.usize ((← getR prevConsecutives (← B.sub column 1)) + 1)
    let (candidate, bonus, consecutive) ←
      if consecutive > 1 then
        (do
          let (candidate, fb) ← candidate.bonusAt U (← B.sub (← B.usize (column + 1)) consecutive) scheme
          if bonus ≥ Bonus.boundary && bonus > fb then
            return (candidate, bonus, 1)
          else
            return (candidate, max (max Bonus.consecutive fb) bonus, consecutive) :
          Res (CandidateV2 × Score × Nat))
      else pure (candidate, bonus, consecutive)
    let (candidate, scoreUpLeft, consecutive) ←
      if scoreUpLeft + bonus < scoreLeft then
        (do
          let (candidate, b) ← candidate.bonusAt U column scheme
          return (candidate, scoreUpLeft + b, 0) : Res (CandidateV2 × Score × Nat))
      else pure (candidate, scoreUpLeft + bonus, consecutive)
    let score := max scoreLeft scoreUpLeft
    let (maxScore, maxScoreCell) ←
      if score > st.maxScore then
        (do return (score, ← B.usize ((← B.usize (rowIdx * matrixWidth)) + column)) : Res (Score × Nat))
      else pure (st.maxScore, st.maxScoreCell)
    let consecutives ← setR st.consecutives column consecutive
    let scores ← setR scores column score
    rowLoop U scheme matrixWidth rowIdx prevScores prevConsecutives rest {
      scores := scores, consecutives := consecutives, candidate := candidate
      maxScore := maxScore, maxScoreCell := maxScoreCell, column := column, penalty := penalty }

/-- The body of the `for row_idx` loop and the loop itself, `/repo/src/metrics/fzf/fzf_v2.rs:495-567`, for rows
`rowIdx .. rowIdx + n`. -/
def remainingRowsLoop (U : Unicode) (scheme : Scheme) (pattern : Pattern) (matchOffsets : List Nat) :
    (n : Nat) → (rowIdx : Nat) → Matrix Score → Matrix Nat → CandidateV2 → Score → Nat →
    Res (Matrix Score × Matrix Nat × CandidateV2 × Score × Nat)
  | 0, _, scores, consecutives, candidate, maxScore, maxScoreCell =>
    .ok (scores, consecutives, candidate, maxScore, maxScoreCell)
  | n + 1, rowIdx, scores, consecutives, candidate, maxScore, maxScoreCell => do
    let matrixWidth := scores.width
    let patternChar ← pattern.char rowIdx
    let (start, prevScoresRow, scoresRow) ← twoRows B scores (← B.sub rowIdx 1) rowIdx
    let (cstart, prevConsecutivesRow, consecutivesRow) ← twoRows B consecutives (← B.sub rowIdx 1) rowIdx
    let firstMatchOffset ← getR matchOffsets rowIdx
    let offs ← candidateMatchesFrom B candidate.base firstMatchOffset patternChar candidate.opts.isCaseSensitive
      candidate.opts.charEq
    let st ← rowLoop B U scheme matrixWidth rowIdx prevScoresRow prevConsecutivesRow offs {
      scores := scoresRow, consecutives := consecutivesRow, candidate := candidate
      maxScore := maxScore, maxScoreCell := maxScoreCell, column := firstMatchOffset
      penalty := Penalty.gapStart }
    let col ← B.usize (st.column + 1)
    let (scoresRow, _) ← rowGap B (matrixWidth - col) col st.scores st.penalty
    remainingRowsLoop U scheme pattern matchOffsets n (rowIdx + 1)
      (setRowAt scores start scoresRow) (setRowAt consecutives cstart st.consecutives)
      st.candidate st.maxScore st.maxScoreCell

/-- `/repo/src/metrics/fzf/fzf_v2.rs:384-422` `score` and `483-570` `score_remaining_rows`. -/
def v2Score (U : Unicode) (scoringSlab : List Score) (consecutiveSlab : List Nat)
    (pattern : Pattern) (candidate : CandidateV2) (matchOffsets : List Nat) (scheme : Scheme) :
    Res (List Score × List Nat × Matrix Score × Matrix Nat × CandidateV2 × Score × Nat) := do
  let matrixWidth := candidate.base.charLen
  let matrixHeight := pattern.charLen
  let (scoringSlab, scores) ← matrixAlloc B .score (0 : Score) scoringSlab matrixWidth matrixHeight
  let (consecutiveSlab, consecutives) ← matrixAlloc B .index (0 : Nat) consecutiveSlab matrixWidth matrixHeight
  let (start, row) ← matrixRow B scores 0
  let (cstart, crow) ← matrixRow B consecutives 0
  let (row, crow, candidate, maxScore, maxScoreCell) ←
    scoreFirstRow B U row crow (← pattern.char 0) candidate scheme
  let (scores, consecutives, candidate, maxScore, maxScoreCell) ←
    remainingRowsLoop B U scheme pattern matchOffsets (scores.height - 1) 1
      (setRowAt scores start row) (setRowAt consecutives cstart crow) candidate maxScore maxScoreCell
  return (scoringSlab, consecutiveSlab, scores, consecutives, candidate, maxScore, maxScoreCell)

/-- The loop of `matched_ranges`, `/repo/src/metrics/fzf/fzf_v2.rs:590-637`. -/
def tracebackLoop (scores : Matrix Score) (consecutives : Matrix Nat) (candidate : Candidate)
    (startByteOffset : Nat) : (fuel : Nat) → (preferMatch : Bool) → (cell col row : Nat) →
    MatchedRanges → Res MatchedRanges
  | 0, _, _, _, _, _ => .panic
  | fuel + 1, preferMatch, cell, col, row, ranges => do
    let isCellInFirstCol := col == 0
    let isCellInFirstRow := row == 0
    let scoreLeft ←
      if isCellInFirstCol then pure 0
      else (do scores.get (← left B cell) : Res Score)
    let scoreUpLeft ←
      if isCellInFirstCol || isCellInFirstRow then pure 0
      else (do scores.get (← upLeft B scores cell) : Res Score)
    let preferThisMatch := preferMatch
    let this ← consecutives.get cell
    let preferMatch ←
      if this > 1 then pure true
      else (do
        match consecutives.getValue (← downRight B consecutives cell) with
        | some downRight => return decide (downRight > 0)
        | none => return false : Res Bool)
    let score ← scores.get cell
    if score > scoreUpLeft && (score > scoreLeft || (score == scoreLeft && preferThisMatch)) then
      let byteOffset ← toByteOffset B candidate col
      let ch ← candidate.char col
      let byteOffset ← B.usize (byteOffset + startByteOffset)
      let ranges ← rangesInsert B ranges ⟨byteOffset, ← B.usize (byteOffset + lenUtf8 ch)⟩
      if isCellInFirstRow || isCellInFirstCol then
        return ranges
      else
        tracebackLoop scores consecutives candidate startByteOffset fuel preferMatch
          (← upLeft B scores cell) (← B.sub col 1) (← B.sub row 1) ranges
    else if isCellInFirstCol then
      return ranges
    else
      tracebackLoop scores consecutives candidate startByteOffset fuel preferMatch
        (← left B cell) (← B.sub col 1) row ranges

/-- `/repo/src/metrics/fzf/fzf_v2.rs:574-638` `matched_ranges`. -/
def v2MatchedRanges (scores : Matrix Score) (consecutives : Matrix Nat) (maxScoreCell : Nat)
    (candidate : Candidate) (startByteOffset : Nat) (ranges : MatchedRanges) :
    Res MatchedRanges := do
  let col ← scores.colOf maxScoreCell
  let row ← scores.rowOf maxScoreCell
  tracebackLoop B scores consecutives candidate startByteOffset (col + 1) true maxScoreCell col row
    ranges

/-- `/repo/src/metrics/fzf/fzf_v2.rs:642-685` `fuzzy_single_char`. -/
def fuzzySingleChar (U : Unicode) (RANGES : Bool) (patternChar : Char) (candidate : Candidate)
    (opts : CandidateOpts) (scheme : Scheme) (ranges : MatchedRanges) :
    Res (MatchedRanges × Option Score) := do
  let offs ← candidateMatches B candidate patternChar opts.isCaseSensitive opts.charEq
  let (maxScore, maxScorePos) ← singleCharLoop U candidate scheme offs 0 0
  if maxScore == 0 then
    return (ranges, none)
  else
    let ranges ←
      if RANGES then (do
        let start ← toByteOffset B candidate maxScorePos
        let byteLen := lenUtf8 (← candidate.char maxScorePos)
        rangesInsert B ranges ⟨start, ← B.usize (start + byteLen)⟩ : Res MatchedRanges)
      else pure ranges
    return (ranges, some maxScore)

/-- `match_offsets.iter_mut().for_each(|offset| *offset -= first_offset)`,
`/repo/src/metrics/fzf/fzf_v2.rs:309`. -/
def shiftOffsets (first : Nat) : List Nat → Res (List Nat)
  | [] => .ok []
  | off :: rest => do
    let off ← B.sub off first
    return off :: (← shiftOffsets first rest)

/-- `/repo/src/metrics/fzf/fzf_v2.rs:261-332` `fuzzy`. -/
def fuzzyV2 (U : Unicode) (RANGES : Bool) (self : FzfV2) (pattern : Pattern) (candidate : Candidate)
    (ranges : MatchedRanges) : Res (FzfV2 × MatchedRanges × Option Score) := do
  let opts := CandidateOpts.new (isSensitive self.caseSensitivity pattern) self.candidateNormalization
  if pattern.charLen == 1 then
    let (ranges, s) ← fuzzySingleChar B U RANGES (← pattern.char 0) candidate opts
      self.scoringScheme ranges
    return (self, ranges, s)
  else
    let (indices, matchOffsets, lastMatchOffset?) ←
      v2Matches B self.slab.matchedIndices pattern candidate opts
    match lastMatchOffset? with
    | none =>
      return ({ self with slab := { self.slab with
        matchedIndices := writeBack indices matchOffsets } }, ranges, none)
    | some lastMatchOffset =>
      let firstOffset ← getR matchOffsets 0
      let startByteOffset ← if RANGES then toByteOffset B candidate firstOffset else pure 0
      let initialCharClass ←
        if firstOffset == 0 then pure self.scoringScheme.initialCharClass
        else (do
          return charClass U (← candidate.char (firstOffset - 1)) self.scoringScheme : Res CharClass)
      let base ← candidate.slice ⟨firstOffset, lastMatchOffset⟩
      let (bonusSlab, bonuses) ← bonusAlloc B self.slab.bonus base.charLen
      let candidateV2 : CandidateV2 := ⟨bonuses, base, initialCharClass, opts⟩
      let matchOffsets ← shiftOffsets B firstOffset matchOffsets
      let (scoringSlab, consecutiveSlab, scores, consecutives, candidateV2, score, scoreCell) ←
        v2Score B U self.slab.scoringMatrix self.slab.consecutiveMatrix pattern candidateV2
          matchOffsets self.scoringScheme
      let ranges ←
        if RANGES then
          v2MatchedRanges B scores consecutives scoreCell candidateV2.base startByteOffset ranges
        else pure ranges
      return ({ self with slab := {
        bonus := writeBack bonusSlab candidateV2.bonuses
        consecutiveMatrix := writeBack consecutiveSlab consecutives.slice
        matchedIndices := writeBack indices matchOffsets
        scoringMatrix := writeBack scoringSlab scores.slice } }, ranges, some score)

/-- `/repo/src/metrics/fzf/fzf_v2.rs:240-242` `alloc_chars`. -/
def allocCharsV2 (self : FzfV2) (s : List Char) : Res (FzfV2 × List Char) := do
  let (slab, chars) ← candidateAlloc B self.candidateSlab s
  return ({ self with candidateSlab := slab }, chars)

/-- `/repo/src/metrics/fzf/fzf_v2.rs:238-333` `impl Fzf for FzfV2`. -/
def implV2 (U : Unicode) : FzfImpl FzfV2 where
  allocChars := allocCharsV2 B
  charEq := FzfV2.charEq
  scheme := fun self => self.scoringScheme
  fuzzy := fuzzyV2 B U

/-! ### `src/metric.rs` -/

/-- `/repo/src/metric.rs:45-49` `Metric::distance`. -/
def metricDistance (U : Unicode) (q : FzfQuery) (candidate : List Char) :
    Metric → Res (Metric × Option FzfDistance)
  | .v1 m => (distance B U (implV1 B U) false m q candidate []).mapR (fun x => (.v1 x.1, x.2.2))
  | .v2 m => (distance B U (implV2 B U) false m q candidate []).mapR (fun x => (.v2 x.1, x.2.2))

/-- `/repo/src/metric.rs:124-129` `Metric::distance_and_ranges`. -/
def metricDistanceAndRanges (U : Unicode) (q : FzfQuery) (candidate : List Char) (buf : List Range) :
    Metric → Res (Metric × List Range × Option FzfDistance)
  | .v1 m => (distance B U (implV1 B U) true m q candidate buf).mapR (fun x => (.v1 x.1, x.2))
  | .v2 m => (distance B U (implV2 B U) true m q candidate buf).mapR (fun x => (.v2 x.1, x.2))

end Norm.Usize
