import Verif.Model.Metric

/-!
# The same code, counting steps

The documentation gives time complexities (`/repo/src/metrics/fzf/fzf_v1.rs:16-18`, `/repo/src/metrics/fzf/fzf_v2.rs:52-59`). The
functions below repeat those of the main model that a call of a metric runs, and count one step for each

* byte or character of the candidate looked at, or copied to the metric's buffer,
* character of a pattern looked at,
* cell of a matrix, memoised bonus or match offset read, written or cleared,
* element of a buffer of the metric that is made longer, old or new (a reallocation moves the old ones),
* range compared by the binary search when a range is inserted, and range of this call behind the new one (which may be moved).

All loops of the code are loops over such things, and everything else in them takes constant time, so the time of a call is at most
proportional to its steps. Comparing two characters is one step: `/repo/src/normalize.rs` looks a character up in tables of fixed size.
Not counted: the allocator's own work, and moving the ranges of earlier calls when the caller's vector itself is reallocated.

`C69_result` proves that these functions return what those of the main model return. -/

namespace Norm

/-- The outcome of running Rust code, and the number of steps taken (until the panic, if there is one).
Source: `/repo/src/metrics/fzf/fzf_v1.rs:16-18`, `/repo/src/metrics/fzf/fzf_v2.rs:52-59`. -/
structure Timed (α : Type) where
  res : Res α
  steps : Nat

namespace Timed

/-- Sequencing: the steps add up; a panic aborts everything after it.
Source: `/repo/src/metrics/fzf/fzf_v1.rs:16-18`, `/repo/src/metrics/fzf/fzf_v2.rs:52-59`. -/
def bind {α β : Type} (x : Timed α) (f : α → Timed β) : Timed β :=
  match x.res with
  | .ok a => ⟨(f a).res, x.steps + (f a).steps⟩
  | .panic => ⟨.panic, x.steps⟩

instance : Monad Timed where
  pure a := ⟨.ok a, 0⟩
  bind := Timed.bind

/-- `n` steps. Source: `/repo/src/metrics/fzf/fzf_v1.rs:16-18`, `/repo/src/metrics/fzf/fzf_v2.rs:52-59`. -/
def tick (n : Nat) : Timed Unit := ⟨.ok (), n⟩

/-- What takes constant time beside a step counted elsewhere: slicing, arithmetic, `unwrap`.
Source: `/repo/src/metrics/fzf/fzf_v1.rs:16-18`, `/repo/src/metrics/fzf/fzf_v2.rs:52-59`. -/
def free {α : Type} (r : Res α) : Timed α := ⟨r, 0⟩

/-- `v[i]`. Source: `/repo/src/metrics/fzf/fzf_v2.rs:516,524,526,530,596,601,606,611`. -/
def get {α : Type} (l : List α) (i : Nat) : Timed α := ⟨getR l i, 1⟩

/-- `v[i] = a`. Source: `/repo/src/metrics/fzf/fzf_v2.rs:359,448,455,461,473,518,556,558,564`. -/
def set {α : Type} (l : List α) (i : Nat) (a : α) : Timed (List α) := ⟨setR l i a, 1⟩

/-- `if len > v.len() { v.resize(len, fill) }`. Source: `/repo/src/metrics/fzf/slab.rs:64-66,94-96,126-128,193-195`. -/
def grow {α : Type} (l : List α) (len : Nat) (fill : α) : Timed (List α) :=
  if len > l.length then ⟨.ok (resize l len fill), len⟩ else pure l

/-- `MatchedRanges::insert`, `/repo/src/matched_ranges.rs:70-181`: a binary search among the ranges of this call, and `Vec::insert` or
`Vec::remove`, which move the ranges behind the place found. Simplified: those are counted whether or not they are moved, and
of the comparisons of the search (`C96_std`) one may be missing. -/
def insert (m : MatchedRanges) (r : Range) : Timed MatchedRanges :=
  ⟨m.insert r, (m.ranges.drop m.initialLen).length.log2 + 1 +
    ((m.ranges.drop m.initialLen).filter (fun x => r.start ≤ x.start)).length⟩

/-- Looking for the first element satisfying `p` (`memchr`, `memchr2`, `Iterator::find_map`).
Source: `/repo/src/candidate.rs:265-275,291-300`. -/
def findIdx {α : Type} (p : α → Bool) : List α → Timed (Option Nat)
  | [] => pure none
  | a :: l => do
    tick 1
    if p a then return some 0
    else do
      let i ← findIdx p l
      return i.map (· + 1)

/-- Looking for the last element satisfying `p`, from the end (`memrchr`, `memrchr2`, `rev().find_map(..)`).
Source: `/repo/src/candidate.rs:278-288,303-313`. -/
def findLastIdx {α : Type} (p : α → Bool) (l : List α) : Timed (Option Nat) := do
  let i ← findIdx p l.reverse
  return i.map (fun i => l.length - 1 - i)

/-- `memchr_iter` and `memchr2_iter`, run to the end. Source: `/repo/src/candidate.rs:351-374,394-406`. -/
def allIdxFrom {α : Type} (p : α → Bool) : List α → Nat → Timed (List Nat)
  | [], _ => pure []
  | a :: l, off => do
    tick 1
    let rest ← allIdxFrom p l (off + 1)
    return if p a then off :: rest else rest

/-- Counting the elements at the beginning satisfying `p` (`take_while(..).count()`): the first one that does not is looked at, too.
Source: `/repo/src/candidate.rs:145-155,251-261`. -/
def countWhile {α : Type} (p : α → Bool) : List α → Timed Nat
  | [] => pure 0
  | a :: l => do
    tick 1
    if p a then do
      let n ← countWhile p l
      return n + 1
    else return 0

/-! ## `src/candidate.rs` -/

/-- `/repo/src/candidate.rs:424-438` `UnicodeMatches::next`. -/
def unicodeMatchesNext (it : UnicodeMatches) : Timed (Option (Nat × UnicodeMatches)) := do
  let i ← findIdx (fun ch => it.eq it.needle ch) it.haystack
  match i with
  | none => return none
  | some idx => do
    let haystack ← free (sliceFromR it.haystack (idx + 1))
    let offset := it.offset + idx
    return some (offset, { it with haystack := haystack, offset := offset + 1 })

/-- All items of a `UnicodeMatches` iterator. Source: `/repo/src/candidate.rs:424-438`. -/
def unicodeMatchesCollect : (fuel : Nat) → UnicodeMatches → Timed (List Nat)
  | 0, _ => free .panic
  | fuel + 1, it => do
    let next ← unicodeMatchesNext it
    match next with
    | none => return []
    | some (i, it') => do
      let rest ← unicodeMatchesCollect fuel it'
      return i :: rest

/-- `/repo/src/candidate.rs:30-35` `Candidate::char`. -/
def char (c : Candidate) (idx : Nat) : Timed Char := ⟨c.char idx, 1⟩

/-- `/repo/src/candidate.rs:67-93` `Candidate::find_first_from`. -/
def findFirstFrom (c : Candidate) (off : Nat) (ch : Char) (isCaseSensitive : Bool) (eq : CharEq) :
    Timed (Option Nat) :=
  match c with
  | .ascii bs =>
    if !isAscii ch then return none
    else do
      let slice ← free (sliceFromR bs off)
      let i ← findIdx (asciiNeedle (charToByte ch) isCaseSensitive) slice
      return i.map (fun o => o + off)
  | .unicode cs => do
    let slice ← free (sliceFromR cs off)
    let i ← findIdx (fun x => eq ch x) slice
    return i.map (fun o => o + off)

/-- `/repo/src/candidate.rs:97-114` `Candidate::find_last`. -/
def findLast (c : Candidate) (ch : Char) (isCaseSensitive : Bool) (eq : CharEq) : Timed (Option Nat) :=
  match c with
  | .ascii bs =>
    if isAscii ch then findLastIdx (asciiNeedle (charToByte ch) isCaseSensitive) bs else return none
  | .unicode cs => findLastIdx (fun x => eq ch x) cs

/-- `/repo/src/candidate.rs:119-141` `Candidate::find_last_from`. -/
def findLastFrom (c : Candidate) (endOff : Nat) (ch : Char) (isCaseSensitive : Bool) (eq : CharEq) :
    Timed (Option Nat) :=
  match c with
  | .ascii bs =>
    if isAscii ch then do
      let slice ← free (sliceToR bs endOff)
      findLastIdx (asciiNeedle (charToByte ch) isCaseSensitive) slice
    else return none
  | .unicode cs => do
    let slice ← free (sliceToR cs endOff)
    findLastIdx (fun x => eq ch x) slice

/-- `/repo/src/candidate.rs:145-155` `Candidate::leading_spaces`. -/
def leadingSpaces : Candidate → Timed Nat
  | .ascii bs => countWhile (· == 32) bs
  | .unicode cs => countWhile (· == ' ') cs

/-- `/repo/src/candidate.rs:251-261` `Candidate::trailing_spaces`. -/
def trailingSpaces : Candidate → Timed Nat
  | .ascii bs => countWhile (· == 32) bs.reverse
  | .unicode cs => countWhile (· == ' ') cs.reverse

/-- `/repo/src/candidate.rs:351-374` `CandidateMatches::from_ascii`. -/
def matchesAscii (needle : Char) (haystack : List UInt8) (isCaseSensitive : Bool) (startOffset : Nat) :
    Timed (List Nat) :=
  if !isAscii needle then
    unicodeMatchesCollect 1 ⟨needle, [], charEq false false, 0⟩
  else do
    let l ← allIdxFrom (asciiNeedle (charToByte needle) isCaseSensitive) haystack 0
    return l.map (fun o => startOffset + o)

/-- `/repo/src/candidate.rs:377-385` `CandidateMatches::from_unicode`. -/
def matchesUnicode (needle : Char) (haystack : List Char) (eq : CharEq) (startOffset : Nat) :
    Timed (List Nat) := do
  let l ← unicodeMatchesCollect (haystack.length + 1) ⟨needle, haystack, eq, 0⟩
  return l.map (fun o => startOffset + o)

/-- `/repo/src/candidate.rs:159-174` `Candidate::matches`. -/
def «matches» (c : Candidate) (ch : Char) (isCaseSensitive : Bool) (eq : CharEq) : Timed (List Nat) :=
  match c with
  | .ascii bs => matchesAscii ch bs isCaseSensitive 0
  | .unicode cs => matchesUnicode ch cs eq 0

/-- `/repo/src/candidate.rs:178-201` `Candidate::matches_from`. -/
def matchesFrom (c : Candidate) (off : Nat) (ch : Char) (isCaseSensitive : Bool) (eq : CharEq) :
    Timed (List Nat) :=
  match c with
  | .ascii bs => do
    let slice ← free (sliceFromR bs off)
    matchesAscii ch slice isCaseSensitive off
  | .unicode cs => do
    let slice ← free (sliceFromR cs off)
    matchesUnicode ch slice eq off

/-- `/repo/src/candidate.rs:217-224` `Candidate::to_byte_offset`. -/
def toByteOffset (c : Candidate) (off : Nat) : Timed Nat :=
  match c with
  | .ascii _ => return off
  | .unicode cs => do
    let s ← free (sliceToR cs off)
    tick s.length
    return (s.map lenUtf8).sum

/-- `/repo/src/candidate.rs:228-247` `Candidate::to_byte_range`. -/
def toByteRange (c : Candidate) (r : Range) : Timed Range :=
  match c with
  | .ascii _ => return r
  | .unicode cs => do
    let s ← free (sliceToR cs r.stop)
    tick s.length
    let start := ((s.take r.start).map lenUtf8).sum
    let stop := start + ((s.drop r.start).map lenUtf8).sum
    return ⟨start, stop⟩

/-! ## `src/metrics/fzf/slab.rs` and `src/metrics/fzf/candidate.rs` -/

/-- `/repo/src/metrics/fzf/slab.rs:63-75` `BonusSlab::alloc`. -/
def bonusAlloc (vec : List BonusCell) (len : Nat) : Timed (List BonusCell × List BonusCell) := do
  let vec ← grow vec len BonusCell.default
  let slice ← free (sliceToR vec len)
  tick slice.length
  return (vec, slice.map (fun b => { b with isSet := false }))

/-- `/repo/src/metrics/fzf/slab.rs:100-103` the `for` loop of `CandidateSlab::alloc`. -/
def slabWriteChars (chars : List Char) : List Char → (charLen : Nat) → Timed (List Char × Nat)
  | [], charLen => pure (chars, charLen)
  | ch :: rest, charLen => do
    let chars ← set chars charLen ch
    slabWriteChars chars rest (charLen + 1)

/-- `/repo/src/metrics/fzf/slab.rs:93-106` `CandidateSlab::alloc`. -/
def candidateAlloc (chars : List Char) (text : List Char) : Timed (List Char × List Char) := do
  let chars ← grow chars (strLen text) (Char.ofNat 0)
  let (chars, charLen) ← slabWriteChars chars text 0
  let view ← free (sliceToR chars charLen)
  return (chars, view)

/-- `/repo/src/metrics/fzf/slab.rs:125-131` `MatchedIndicesSlab::alloc`. -/
def indicesAlloc (vec : List Nat) (len : Nat) : Timed (List Nat × List Nat) := do
  let vec ← grow vec len 0
  let view ← free (sliceToR vec len)
  return (vec, view)

/-- `/repo/src/metrics/fzf/slab.rs:190-202` `MatrixSlab::alloc`. -/
def matrixAlloc {α : Type} (fill : α) (vec : List α) (width height : Nat) :
    Timed (List α × Matrix α) := do
  free (Res.assert (height * width > 0))
  let vec ← grow vec (height * width) fill
  let slice ← free (sliceToR vec (height * width))
  tick slice.length
  return (vec, ⟨slice.map (fun _ => fill), height, width⟩)

/-- `/repo/src/metrics/fzf/candidate.rs:49-69` `bonus_at`. -/
def bonusAt (U : Unicode) (c : CandidateV2) (charIdx : Nat) (scheme : Scheme) :
    Timed (CandidateV2 × Score) := do
  let bonus ← get c.bonuses charIdx
  if bonus.isSet then
    return (c, bonus.get)
  else do
    let prevClass ←
      if charIdx == 0 then pure c.initialCharClass
      else (do
        let ch ← char c.base (charIdx - 1)
        return charClass U ch scheme : Timed CharClass)
    let ch ← char c.base charIdx
    let thisClass := charClass U ch scheme
    let bonus := BonusCell.set (computeBonus prevClass thisClass scheme)
    let bonuses ← set c.bonuses charIdx bonus
    return ({ c with bonuses := bonuses }, bonus.get)

/-! ## `src/metrics/fzf/fzf.rs` -/

/-- The `for` loop of `compute_score`, `/repo/src/metrics/fzf/fzf.rs:524-583`. -/
def computeScoreLoop (U : Unicode) (RANGES : Bool) (eq : CharEq) (scheme : Scheme)
    (byteRangeStart : Nat) : List Char → ScoreState → Timed ScoreState
  | [], st => pure st
  | candidateCh :: rest, st => do
    tick 1
    let chClass := charClass U candidateCh scheme
    if eq st.patternChar candidateCh then
      let bonus := computeBonus st.prevClass chClass scheme
      let firstBonus :=
        if st.consecutive == 0 then bonus
        else if bonus ≥ Bonus.boundary && bonus > st.firstBonus then bonus
        else st.firstBonus
      let bonus :=
        if st.consecutive == 0 then bonus
        else max (max bonus firstBonus) Bonus.consecutive
      let score := st.score + Bonus.match +
        (if st.isFirstPatternChar then bonus * Bonus.firstQueryCharMultiplier else bonus)
      let ranges ←
        if RANGES then
          let start := byteRangeStart + st.byteOffset
          insert st.ranges ⟨start, start + lenUtf8 candidateCh⟩
        else pure st.ranges
      let st := { st with
        firstBonus := firstBonus, score := score, ranges := ranges, isInGap := false,
        isFirstPatternChar := false, consecutive := st.consecutive + 1 }
      tick 1
      match st.patternChars with
      | nextChar :: patternChars =>
        computeScoreLoop U RANGES eq scheme byteRangeStart rest { st with
          patternChar := nextChar, patternChars := patternChars, prevClass := chClass,
          byteOffset := if RANGES then st.byteOffset + lenUtf8 candidateCh else st.byteOffset }
      | [] => return st
    else
      let score := st.score - (if st.isInGap then Penalty.gapExtension else Penalty.gapStart)
      computeScoreLoop U RANGES eq scheme byteRangeStart rest { st with
        score := score, isInGap := true, consecutive := 0, firstBonus := 0, prevClass := chClass,
        byteOffset := if RANGES then st.byteOffset + lenUtf8 candidateCh else st.byteOffset }

/-- `/repo/src/metrics/fzf/fzf.rs:484-586` `compute_score`. -/
def computeScore (U : Unicode) (RANGES : Bool) (pattern : Pattern) (candidate : Candidate)
    (charRange : Range) (eq : CharEq) (scheme : Scheme) (ranges : MatchedRanges) :
    Timed (MatchedRanges × Score) := do
  let byteRangeStart ← if RANGES then toByteOffset candidate charRange.start else pure 0
  let prevClass ←
    if charRange.start == 0 then pure scheme.initialCharClass
    else (do
      let ch ← char candidate (charRange.start - 1)
      return charClass U ch scheme : Timed CharClass)
  tick 1
  let patternChar ← free (Res.unwrap pattern.text.head?)
  let slice ← free (candidate.slice charRange)
  let chars ← free slice.chars
  let st ← computeScoreLoop U RANGES eq scheme byteRangeStart chars {
    isInGap := false, isFirstPatternChar := true, firstBonus := 0, consecutive := 0
    byteOffset := 0, prevClass := prevClass, patternChars := pattern.text.tail
    patternChar := patternChar, score := 0, ranges := ranges }
  return (st.ranges, st.score)

/-- The inner `for` loop of `exact_match`, `/repo/src/metrics/fzf/fzf.rs:213-251`. -/
def exactInner (U : Unicode) (pattern : Pattern) (eq : CharEq) (scheme : Scheme)
    (currentStartOffset : Nat) : List Char → (charOffset : Nat) → ExactState →
    Timed (ExactExit × ExactState)
  | [], _, st => pure (.done [], st)
  | candidateCh :: rest, charOffset, st => do
    tick 2
    let patternCh ← free (pattern.char st.patternCharIdx)
    let chClass := charClass U candidateCh scheme
    if eq patternCh candidateCh then
      let st :=
        if st.patternCharIdx == 0 then
          { st with
            bonusStart := currentStartOffset + charOffset
            startOffset := st.startOffset + (charOffset + 1)
            currentBonus := computeBonus st.prevClass chClass scheme }
        else st
      let st := { st with patternCharIdx := st.patternCharIdx + 1 }
      if st.patternCharIdx == pattern.charLen then
        let st := { st with matched := true }
        let st :=
          if st.currentBonus > st.bestBonus then
            { st with
              bestBonus := st.currentBonus
              bestBonusCharStart := st.bonusStart
              bestBonusCharEnd := currentStartOffset + charOffset + 1 }
          else st
        if st.currentBonus ≥ Bonus.boundary then
          return (.breakOuter, st)
        else
          return (.done rest, st)
      else
        exactInner U pattern eq scheme currentStartOffset rest (charOffset + 1)
          { st with prevClass := chClass }
    else if st.patternCharIdx > 0 then
      return (.done rest, st)
    else
      exactInner U pattern eq scheme currentStartOffset rest (charOffset + 1)
        { st with prevClass := chClass }

/-- The `'outer` loop of `exact_match`, `/repo/src/metrics/fzf/fzf.rs:205-256`. -/
def exactOuter (U : Unicode) (pattern : Pattern) (candidate : Candidate) (eq : CharEq)
    (scheme : Scheme) : (fuel : Nat) → ExactState → Timed ExactState
  | 0, _ => free .panic
  | fuel + 1, st => do
    let currentStartOffset := st.startOffset
    let st := { st with bonusStart := 0, currentBonus := 0, patternCharIdx := 0 }
    let chars ← free (candidate.charsFrom st.startOffset)
    let (exit, st) ← exactInner U pattern eq scheme currentStartOffset chars 0 st
    match exit with
    | .breakOuter => return st
    | .done [] => return st
    | .done (_ :: _) => exactOuter U pattern candidate eq scheme fuel st

/-- The common tail of the exact matchers: `/repo/src/metrics/fzf/fzf.rs:264-277,317-330,372-385,436-449`. -/
def finishExact (U : Unicode) (RANGES : Bool) (pattern : Pattern) (candidate : Candidate)
    (matchedRange : Range) (eq : CharEq) (scheme : Scheme) (ranges : MatchedRanges) :
    Timed (MatchedRanges × Option Score) := do
  let (ranges, score) ← computeScore U false pattern candidate matchedRange eq scheme ranges
  let ranges ←
    if RANGES then (do
      let r ← toByteRange candidate matchedRange
      insert ranges r : Timed MatchedRanges)
    else pure ranges
  return (ranges, some score)

/-- `/repo/src/metrics/fzf/fzf.rs:178-278` `exact_match`. -/
def exactMatch (U : Unicode) (RANGES : Bool) (pattern : Pattern) (candidate : Candidate)
    (eq : CharEq) (scheme : Scheme) (ranges : MatchedRanges) :
    Timed (MatchedRanges × Option Score) := do
  if pattern.isEmpty then
    return (ranges, some 0)
  else
    let st ← exactOuter U pattern candidate eq scheme (candidate.charLen + 1) {
      bestBonus := -1, bestBonusCharStart := 0, bestBonusCharEnd := 0, matched := false
      prevClass := scheme.initialCharClass, startOffset := 0
      bonusStart := 0, currentBonus := 0, patternCharIdx := 0 }
    if !st.matched then
      return (ranges, none)
    else
      finishExact U RANGES pattern candidate ⟨st.bestBonusCharStart, st.bestBonusCharEnd⟩ eq scheme
        ranges

/-- `/repo/src/metrics/fzf/fzf.rs:454-465` `ignored_candidate_leading_spaces`. -/
def ignoredCandidateLeadingSpaces (pattern : Pattern) (candidate : Candidate) : Timed (Option Nat) := do
  let candidateLeadingSpaces ← leadingSpaces candidate
  if pattern.leadingSpaces > candidateLeadingSpaces then return none
  else do
    let n ← free (subR candidateLeadingSpaces pattern.leadingSpaces)
    return some n

/-- `/repo/src/metrics/fzf/fzf.rs:469-480` `ignored_candidate_trailing_spaces`. -/
def ignoredCandidateTrailingSpaces (pattern : Pattern) (candidate : Candidate) : Timed (Option Nat) := do
  let candidateTrailingSpaces ← trailingSpaces candidate
  if pattern.trailingSpaces > candidateTrailingSpaces then return none
  else do
    let n ← free (subR candidateTrailingSpaces pattern.trailingSpaces)
    return some n

/-- The `zip` loops of the prefix, suffix and equal matchers
(`/repo/src/metrics/fzf/fzf.rs:298-305,351-360,424-430`). -/
def zipLoop (eq : CharEq) (patternFirst : Bool) :
    (pattern candidate : List Char) → Timed (Option (List Char × List Char))
  | p :: ps, c :: cs => do
    tick 2
    if eq p c then zipLoop eq patternFirst ps cs else return none
  | [], cs => do
    tick 1
    return some ([], cs)
  | p :: ps, [] => do
    tick 1
    return some (if patternFirst then ps else p :: ps, [])

/-- `/repo/src/metrics/fzf/fzf.rs:282-331` `prefix_match`. -/
def prefixMatch (U : Unicode) (RANGES : Bool) (pattern : Pattern) (candidate : Candidate)
    (eq : CharEq) (scheme : Scheme) (ranges : MatchedRanges) :
    Timed (MatchedRanges × Option Score) := do
  if pattern.isEmpty then
    return (ranges, some 0)
  else
    let ignored ← ignoredCandidateLeadingSpaces pattern candidate
    match ignored with
    | none => return (ranges, none)
    | some ignoredLeadingSpaces => do
      let chars ← free (candidate.charsFrom ignoredLeadingSpaces)
      let rests ← zipLoop eq false pattern.text chars
      match rests with
      | none => return (ranges, none)
      | some (_ :: _, _) => return (ranges, none)
      | some ([], _) =>
        finishExact U RANGES pattern candidate
          ⟨ignoredLeadingSpaces, ignoredLeadingSpaces + pattern.charLen⟩ eq scheme ranges

/-- `/repo/src/metrics/fzf/fzf.rs:335-386` `suffix_match`. -/
def suffixMatch (U : Unicode) (RANGES : Bool) (pattern : Pattern) (candidate : Candidate)
    (eq : CharEq) (scheme : Scheme) (ranges : MatchedRanges) :
    Timed (MatchedRanges × Option Score) := do
  if pattern.isEmpty then
    return (ranges, some 0)
  else
    let ignored ← ignoredCandidateTrailingSpaces pattern candidate
    match ignored with
    | none => return (ranges, none)
    | some ignoredTrailingSpaces => do
      let upToIgnoredSpaces ← free (subR candidate.charLen ignoredTrailingSpaces)
      let slice ← free (candidate.slice ⟨0, upToIgnoredSpaces⟩)
      let chars ← free slice.chars
      let rests ← zipLoop eq false pattern.text.reverse chars.reverse
      match rests with
      | none => return (ranges, none)
      | some (_ :: _, _) => return (ranges, none)
      | some ([], _) => do
        let start ← free (subR upToIgnoredSpaces pattern.charLen)
        finishExact U RANGES pattern candidate ⟨start, upToIgnoredSpaces⟩ eq scheme ranges

/-- `/repo/src/metrics/fzf/fzf.rs:390-450` `equal_match`. -/
def equalMatch (U : Unicode) (RANGES : Bool) (pattern : Pattern) (candidate : Candidate)
    (eq : CharEq) (scheme : Scheme) (ranges : MatchedRanges) :
    Timed (MatchedRanges × Option Score) := do
  if pattern.isEmpty then
    return (ranges, some 0)
  else
    let ignored ← ignoredCandidateLeadingSpaces pattern candidate
    match ignored with
    | none => return (ranges, none)
    | some ignoredLeadingSpaces =>
      if ignoredLeadingSpaces == candidate.charLen then
        return (ranges, none)
      else do
        let ignored ← ignoredCandidateTrailingSpaces pattern candidate
        match ignored with
        | none => return (ranges, none)
        | some ignoredTrailingSpaces => do
          let stop ← free (subR candidate.charLen ignoredTrailingSpaces)
          let matchedCharRange : Range := ⟨ignoredLeadingSpaces, stop⟩
          if matchedCharRange.len < pattern.charLen then
            return (ranges, none)
          else do
            let slice ← free (candidate.slice matchedCharRange)
            let chars ← free slice.chars
            let rests ← zipLoop eq true pattern.text chars
            match rests with
            | none => return (ranges, none)
            | some (patternRest, candidateRest) =>
              if !patternRest.isEmpty || !candidateRest.isEmpty then
                return (ranges, none)
              else
                finishExact U RANGES pattern candidate matchedCharRange eq scheme ranges

end Timed

/-- `/repo/src/metrics/fzf/fzf.rs:8-24` the required methods of the trait `Fzf`, for a metric with state `σ`. -/
structure TimedImpl (σ : Type) where
  allocChars : σ → List Char → Timed (σ × List Char)
  charEq : σ → Pattern → CharEq
  scheme : σ → Scheme
  fuzzy : (RANGES : Bool) → σ → Pattern → Candidate → MatchedRanges →
    Timed (σ × MatchedRanges × Option Score)

namespace TimedImpl
open Timed
variable {σ : Type}

/-- `/repo/src/metrics/fzf/fzf.rs:27-136` `Fzf::score`. -/
def score (U : Unicode) (I : TimedImpl σ) (RANGES : Bool) (self : σ) (pattern : Pattern)
    (candidate : Candidate) (ranges : MatchedRanges) : Timed (σ × MatchedRanges × Option Score) := do
  let R := if pattern.isInverse then false else RANGES
  let (self, ranges, score) ←
    match pattern.matchType with
    | .fuzzy => I.fuzzy R self pattern candidate ranges
    | .exact => do
      let (ranges, s) ← Timed.exactMatch U R pattern candidate (I.charEq self pattern) (I.scheme self) ranges
      pure (self, ranges, s)
    | .prefixExact => do
      let (ranges, s) ← Timed.prefixMatch U R pattern candidate (I.charEq self pattern) (I.scheme self) ranges
      pure (self, ranges, s)
    | .suffixExact => do
      let (ranges, s) ← Timed.suffixMatch U R pattern candidate (I.charEq self pattern) (I.scheme self) ranges
      pure (self, ranges, s)
    | .equalExact => do
      let (ranges, s) ← Timed.equalMatch U R pattern candidate (I.charEq self pattern) (I.scheme self) ranges
      pure (self, ranges, s)
  match score.isSome, pattern.isInverse with
  | true, false => return (self, ranges, score)
  | false, true => return (self, ranges, some 0)
  | _, _ => return (self, ranges, none)

/-- `condition.iter().find_map(|pattern| self.score(..))`, `/repo/src/metrics/fzf/fzf.rs:166-168`. -/
def scoreCondition (U : Unicode) (I : TimedImpl σ) (RANGES : Bool) (candidate : Candidate) :
    List Pattern → σ → MatchedRanges → Timed (σ × MatchedRanges × Option Score)
  | [], self, ranges => pure (self, ranges, none)
  | pattern :: rest, self, ranges => do
    tick 1
    let (self, ranges, s) ← I.score U RANGES self pattern candidate ranges
    match s with
    | some s => return (self, ranges, some s)
    | none => scoreCondition U I RANGES candidate rest self ranges

/-- The `for` loop over conditions, `/repo/src/metrics/fzf/fzf.rs:164-170`. -/
def scoreConditions (U : Unicode) (I : TimedImpl σ) (RANGES : Bool) (candidate : Candidate) :
    List Condition → σ → MatchedRanges → (totalScore : Score) →
    Timed (σ × MatchedRanges × Option Score)
  | [], self, ranges, totalScore => pure (self, ranges, some totalScore)
  | condition :: rest, self, ranges, totalScore => do
    tick 1
    let (self, ranges, s) ← scoreCondition U I RANGES candidate condition self ranges
    match s with
    | none => return (self, ranges, none)
    | some s => scoreConditions U I RANGES candidate rest self ranges (totalScore + s)

/-- `/repo/src/metrics/fzf/fzf.rs:140-173` `Fzf::distance`. `is_ascii` looks at all bytes. -/
def distance (U : Unicode) (I : TimedImpl σ) (RANGES : Bool) (self : σ) (query : FzfQuery)
    (candidate : List Char) (ranges : List Range) :
    Timed (σ × List Range × Option FzfDistance) := do
  if query.isEmpty then
    return (self, ranges, some (FzfDistance.fromScore 0))
  else
    tick (strLen candidate)
    let (self, candidate) ←
      if strIsAscii candidate then pure (self, Candidate.ascii (strBytes candidate))
      else (do
        let (self, chars) ← I.allocChars self candidate
        return (self, Candidate.unicode chars) : Timed (σ × Candidate))
    let ranges := MatchedRanges.ofVec ranges
    let (self, ranges, s) ←
      match query with
      | .notExtended pattern => I.fuzzy RANGES self pattern candidate ranges
      | .extended conditions => I.scoreConditions U RANGES candidate conditions self ranges 0
    return (self, ranges.ranges, s.map FzfDistance.fromScore)

end TimedImpl

namespace Timed

/-! ## `src/metrics/fzf/fzf_v1.rs` -/

/-- The loop of `forward_pass`, `/repo/src/metrics/fzf/fzf_v1.rs:296-309`. -/
def forwardLoop (candidate : Candidate) (opts : CandidateOpts) :
    (patternChars : List Char) → (patternChar : Char) → (endOffset : Nat) → Timed (Option Nat)
  | rest, patternChar, endOffset => do
    tick 1
    let found ← findFirstFrom candidate endOffset patternChar opts.isCaseSensitive opts.charEq
    match found with
    | none => return none
    | some off =>
      match rest with
      | next :: rest => forwardLoop candidate opts rest next (off + 1)
      | [] => return some (off + 1)

/-- `/repo/src/metrics/fzf/fzf_v1.rs:285-310` `forward_pass`. -/
def forwardPass (pattern : Pattern) (candidate : Candidate) (opts : CandidateOpts) :
    Timed (Option Nat) :=
  match pattern.text with
  | [] => pure none
  | patternChar :: rest => forwardLoop candidate opts rest patternChar 0

/-- The loop of `backward_pass`, `/repo/src/metrics/fzf/fzf_v1.rs:326-341`. -/
def backwardLoop (candidate : Candidate) (opts : CandidateOpts) :
    (patternChars : List Char) → (patternChar : Char) → (startOffset : Nat) → Timed Nat
  | rest, patternChar, startOffset => do
    tick 1
    let found ← findLastFrom candidate startOffset patternChar opts.isCaseSensitive opts.charEq
    let off ← free (Res.unwrap found)
    match rest with
    | next :: rest => backwardLoop candidate opts rest next off
    | [] => return off

/-- `/repo/src/metrics/fzf/fzf_v1.rs:314-342` `backward_pass`. -/
def backwardPass (pattern : Pattern) (candidate : Candidate) (endOffset : Nat)
    (opts : CandidateOpts) : Timed Nat :=
  match pattern.text.reverse with
  | [] => free .panic
  | patternChar :: rest => backwardLoop candidate opts rest patternChar endOffset

namespace V1

/-- `/repo/src/metrics/fzf/fzf_v1.rs:229-231` `alloc_chars`. -/
def allocChars (self : FzfV1) (s : List Char) : Timed (FzfV1 × List Char) := do
  let (slab, chars) ← candidateAlloc self.candidateSlab s
  return ({ self with candidateSlab := slab }, chars)

/-- `/repo/src/metrics/fzf/fzf_v1.rs:250-280` `fuzzy`. -/
def fuzzy (U : Unicode) (RANGES : Bool) (self : FzfV1) (pattern : Pattern) (candidate : Candidate)
    (ranges : MatchedRanges) : Timed (FzfV1 × MatchedRanges × Option Score) := do
  let opts := CandidateOpts.new (isSensitive self.caseSensitivity pattern) self.candidateNormalization
  let endForward? ← forwardPass pattern candidate opts
  match endForward? with
  | none => return (self, ranges, none)
  | some endForward => do
    let startBackward ← backwardPass pattern candidate endForward opts
    let (ranges, score) ← computeScore U RANGES pattern candidate ⟨startBackward, endForward⟩
      opts.charEq self.scoringScheme ranges
    return (self, ranges, some score)

/-- `/repo/src/metrics/fzf/fzf_v1.rs:227-281` `impl Fzf for FzfV1`. -/
def impl (U : Unicode) : TimedImpl FzfV1 where
  allocChars := allocChars
  charEq := FzfV1.charEq
  scheme := fun self => self.scoringScheme
  fuzzy := fuzzy U

end V1

/-! ## `src/metrics/fzf/fzf_v2.rs` -/

/-- The loop of `matches`, `/repo/src/metrics/fzf/fzf_v2.rs:349-368`. -/
def matchesLoop (pattern : Pattern) (candidate : Candidate) (opts : CandidateOpts) :
    (fuel : Nat) → (matchOffsets : List Nat) → (patternCharIdx lastMatchOffset : Nat) →
    Timed (List Nat × Option Nat)
  | 0, _, _, _ => free .panic
  | fuel + 1, matchOffsets, patternCharIdx, lastMatchOffset => do
    tick 1
    let patternChar ← free (pattern.char patternCharIdx)
    let found ← findFirstFrom candidate lastMatchOffset patternChar opts.isCaseSensitive opts.charEq
    match found with
    | none => return (matchOffsets, none)
    | some off => do
      let matchOffsets ← set matchOffsets patternCharIdx off
      if patternCharIdx + 1 < pattern.charLen then
        matchesLoop pattern candidate opts fuel matchOffsets (patternCharIdx + 1) (off + 1)
      else
        return (matchOffsets, some patternCharIdx)

/-- `/repo/src/metrics/fzf/fzf_v2.rs:337-380` `matches`. -/
def v2Matches (indices : List Nat) (pattern : Pattern) (candidate : Candidate)
    (opts : CandidateOpts) : Timed (List Nat × List Nat × Option Nat) := do
  let (indices, matchOffsets) ← indicesAlloc indices pattern.charLen
  let (matchOffsets, r) ←
    matchesLoop pattern candidate opts (pattern.charLen + 1) matchOffsets 0 0
  match r with
  | none => return (indices, matchOffsets, none)
  | some patternCharIdx => do
    tick 1
    let patternChar ← free (pattern.char patternCharIdx)
    let found ← findLast candidate patternChar opts.isCaseSensitive opts.charEq
    let last ← free (Res.unwrap found)
    return (indices, matchOffsets, some (last + 1))

/-- The gap loops of `score_first_row` (`/repo/src/metrics/fzf/fzf_v2.rs:446-451,471-476`). -/
def firstRowGap : (n : Nat) → (col : Nat) → (row : List Score) → (prevScore penalty : Score) →
    Timed (List Score × Score × Score)
  | 0, _, row, prevScore, penalty => pure (row, prevScore, penalty)
  | n + 1, col, row, prevScore, penalty => do
    let score := saturatingSub prevScore penalty
    let row ← set row col score
    firstRowGap n (col + 1) row score Penalty.gapExtension

/-- The `for` loop of `score_first_row`, `/repo/src/metrics/fzf/fzf_v2.rs:443-469`. -/
def firstRowLoop (U : Unicode) (scheme : Scheme) : List Nat → FirstRowState → Timed FirstRowState
  | [], st => pure st
  | charOffset :: rest, st => do
    let penalty := Penalty.gapStart
    let (scores, _, penalty) ←
      firstRowGap (charOffset - (st.column + 1)) (st.column + 1) st.scores st.prevScore penalty
    let column := charOffset
    let consecutives ← set st.consecutives column 1
    let (candidate, bonus) ← bonusAt U st.candidate column scheme
    let score := Bonus.match + bonus * Bonus.firstQueryCharMultiplier
    let scores ← set scores column score
    let (maxScore, maxScoreCol) :=
      if score > st.maxScore then (score, column) else (st.maxScore, st.maxScoreCol)
    firstRowLoop U scheme rest {
      scores := scores, consecutives := consecutives, candidate := candidate
      maxScore := maxScore, prevScore := score, maxScoreCol := maxScoreCol, column := column
      penalty := penalty }

/-- `/repo/src/metrics/fzf/fzf_v2.rs:426-479` `score_first_row`. -/
def scoreFirstRow (U : Unicode) (scores : List Score) (consecutives : List Nat)
    (firstPatternChar : Char) (candidate : CandidateV2) (scheme : Scheme) :
    Timed (List Score × List Nat × CandidateV2 × Score × Nat) := do
  let offs ← «matches» candidate.base firstPatternChar candidate.opts.isCaseSensitive
    candidate.opts.charEq
  let st ← firstRowLoop U scheme offs {
    scores := scores, consecutives := consecutives, candidate := candidate, maxScore := 0
    prevScore := 0, maxScoreCol := 0, column := 0, penalty := Penalty.gapStart }
  let (scores, _, _) ←
    firstRowGap (st.scores.length - (st.column + 1)) (st.column + 1) st.scores st.prevScore st.penalty
  return (scores, st.consecutives, st.candidate, st.maxScore, st.maxScoreCol)

/-- The gap loops of `score_remaining_rows` (`/repo/src/metrics/fzf/fzf_v2.rs:515-520,561-566`). -/
def rowGap : (n : Nat) → (col : Nat) → (row : List Score) → (penalty : Score) →
    Timed (List Score × Score)
  | 0, _, row, penalty => pure (row, penalty)
  | n + 1, col, row, penalty => do
    let i ← free (subR col 1)
    let scoreLeft ← get row i
    let row ← set row col (saturatingSub scoreLeft penalty)
    rowGap n (col + 1) row Penalty.gapExtension

/-- The `for char_offset in ..` loop of `score_remaining_rows`,
`/repo/src/metrics/fzf/fzf_v2.rs:510-559`. -/
def rowLoop (U : Unicode) (scheme : Scheme) (matrixWidth rowIdx : Nat)
    (prevScores : List Score) (prevConsecutives : List Nat) :
    List Nat → RowState → Timed RowState
  | [], st => pure st
  | charOffset :: rest, st => do
    let penalty := Penalty.gapStart
    let (scores, penalty) ←
      rowGap (charOffset - (st.column + 1)) (st.column + 1) st.scores penalty
    let column := charOffset
    let i ← free (subR column 1)
    let left ← get scores i
    let scoreLeft := saturatingSub left penalty
    let i ← free (subR column 1)
    let upLeft ← get prevScores i
    let scoreUpLeft := upLeft + Bonus.match
    let (candidate, bonus) ← bonusAt U st.candidate column scheme
    let i ← free (subR column 1)
    let prevConsecutive ← get prevConsecutives i
    let consecutive := prevConsecutive + 1
    let (candidate, bonus, consecutive) ←
      if consecutive > 1 then
        (do
          let j ← free (subR (column + 1) consecutive)
          let (candidate, fb) ← bonusAt U candidate j scheme
          if bonus ≥ Bonus.boundary && bonus > fb then
            return (candidate, bonus, 1)
          else
            return (candidate, max (max Bonus.consecutive fb) bonus, consecutive) :
          Timed (CandidateV2 × Score × Nat))
      else pure (candidate, bonus, consecutive)
    let (candidate, scoreUpLeft, consecutive) ←
      if scoreUpLeft + bonus < scoreLeft then
        (do
          let (candidate, b) ← bonusAt U candidate column scheme
          return (candidate, scoreUpLeft + b, 0) : Timed (CandidateV2 × Score × Nat))
      else pure (candidate, scoreUpLeft + bonus, consecutive)
    let score := max scoreLeft scoreUpLeft
    let (maxScore, maxScoreCell) :=
      if score > st.maxScore then (score, rowIdx * matrixWidth + column)
      else (st.maxScore, st.maxScoreCell)
    let consecutives ← set st.consecutives column consecutive
    let scores ← set scores column score
    rowLoop U scheme matrixWidth rowIdx prevScores prevConsecutives rest {
      scores := scores, consecutives := consecutives, candidate := candidate
      maxScore := maxScore, maxScoreCell := maxScoreCell, column := column, penalty := penalty }

/-- The `for row_idx` loop, `/repo/src/metrics/fzf/fzf_v2.rs:495-567`. -/
def remainingRowsLoop (U : Unicode) (scheme : Scheme) (pattern : Pattern) (matchOffsets : List Nat) :
    (n : Nat) → (rowIdx : Nat) → Matrix Score → Matrix Nat → CandidateV2 → Score → Nat →
    Timed (Matrix Score × Matrix Nat × CandidateV2 × Score × Nat)
  | 0, _, scores, consecutives, candidate, maxScore, maxScoreCell =>
    pure (scores, consecutives, candidate, maxScore, maxScoreCell)
  | n + 1, rowIdx, scores, consecutives, candidate, maxScore, maxScoreCell => do
    let matrixWidth := scores.width
    tick 1
    let patternChar ← free (pattern.char rowIdx)
    let prevRow ← free (subR rowIdx 1)
    let (prevScoresRow, scoresRow) ← free (scores.twoRows prevRow rowIdx)
    let prevRow ← free (subR rowIdx 1)
    let (prevConsecutivesRow, consecutivesRow) ← free (consecutives.twoRows prevRow rowIdx)
    let firstMatchOffset ← get matchOffsets rowIdx
    let offs ← matchesFrom candidate.base firstMatchOffset patternChar candidate.opts.isCaseSensitive
      candidate.opts.charEq
    let st ← rowLoop U scheme matrixWidth rowIdx prevScoresRow prevConsecutivesRow offs {
      scores := scoresRow, consecutives := consecutivesRow, candidate := candidate
      maxScore := maxScore, maxScoreCell := maxScoreCell, column := firstMatchOffset
      penalty := Penalty.gapStart }
    let (scoresRow, _) ←
      rowGap (matrixWidth - (st.column + 1)) (st.column + 1) st.scores st.penalty
    remainingRowsLoop U scheme pattern matchOffsets n (rowIdx + 1)
      (scores.setRow rowIdx scoresRow) (consecutives.setRow rowIdx st.consecutives)
      st.candidate st.maxScore st.maxScoreCell

/-- `/repo/src/metrics/fzf/fzf_v2.rs:384-422` `score` and `483-570` `score_remaining_rows`. -/
def v2Score (U : Unicode) (scoringSlab : List Score) (consecutiveSlab : List Nat)
    (pattern : Pattern) (candidate : CandidateV2) (matchOffsets : List Nat) (scheme : Scheme) :
    Timed (List Score × List Nat × Matrix Score × Matrix Nat × CandidateV2 × Score × Nat) := do
  let matrixWidth := candidate.base.charLen
  let matrixHeight := pattern.charLen
  let (scoringSlab, scores) ← matrixAlloc (0 : Score) scoringSlab matrixWidth matrixHeight
  let (consecutiveSlab, consecutives) ← matrixAlloc (0 : Nat) consecutiveSlab matrixWidth matrixHeight
  let row ← free (scores.row 0)
  let crow ← free (consecutives.row 0)
  tick 1
  let firstPatternChar ← free (pattern.char 0)
  let (row, crow, candidate, maxScore, maxScoreCell) ←
    scoreFirstRow U row crow firstPatternChar candidate scheme
  let (scores, consecutives, candidate, maxScore, maxScoreCell) ←
    remainingRowsLoop U scheme pattern matchOffsets (scores.height - 1) 1
      (scores.setRow 0 row) (consecutives.setRow 0 crow) candidate maxScore maxScoreCell
  return (scoringSlab, consecutiveSlab, scores, consecutives, candidate, maxScore, maxScoreCell)

/-- The loop of `matched_ranges`, `/repo/src/metrics/fzf/fzf_v2.rs:590-637`. -/
def tracebackLoop (scores : Matrix Score) (consecutives : Matrix Nat) (candidate : Candidate)
    (startByteOffset : Nat) : (fuel : Nat) → (preferMatch : Bool) → (cell col row : Nat) →
    MatchedRanges → Timed MatchedRanges
  | 0, _, _, _, _, _ => free .panic
  | fuel + 1, preferMatch, cell, col, row, ranges => do
    let isCellInFirstCol := col == 0
    let isCellInFirstRow := row == 0
    let scoreLeft ←
      if isCellInFirstCol then pure 0
      else (do
        let i ← free (scores.left cell)
        get scores.slice i : Timed Score)
    let scoreUpLeft ←
      if isCellInFirstCol || isCellInFirstRow then pure 0
      else (do
        let i ← free (scores.upLeft cell)
        get scores.slice i : Timed Score)
    let preferThisMatch := preferMatch
    let here ← get consecutives.slice cell
    tick 1
    let preferMatch := here > 1
      || (match consecutives.getValue (consecutives.downRight cell) with
          | some downRight => decide (downRight > 0)
          | none => false)
    let score ← get scores.slice cell
    if score > scoreUpLeft && (score > scoreLeft || (score == scoreLeft && preferThisMatch)) then do
      let byteOffset ← toByteOffset candidate col
      let ch ← char candidate col
      let byteOffset := byteOffset + startByteOffset
      let ranges ← insert ranges ⟨byteOffset, byteOffset + lenUtf8 ch⟩
      if isCellInFirstRow || isCellInFirstCol then
        return ranges
      else do
        let cell ← free (scores.upLeft cell)
        let col ← free (subR col 1)
        let row ← free (subR row 1)
        tracebackLoop scores consecutives candidate startByteOffset fuel preferMatch cell col row ranges
    else if isCellInFirstCol then
      return ranges
    else do
      let cell ← free (scores.left cell)
      let col ← free (subR col 1)
      tracebackLoop scores consecutives candidate startByteOffset fuel preferMatch cell col row ranges

/-- `/repo/src/metrics/fzf/fzf_v2.rs:574-638` `matched_ranges`. -/
def v2MatchedRanges (scores : Matrix Score) (consecutives : Matrix Nat) (maxScoreCell : Nat)
    (candidate : Candidate) (startByteOffset : Nat) (ranges : MatchedRanges) :
    Timed MatchedRanges := do
  let col ← free (scores.colOf maxScoreCell)
  let row ← free (scores.rowOf maxScoreCell)
  tracebackLoop scores consecutives candidate startByteOffset (col + 1) true maxScoreCell col row
    ranges

/-- The `for` loop of `fuzzy_single_char`, `/repo/src/metrics/fzf/fzf_v2.rs:653-672`. -/
def singleCharLoop (U : Unicode) (candidate : Candidate) (scheme : Scheme) :
    List Nat → (maxScore : Score) → (maxScorePos : Nat) → Timed (Score × Nat)
  | [], maxScore, maxScorePos => pure (maxScore, maxScorePos)
  | charOffset :: rest, maxScore, maxScorePos => do
    let prevClass ←
      if charOffset == 0 then pure scheme.initialCharClass
      else (do
        let ch ← char candidate (charOffset - 1)
        return charClass U ch scheme : Timed CharClass)
    let ch ← char candidate charOffset
    let thisClass := charClass U ch scheme
    let bonus := computeBonus prevClass thisClass scheme
    let score := Bonus.match + bonus * Bonus.firstQueryCharMultiplier
    if score > maxScore then
      singleCharLoop U candidate scheme rest score charOffset
    else
      singleCharLoop U candidate scheme rest maxScore maxScorePos

/-- `/repo/src/metrics/fzf/fzf_v2.rs:642-685` `fuzzy_single_char`. -/
def fuzzySingleChar (U : Unicode) (RANGES : Bool) (patternChar : Char) (candidate : Candidate)
    (opts : CandidateOpts) (scheme : Scheme) (ranges : MatchedRanges) :
    Timed (MatchedRanges × Option Score) := do
  let offs ← «matches» candidate patternChar opts.isCaseSensitive opts.charEq
  let (maxScore, maxScorePos) ← singleCharLoop U candidate scheme offs 0 0
  if maxScore == 0 then
    return (ranges, none)
  else
    let ranges ←
      if RANGES then (do
        let start ← toByteOffset candidate maxScorePos
        let ch ← char candidate maxScorePos
        insert ranges ⟨start, start + lenUtf8 ch⟩ : Timed MatchedRanges)
      else pure ranges
    return (ranges, some maxScore)

/-- `match_offsets.iter_mut().for_each(|offset| *offset -= first_offset)`,
`/repo/src/metrics/fzf/fzf_v2.rs:309`. -/
def shiftOffsets (first : Nat) : List Nat → Timed (List Nat)
  | [] => pure []
  | off :: rest => do
    tick 1
    let off ← free (subR off first)
    let rest ← shiftOffsets first rest
    return off :: rest

namespace V2

/-- `/repo/src/metrics/fzf/fzf_v2.rs:240-242` `alloc_chars`. -/
def allocChars (self : FzfV2) (s : List Char) : Timed (FzfV2 × List Char) := do
  let (slab, chars) ← candidateAlloc self.candidateSlab s
  return ({ self with candidateSlab := slab }, chars)

/-- `/repo/src/metrics/fzf/fzf_v2.rs:261-332` `fuzzy`. -/
def fuzzy (U : Unicode) (RANGES : Bool) (self : FzfV2) (pattern : Pattern) (candidate : Candidate)
    (ranges : MatchedRanges) : Timed (FzfV2 × MatchedRanges × Option Score) := do
  let opts := CandidateOpts.new (isSensitive self.caseSensitivity pattern) self.candidateNormalization
  if pattern.charLen == 1 then
    tick 1
    let patternChar ← free (pattern.char 0)
    let (ranges, s) ← fuzzySingleChar U RANGES patternChar candidate opts self.scoringScheme ranges
    return (self, ranges, s)
  else
    let (indices, matchOffsets, lastMatchOffset?) ←
      v2Matches self.slab.matchedIndices pattern candidate opts
    match lastMatchOffset? with
    | none =>
      return ({ self with slab := { self.slab with
        matchedIndices := writeBack indices matchOffsets } }, ranges, none)
    | some lastMatchOffset => do
      let firstOffset ← get matchOffsets 0
      let startByteOffset ← if RANGES then toByteOffset candidate firstOffset else pure 0
      let initialCharClass ←
        if firstOffset == 0 then pure self.scoringScheme.initialCharClass
        else (do
          let ch ← char candidate (firstOffset - 1)
          return charClass U ch self.scoringScheme : Timed CharClass)
      let base ← free (candidate.slice ⟨firstOffset, lastMatchOffset⟩)
      let (bonusSlab, bonuses) ← bonusAlloc self.slab.bonus base.charLen
      let candidateV2 : CandidateV2 := ⟨bonuses, base, initialCharClass, opts⟩
      let matchOffsets ← shiftOffsets firstOffset matchOffsets
      let (scoringSlab, consecutiveSlab, scores, consecutives, candidateV2, score, scoreCell) ←
        v2Score U self.slab.scoringMatrix self.slab.consecutiveMatrix pattern candidateV2
          matchOffsets self.scoringScheme
      let ranges ←
        if RANGES then
          v2MatchedRanges scores consecutives scoreCell candidateV2.base startByteOffset ranges
        else pure ranges
      return ({ self with slab := {
        bonus := writeBack bonusSlab candidateV2.bonuses
        consecutiveMatrix := writeBack consecutiveSlab consecutives.slice
        matchedIndices := writeBack indices matchOffsets
        scoringMatrix := writeBack scoringSlab scores.slice } }, ranges, some score)

/-- `/repo/src/metrics/fzf/fzf_v2.rs:238-333` `impl Fzf for FzfV2`. -/
def impl (U : Unicode) : TimedImpl FzfV2 where
  allocChars := allocChars
  charEq := FzfV2.charEq
  scheme := fun self => self.scoringScheme
  fuzzy := fuzzy U

end V2

end Timed

namespace Metric

/-- `/repo/src/metric.rs:45-49` `Metric::distance`: `/repo/src/metrics/fzf/fzf_v1.rs:207-214`,
`/repo/src/metrics/fzf/fzf_v2.rs:218-225`. -/
def timedDistance (U : Unicode) (q : FzfQuery) (candidate : List Char) :
    Metric → Timed (Metric × Option FzfDistance)
  | .v1 m => do
    let (m, _, d) ← (Timed.V1.impl U).distance U false m q candidate []
    return (.v1 m, d)
  | .v2 m => do
    let (m, _, d) ← (Timed.V2.impl U).distance U false m q candidate []
    return (.v2 m, d)

/-- `/repo/src/metric.rs:124-129` `Metric::distance_and_ranges`: `/repo/src/metrics/fzf/fzf_v1.rs:217-224`,
`/repo/src/metrics/fzf/fzf_v2.rs:228-235`. -/
def timedDistanceAndRanges (U : Unicode) (q : FzfQuery) (candidate : List Char) (buf : List Range) :
    Metric → Timed (Metric × List Range × Option FzfDistance)
  | .v1 m => do
    let (m, buf, d) ← (Timed.V1.impl U).distance U true m q candidate buf
    return (.v1 m, buf, d)
  | .v2 m => do
    let (m, buf, d) ← (Timed.V2.impl U).distance U true m q candidate buf
    return (.v2 m, buf, d)

end Metric

end Norm
