import Verif.Model.V1

/-!
# `src/metrics/fzf/fzf_v2.rs`

`i64::saturating_sub` is modelled as plain subtraction on unbounded integers: scores stay far from
`i64::MIN` (C42 bounds them), and — unlike for an unsigned type — it does not stop at zero.
-/

namespace Norm

/-- `/repo/src/metrics/fzf/fzf_v2.rs:65-80` `FzfV2`. -/
structure FzfV2 where
  candidateSlab : List Char
  candidateNormalization : Bool
  caseSensitivity : CaseSensitivity
  scoringScheme : Scheme
  slab : V2Slab

/-- `i64::saturating_sub`, away from `i64::MIN`. Source: `/repo/src/metrics/fzf/fzf_v2.rs:447,472,517,524,563`. -/
def saturatingSub (a b : Score) : Score := a - b

/-- The loop of `matches`, `/repo/src/metrics/fzf/fzf_v2.rs:349-368`: the (partially) written offsets, and
the final `last_match_offset` and `pattern_char_idx` unless a character was not found. `fuel` bounds
the iterations (at most one per pattern character). -/
def matchesLoop (pattern : Pattern) (candidate : Candidate) (opts : CandidateOpts) :
    (fuel : Nat) → (matchOffsets : List Nat) → (patternCharIdx lastMatchOffset : Nat) →
    Res (List Nat × Option Nat)
  | 0, _, _, _ => .panic
  | fuel + 1, matchOffsets, patternCharIdx, lastMatchOffset => do
    let patternChar ← pattern.char patternCharIdx
    match ← candidate.findFirstFrom lastMatchOffset patternChar opts.isCaseSensitive opts.charEq with
    | none => return (matchOffsets, none)
    | some off =>
      let matchOffsets ← setR matchOffsets patternCharIdx off
      if patternCharIdx + 1 < pattern.charLen then
        matchesLoop pattern candidate opts fuel matchOffsets (patternCharIdx + 1) (off + 1)
      else
        return (matchOffsets, some patternCharIdx)

/-- `/repo/src/metrics/fzf/fzf_v2.rs:337-380` `matches`. Returns the slab's new vector, the view of it
(`match_offsets`), and the end of the candidate window unless there is no match. -/
def v2Matches (indices : List Nat) (pattern : Pattern) (candidate : Candidate)
    (opts : CandidateOpts) : Res (List Nat × List Nat × Option Nat) := do
  let (indices, matchOffsets) ← indicesAlloc indices pattern.charLen
  let (matchOffsets, r) ←
    matchesLoop pattern candidate opts (pattern.charLen + 1) matchOffsets 0 0
  match r with
  | none => return (indices, matchOffsets, none)
  | some patternCharIdx =>
    let last ← Res.unwrap
      (candidate.findLast (← pattern.char patternCharIdx) opts.isCaseSensitive opts.charEq)
    return (indices, matchOffsets, some (last + 1))

/-- The gap loops of `score_first_row` (`/repo/src/metrics/fzf/fzf_v2.rs:446-451,471-476`), over columns
`col .. col + n`. Returns the row, `prev_score` and `penalty`. -/
def firstRowGap : (n : Nat) → (col : Nat) → (row : List Score) → (prevScore penalty : Score) →
    Res (List Score × Score × Score)
  | 0, _, row, prevScore, penalty => .ok (row, prevScore, penalty)
  | n + 1, col, row, prevScore, penalty => do
    let score := saturatingSub prevScore penalty
    let row ← setR row col score
    firstRowGap n (col + 1) row score Penalty.gapExtension

/-- The local variables of `score_first_row` (with the rows and the candidate it mutates),
`/repo/src/metrics/fzf/fzf_v2.rs:433-441`. -/
structure FirstRowState where
  scores : List Score
  consecutives : List Nat
  candidate : CandidateV2
  maxScore : Score
  prevScore : Score
  maxScoreCol : Nat
  column : Nat
  penalty : Score

/-- The `for` loop of `score_first_row`, `/repo/src/metrics/fzf/fzf_v2.rs:443-469`. -/
def firstRowLoop (U : Unicode) (scheme : Scheme) : List Nat → FirstRowState → Res FirstRowState
  | [], st => .ok st
  | charOffset :: rest, st => do
    let penalty := Penalty.gapStart
    let (scores, _, penalty) ←
      firstRowGap (charOffset - (st.column + 1)) (st.column + 1) st.scores st.prevScore penalty
    let column := charOffset
    let consecutives ← setR st.consecutives column 1
    let (candidate, bonus) ← st.candidate.bonusAt U column scheme
    let score := Bonus.match + bonus * Bonus.firstQueryCharMultiplier
    let scores ← setR scores column score
    let (maxScore, maxScoreCol) :=
      if score > st.maxScore then (score, column) else (st.maxScore, st.maxScoreCol)
    firstRowLoop U scheme rest {
      scores := scores, consecutives := consecutives, candidate := candidate
      maxScore := maxScore, prevScore := score, maxScoreCol := maxScoreCol, column := column
      penalty := penalty }

/-- `/repo/src/metrics/fzf/fzf_v2.rs:426-479` `score_first_row`. Returns the two rows, the candidate, the best
score and its cell. -/
def scoreFirstRow (U : Unicode) (scores : List Score) (consecutives : List Nat)
    (firstPatternChar : Char) (candidate : CandidateV2) (scheme : Scheme) :
    Res (List Score × List Nat × CandidateV2 × Score × Nat) := do
  let offs ← candidate.matches firstPatternChar
  let st ← firstRowLoop U scheme offs {
    scores := scores, consecutives := consecutives, candidate := candidate, maxScore := 0
    prevScore := 0, maxScoreCol := 0, column := 0, penalty := Penalty.gapStart }
  let (scores, _, _) ←
    firstRowGap (st.scores.length - (st.column + 1)) (st.column + 1) st.scores st.prevScore st.penalty
  return (scores, st.consecutives, st.candidate, st.maxScore, st.maxScoreCol)

/-- The gap loops of `score_remaining_rows` (`/repo/src/metrics/fzf/fzf_v2.rs:515-520,561-566`), over
columns `col .. col + n`. Returns the row and `penalty`. -/
def rowGap : (n : Nat) → (col : Nat) → (row : List Score) → (penalty : Score) →
    Res (List Score × Score)
  | 0, _, row, penalty => .ok (row, penalty)
  | n + 1, col, row, penalty => do
    let scoreLeft ← getR row (← subR col 1)
    let row ← setR row col (saturatingSub scoreLeft penalty)
    rowGap n (col + 1) row Penalty.gapExtension

/-- The local variables of one row of `score_remaining_rows` (with the row slices and the candidate it
mutates), `/repo/src/metrics/fzf/fzf_v2.rs:490-508`. -/
structure RowState where
  scores : List Score
  consecutives : List Nat
  candidate : CandidateV2
  maxScore : Score
  maxScoreCell : Nat
  column : Nat
  penalty : Score

/-- The `for char_offset in ..` loop of `score_remaining_rows`,
`/repo/src/metrics/fzf/fzf_v2.rs:510-559`. -/
def rowLoop (U : Unicode) (scheme : Scheme) (matrixWidth rowIdx : Nat)
    (prevScores : List Score) (prevConsecutives : List Nat) :
    List Nat → RowState → Res RowState
  | [], st => .ok st
  | charOffset :: rest, st => do
    let penalty := Penalty.gapStart
    let (scores, penalty) ←
      rowGap (charOffset - (st.column + 1)) (st.column + 1) st.scores penalty
    let column := charOffset
    let scoreLeft := saturatingSub (← getR scores (← subR column 1)) penalty
    let scoreUpLeft := (← getR prevScores (← subR column 1)) + Bonus.match
    let (candidate, bonus) ← st.candidate.bonusAt U column scheme
    let consecutive := (← getR prevConsecutives (← subR column 1)) + 1
    let (candidate, bonus, consecutive) ←
      if consecutive > 1 then
        (do
          let (candidate, fb) ← candidate.bonusAt U (← subR (column + 1) consecutive) scheme
          if bonus ≥ Bonus.boundary && bonus > fb then
            return (candidate, bonus, 1)
          else
            return (candidate, max (max Bonus.consecutive fb) bonus, consecutive) :
          Res (CandidateV2 × Score × Nat))
      else pure (candidate, bonus, consecutive)
    let (candidate, scoreUpLeft, consecutive) ←
      if scoreUpLeft + bonus < scoreLeft then
        (do
          let (candidate, b) ← candidate.bonusAt U column scheme
          return (candidate, scoreUpLeft + b, 0) : Res (CandidateV2 × Score × Nat))
      else pure (candidate, scoreUpLeft + bonus, consecutive)
    let score := max scoreLeft scoreUpLeft
    let (maxScore, maxScoreCell) :=
      if score > st.maxScore then (score, rowIdx * matrixWidth + column)
      else (st.maxScore, st.maxScoreCell)
    let consecutives ← setR st.consecutives column consecutive
    let scores ← setR scores column score
    rowLoop U scheme matrixWidth rowIdx prevScores prevConsecutives rest {
      scores := scores, consecutives := consecutives, candidate := candidate
      maxScore := maxScore, maxScoreCell := maxScoreCell, column := column, penalty := penalty }

/-- The body of the `for row_idx` loop and the loop itself, `/repo/src/metrics/fzf/fzf_v2.rs:495-567`, for rows
`rowIdx .. rowIdx + n`. -/
def remainingRowsLoop (U : Unicode) (scheme : Scheme) (pattern : Pattern) (matchOffsets : List Nat) :
    (n : Nat) → (rowIdx : Nat) → Matrix Score → Matrix Nat → CandidateV2 → Score → Nat →
    Res (Matrix Score × Matrix Nat × CandidateV2 × Score × Nat)
  | 0, _, scores, consecutives, candidate, maxScore, maxScoreCell =>
    .ok (scores, consecutives, candidate, maxScore, maxScoreCell)
  | n + 1, rowIdx, scores, consecutives, candidate, maxScore, maxScoreCell => do
    let matrixWidth := scores.width
    let patternChar ← pattern.char rowIdx
    let (prevScoresRow, scoresRow) ← scores.twoRows (← subR rowIdx 1) rowIdx
    let (prevConsecutivesRow, consecutivesRow) ← consecutives.twoRows (← subR rowIdx 1) rowIdx
    let firstMatchOffset ← getR matchOffsets rowIdx
    let offs ← candidate.matchesFrom firstMatchOffset patternChar
    let st ← rowLoop U scheme matrixWidth rowIdx prevScoresRow prevConsecutivesRow offs {
      scores := scoresRow, consecutives := consecutivesRow, candidate := candidate
      maxScore := maxScore, maxScoreCell := maxScoreCell, column := firstMatchOffset
      penalty := Penalty.gapStart }
    let (scoresRow, _) ←
      rowGap (matrixWidth - (st.column + 1)) (st.column + 1) st.scores st.penalty
    remainingRowsLoop U scheme pattern matchOffsets n (rowIdx + 1)
      (scores.setRow rowIdx scoresRow) (consecutives.setRow rowIdx st.consecutives)
      st.candidate st.maxScore st.maxScoreCell

/-- `/repo/src/metrics/fzf/fzf_v2.rs:384-422` `score` and `483-570` `score_remaining_rows`. Returns the slabs' new
vectors, the two matrices, the candidate, the score and its cell. -/
def v2Score (U : Unicode) (scoringSlab : List Score) (consecutiveSlab : List Nat)
    (pattern : Pattern) (candidate : CandidateV2) (matchOffsets : List Nat) (scheme : Scheme) :
    Res (List Score × List Nat × Matrix Score × Matrix Nat × CandidateV2 × Score × Nat) := do
  let matrixWidth := candidate.base.charLen
  let matrixHeight := pattern.charLen
  let (scoringSlab, scores) ← matrixAlloc (0 : Score) scoringSlab matrixWidth matrixHeight
  let (consecutiveSlab, consecutives) ← matrixAlloc (0 : Nat) consecutiveSlab matrixWidth matrixHeight
  let (row, crow, candidate, maxScore, maxScoreCell) ←
    scoreFirstRow U (← scores.row 0) (← consecutives.row 0) (← pattern.char 0) candidate scheme
  let (scores, consecutives, candidate, maxScore, maxScoreCell) ←
    remainingRowsLoop U scheme pattern matchOffsets (scores.height - 1) 1
      (scores.setRow 0 row) (consecutives.setRow 0 crow) candidate maxScore maxScoreCell
  return (scoringSlab, consecutiveSlab, scores, consecutives, candidate, maxScore, maxScoreCell)

/-- The loop of `matched_ranges`, `/repo/src/metrics/fzf/fzf_v2.rs:590-637`. `fuel` bounds the iterations
(`col` decreases each time). -/
def tracebackLoop (scores : Matrix Score) (consecutives : Matrix Nat) (candidate : Candidate)
    (startByteOffset : Nat) : (fuel : Nat) → (preferMatch : Bool) → (cell col row : Nat) →
    MatchedRanges → Res MatchedRanges
  | 0, _, _, _, _, _ => .panic
  | fuel + 1, preferMatch, cell, col, row, ranges => do
    let isCellInFirstCol := col == 0
    let isCellInFirstRow := row == 0
    let scoreLeft ←
      if isCellInFirstCol then pure 0
      else (do scores.get (← scores.left cell) : Res Score)
    let scoreUpLeft ←
      if isCellInFirstCol || isCellInFirstRow then pure 0
      else (do scores.get (← scores.upLeft cell) : Res Score)
    let preferThisMatch := preferMatch
    let preferMatch := (← consecutives.get cell) > 1
      || (match consecutives.getValue (consecutives.downRight cell) with
          | some downRight => decide (downRight > 0)
          | none => false)
    let score ← scores.get cell
    if score > scoreUpLeft && (score > scoreLeft || (score == scoreLeft && preferThisMatch)) then
      let byteOffset ← candidate.toByteOffset col
      let ch ← candidate.char col
      let byteOffset := byteOffset + startByteOffset
      let ranges ← ranges.insert ⟨byteOffset, byteOffset + lenUtf8 ch⟩
      if isCellInFirstRow || isCellInFirstCol then
        return ranges
      else
        tracebackLoop scores consecutives candidate startByteOffset fuel preferMatch
          (← scores.upLeft cell) (← subR col 1) (← subR row 1) ranges
    else if isCellInFirstCol then
      return ranges
    else
      tracebackLoop scores consecutives candidate startByteOffset fuel preferMatch
        (← scores.left cell) (← subR col 1) row ranges

/-- `/repo/src/metrics/fzf/fzf_v2.rs:574-638` `matched_ranges`. -/
def v2MatchedRanges (scores : Matrix Score) (consecutives : Matrix Nat) (maxScoreCell : Nat)
    (candidate : Candidate) (startByteOffset : Nat) (ranges : MatchedRanges) :
    Res MatchedRanges := do
  let col ← scores.colOf maxScoreCell
  let row ← scores.rowOf maxScoreCell
  tracebackLoop scores consecutives candidate startByteOffset (col + 1) true maxScoreCell col row
    ranges

/-- The `for` loop of `fuzzy_single_char`, `/repo/src/metrics/fzf/fzf_v2.rs:653-672`. -/
def singleCharLoop (U : Unicode) (candidate : Candidate) (scheme : Scheme) :
    List Nat → (maxScore : Score) → (maxScorePos : Nat) → Res (Score × Nat)
  | [], maxScore, maxScorePos => .ok (maxScore, maxScorePos)
  | charOffset :: rest, maxScore, maxScorePos => do
    let prevClass ←
      if charOffset == 0 then pure scheme.initialCharClass
      else (do return charClass U (← candidate.char (charOffset - 1)) scheme : Res CharClass)
    let thisClass := charClass U (← candidate.char charOffset) scheme
    let bonus := computeBonus prevClass thisClass scheme
    let score := Bonus.match + bonus * Bonus.firstQueryCharMultiplier
    if score > maxScore then
      singleCharLoop U candidate scheme rest score charOffset
    else
      singleCharLoop U candidate scheme rest maxScore maxScorePos

/-- `/repo/src/metrics/fzf/fzf_v2.rs:642-685` `fuzzy_single_char`. -/
def fuzzySingleChar (U : Unicode) (RANGES : Bool) (patternChar : Char) (candidate : Candidate)
    (opts : CandidateOpts) (scheme : Scheme) (ranges : MatchedRanges) :
    Res (MatchedRanges × Option Score) := do
  let offs ← candidate.matches patternChar opts.isCaseSensitive opts.charEq
  let (maxScore, maxScorePos) ← singleCharLoop U candidate scheme offs 0 0
  if maxScore == 0 then
    return (ranges, none)
  else
    let ranges ←
      if RANGES then (do
        let start ← candidate.toByteOffset maxScorePos
        let byteLen := lenUtf8 (← candidate.char maxScorePos)
        ranges.insert ⟨start, start + byteLen⟩ : Res MatchedRanges)
      else pure ranges
    return (ranges, some maxScore)

/-- `match_offsets.iter_mut().for_each(|offset| *offset -= first_offset)`,
`/repo/src/metrics/fzf/fzf_v2.rs:309`. -/
def shiftOffsets (first : Nat) : List Nat → Res (List Nat)
  | [] => .ok []
  | off :: rest => do
    let off ← subR off first
    return off :: (← shiftOffsets first rest)

namespace FzfV2

/-- `/repo/src/metrics/fzf/fzf_v2.rs:64,105-107` `FzfV2::new`. -/
def new : FzfV2 where
  candidateSlab := List.replicate 128 (Char.ofNat 0)
  candidateNormalization := false
  caseSensitivity := .smart
  scoringScheme := schemeDefault
  slab := V2Slab.default

/-- `/repo/src/metrics/fzf/fzf_v2.rs:141-147` `set_candidate_normalization`. -/
def setCandidateNormalization (self : FzfV2) (normalization : Bool) : FzfV2 :=
  { self with candidateNormalization := normalization }

/-- `/repo/src/metrics/fzf/fzf_v2.rs:169-175` `set_case_sensitivity`. -/
def setCaseSensitivity (self : FzfV2) (caseSensitivity : CaseSensitivity) : FzfV2 :=
  { self with caseSensitivity := caseSensitivity }

/-- `/repo/src/metrics/fzf/fzf_v2.rs:206-209` `set_scoring_scheme`. -/
def setScoringScheme (self : FzfV2) (scheme : FzfScheme) : FzfV2 :=
  { self with scoringScheme := scheme.intoInner }

/-- `/repo/src/metrics/fzf/fzf_v2.rs:240-242` `alloc_chars`. -/
def allocChars (self : FzfV2) (s : List Char) : Res (FzfV2 × List Char) := do
  let (slab, chars) ← candidateAlloc self.candidateSlab s
  return ({ self with candidateSlab := slab }, chars)

/-- `/repo/src/metrics/fzf/fzf_v2.rs:245-253` `char_eq`. -/
def charEq (self : FzfV2) (pattern : Pattern) : CharEq :=
  Norm.charEq (isSensitive self.caseSensitivity pattern) self.candidateNormalization

/-- `/repo/src/metrics/fzf/fzf_v2.rs:261-332` `fuzzy`. -/
def fuzzy (U : Unicode) (RANGES : Bool) (self : FzfV2) (pattern : Pattern) (candidate : Candidate)
    (ranges : MatchedRanges) : Res (FzfV2 × MatchedRanges × Option Score) := do
  let opts := CandidateOpts.new (isSensitive self.caseSensitivity pattern) self.candidateNormalization
  if pattern.charLen == 1 then
    let (ranges, s) ← fuzzySingleChar U RANGES (← pattern.char 0) candidate opts
      self.scoringScheme ranges
    return (self, ranges, s)
  else
    let (indices, matchOffsets, lastMatchOffset?) ←
      v2Matches self.slab.matchedIndices pattern candidate opts
    match lastMatchOffset? with
    | none =>
      return ({ self with slab := { self.slab with
        matchedIndices := writeBack indices matchOffsets } }, ranges, none)
    | some lastMatchOffset =>
      let firstOffset ← getR matchOffsets 0
      let startByteOffset ← if RANGES then candidate.toByteOffset firstOffset else pure 0
      let initialCharClass ←
        if firstOffset == 0 then pure self.scoringScheme.initialCharClass
        else (do
          return charClass U (← candidate.char (firstOffset - 1)) self.scoringScheme : Res CharClass)
      let base ← candidate.slice ⟨firstOffset, lastMatchOffset⟩
      -- `CandidateV2::new`, `/repo/src/metrics/fzf/candidate.rs:106-114`
      let (bonusSlab, bonuses) ← bonusAlloc self.slab.bonus base.charLen
      let candidateV2 : CandidateV2 := ⟨bonuses, base, initialCharClass, opts⟩
      let matchOffsets ← shiftOffsets firstOffset matchOffsets
      let (scoringSlab, consecutiveSlab, scores, consecutives, candidateV2, score, scoreCell) ←
        v2Score U self.slab.scoringMatrix self.slab.consecutiveMatrix pattern candidateV2
          matchOffsets self.scoringScheme
      let ranges ←
        if RANGES then
          v2MatchedRanges scores consecutives scoreCell candidateV2.base startByteOffset ranges
        else pure ranges
      return ({ self with slab := {
        bonus := writeBack bonusSlab candidateV2.bonuses
        consecutiveMatrix := writeBack consecutiveSlab consecutives.slice
        matchedIndices := writeBack indices matchOffsets
        scoringMatrix := writeBack scoringSlab scores.slice } }, ranges, some score)

/-- `/repo/src/metrics/fzf/fzf_v2.rs:238-333` `impl Fzf for FzfV2`. -/
def impl (U : Unicode) : FzfImpl FzfV2 where
  allocChars := allocChars
  charEq := charEq
  scheme := fun self => self.scoringScheme
  fuzzy := fuzzy U

/-- `/repo/src/metrics/fzf/fzf_v2.rs:218-225` `Metric::distance`. -/
def distance (U : Unicode) (self : FzfV2) (query : FzfQuery) (candidate : List Char) :
    Res (FzfV2 × Option FzfDistance) := do
  let (self, _, d) ← (impl U).distance U false self query candidate []
  return (self, d)

/-- `/repo/src/metrics/fzf/fzf_v2.rs:228-235` `Metric::distance_and_ranges`. -/
def distanceAndRanges (U : Unicode) (self : FzfV2) (query : FzfQuery) (candidate : List Char)
    (ranges : List Range) : Res (FzfV2 × List Range × Option FzfDistance) :=
  (impl U).distance U true self query candidate ranges

end FzfV2

end Norm
