import Verif.Model.Metric

/-!
# The same code with 64-bit scores

The main model computes scores in unbounded integers. In the code `Score` is `i64`
(`/repo/src/metrics/fzf/distance.rs:1`), so `+`, `-` and `*` can overflow (a panic in a debug build, a
wrong value in a release build), `i64::saturating_sub` stops at `i64::MIN`, and `compute_score` counts
consecutive matches in a `u32`. The functions below repeat every function of the main model that
computes with scores, with each of those operations checked: an overflow is `Res.panic`. C42 proves
that they return what the main model returns.

The functions of the main model that do no arithmetic on scores (searching, slicing, bonuses, slabs,
tracing back the ranges) are used as they are.
-/

namespace Norm.Checked

/-- The value of an arithmetic operation on `i64`, or the panic on overflow. Source: `/repo/src/metrics/fzf/distance.rs:1`. -/
def i64 (x : Int) : Res Score := if -2 ^ 63 ≤ x ∧ x < 2 ^ 63 then .ok x else .panic

/-- `a + b` on `i64`. Source: `/repo/src/metrics/fzf/fzf.rs:541-545,166`, `/repo/src/metrics/fzf/fzf_v2.rs:457,526,542,666`. -/
def add (a b : Score) : Res Score := i64 (a + b)

/-- `a - b` on `i64`. Source: `/repo/src/metrics/fzf/fzf.rs:565-569`. -/
def sub (a b : Score) : Res Score := i64 (a - b)

/-- `a * b` on `i64`. Source: `/repo/src/metrics/fzf/fzf.rs:541-545`, `/repo/src/metrics/fzf/fzf_v2.rs:458-459,666`. -/
def mul (a b : Score) : Res Score := i64 (a * b)

/-- `i64::saturating_sub`. Source: `/repo/src/metrics/fzf/fzf_v2.rs:447,472,517,524,563`. -/
def saturatingSubI64 (a b : Score) : Score :=
  if a - b < -2 ^ 63 then -2 ^ 63 else if a - b ≥ 2 ^ 63 then 2 ^ 63 - 1 else a - b

/-- `a += 1` on `u32`. Source: `/repo/src/metrics/fzf/fzf.rs:557`. -/
def incU32 (a : Nat) : Res Nat := if a + 1 < 2 ^ 32 then .ok (a + 1) else .panic

/-- The `for` loop of `compute_score`, `/repo/src/metrics/fzf/fzf.rs:524-583`. -/
def computeScoreLoop (U : Unicode) (RANGES : Bool) (eq : CharEq) (scheme : Scheme)
    (byteRangeStart : Nat) : List Char → ScoreState → Res ScoreState
  | [], st => .ok st
  | candidateCh :: rest, st => do
    let chClass := charClass U candidateCh scheme
    if eq st.patternChar candidateCh then
      let bonus := computeBonus st.prevClass chClass scheme
      let firstBonus :=
        if st.consecutive == 0 then bonus
        else if bonus ≥ Bonus.boundary && bonus > st.firstBonus then bonus
        else st.firstBonus
      let bonus :=
        if st.consecutive == 0 then bonus
        else max (max bonus firstBonus) Bonus.consecutive
      let score ← add st.score Bonus.match
      let score ← add score
        (← if st.isFirstPatternChar then mul bonus Bonus.firstQueryCharMultiplier else pure bonus)
      let ranges ←
        if RANGES then
          let start := byteRangeStart + st.byteOffset
          st.ranges.insert ⟨start, start + lenUtf8 candidateCh⟩
        else pure st.ranges
      let consecutive ← incU32 st.consecutive
      let st := { st with
        firstBonus := firstBonus, score := score, ranges := ranges, isInGap := false,
        isFirstPatternChar := false, consecutive := consecutive }
      match st.patternChars with
      | nextChar :: patternChars =>
        computeScoreLoop U RANGES eq scheme byteRangeStart rest { st with
          patternChar := nextChar, patternChars := patternChars, prevClass := chClass,
          byteOffset := if RANGES then st.byteOffset + lenUtf8 candidateCh else st.byteOffset }
      | [] => return st
    else
      let score ← sub st.score (if st.isInGap then Penalty.gapExtension else Penalty.gapStart)
      computeScoreLoop U RANGES eq scheme byteRangeStart rest { st with
        score := score, isInGap := true, consecutive := 0, firstBonus := 0, prevClass := chClass,
        byteOffset := if RANGES then st.byteOffset + lenUtf8 candidateCh else st.byteOffset }

/-- `/repo/src/metrics/fzf/fzf.rs:484-586` `compute_score`. -/
def computeScore (U : Unicode) (RANGES : Bool) (pattern : Pattern) (candidate : Candidate)
    (charRange : Range) (eq : CharEq) (scheme : Scheme) (ranges : MatchedRanges) :
    Res (MatchedRanges × Score) := do
  let byteRangeStart ← if RANGES then candidate.toByteOffset charRange.start else pure 0
  let prevClass ←
    if charRange.start == 0 then pure scheme.initialCharClass
    else (do return charClass U (← candidate.char (charRange.start - 1)) scheme : Res CharClass)
  let patternChar ← Res.unwrap pattern.text.head?
  let chars ← (← candidate.slice charRange).chars
  let st ← computeScoreLoop U RANGES eq scheme byteRangeStart chars {
    isInGap := false, isFirstPatternChar := true, firstBonus := 0, consecutive := 0
    byteOffset := 0, prevClass := prevClass, patternChars := pattern.text.tail
    patternChar := patternChar, score := 0, ranges := ranges }
  return (st.ranges, st.score)

/-- The common tail of the exact matchers: `/repo/src/metrics/fzf/fzf.rs:264-277,317-330,372-385,436-449`. -/
def finishExact (U : Unicode) (RANGES : Bool) (pattern : Pattern) (candidate : Candidate)
    (matchedRange : Range) (eq : CharEq) (scheme : Scheme) (ranges : MatchedRanges) :
    Res (MatchedRanges × Option Score) := do
  let (ranges, score) ← computeScore U false pattern candidate matchedRange eq scheme ranges
  let ranges ←
    if RANGES then (do ranges.insert (← candidate.toByteRange matchedRange) : Res MatchedRanges)
    else pure ranges
  return (ranges, some score)

/-- `/repo/src/metrics/fzf/fzf.rs:178-278` `exact_match`. -/
def exactMatch (U : Unicode) (RANGES : Bool) (pattern : Pattern) (candidate : Candidate)
    (eq : CharEq) (scheme : Scheme) (ranges : MatchedRanges) :
    Res (MatchedRanges × Option Score) := do
  if pattern.isEmpty then
    return (ranges, some 0)
  else
    let st ← exactOuter U pattern candidate eq scheme (candidate.charLen + 1) {
      bestBonus := -1, bestBonusCharStart := 0, bestBonusCharEnd := 0, matched := false
      prevClass := scheme.initialCharClass, startOffset := 0
      bonusStart := 0, currentBonus := 0, patternCharIdx := 0 }
    if !st.matched then
      return (ranges, none)
    else
      finishExact U RANGES pattern candidate ⟨st.bestBonusCharStart, st.bestBonusCharEnd⟩ eq scheme
        ranges

/-- `/repo/src/metrics/fzf/fzf.rs:282-331` `prefix_match`. -/
def prefixMatch (U : Unicode) (RANGES : Bool) (pattern : Pattern) (candidate : Candidate)
    (eq : CharEq) (scheme : Scheme) (ranges : MatchedRanges) :
    Res (MatchedRanges × Option Score) := do
  if pattern.isEmpty then
    return (ranges, some 0)
  else
    match ← ignoredCandidateLeadingSpaces pattern candidate with
    | none => return (ranges, none)
    | some ignoredLeadingSpaces =>
      let chars ← candidate.charsFrom ignoredLeadingSpaces
      match zipLoop eq false pattern.text chars with
      | none => return (ranges, none)
      | some (_ :: _, _) => return (ranges, none)
      | some ([], _) =>
        finishExact U RANGES pattern candidate
          ⟨ignoredLeadingSpaces, ignoredLeadingSpaces + pattern.charLen⟩ eq scheme ranges

/-- `/repo/src/metrics/fzf/fzf.rs:335-386` `suffix_match`. -/
def suffixMatch (U : Unicode) (RANGES : Bool) (pattern : Pattern) (candidate : Candidate)
    (eq : CharEq) (scheme : Scheme) (ranges : MatchedRanges) :
    Res (MatchedRanges × Option Score) := do
  if pattern.isEmpty then
    return (ranges, some 0)
  else
    match ← ignoredCandidateTrailingSpaces pattern candidate with
    | none => return (ranges, none)
    | some ignoredTrailingSpaces =>
      let upToIgnoredSpaces ← subR candidate.charLen ignoredTrailingSpaces
      let chars ← (← candidate.slice ⟨0, upToIgnoredSpaces⟩).chars
      match zipLoop eq false pattern.text.reverse chars.reverse with
      | none => return (ranges, none)
      | some (_ :: _, _) => return (ranges, none)
      | some ([], _) =>
        let start ← subR upToIgnoredSpaces pattern.charLen
        finishExact U RANGES pattern candidate ⟨start, upToIgnoredSpaces⟩ eq scheme ranges

/-- `/repo/src/metrics/fzf/fzf.rs:390-450` `equal_match`. -/
def equalMatch (U : Unicode) (RANGES : Bool) (pattern : Pattern) (candidate : Candidate)
    (eq : CharEq) (scheme : Scheme) (ranges : MatchedRanges) :
    Res (MatchedRanges × Option Score) := do
  if pattern.isEmpty then
    return (ranges, some 0)
  else
    match ← ignoredCandidateLeadingSpaces pattern candidate with
    | none => return (ranges, none)
    | some ignoredLeadingSpaces =>
      if ignoredLeadingSpaces == candidate.charLen then
        return (ranges, none)
      else
        match ← ignoredCandidateTrailingSpaces pattern candidate with
        | none => return (ranges, none)
        | some ignoredTrailingSpaces =>
          let matchedCharRange : Range :=
            ⟨ignoredLeadingSpaces, ← subR candidate.charLen ignoredTrailingSpaces⟩
          if matchedCharRange.len < pattern.charLen then
            return (ranges, none)
          else
            let chars ← (← candidate.slice matchedCharRange).chars
            match zipLoop eq true pattern.text chars with
            | none => return (ranges, none)
            | some (patternRest, candidateRest) =>
              if !patternRest.isEmpty || !candidateRest.isEmpty then
                return (ranges, none)
              else
                finishExact U RANGES pattern candidate matchedCharRange eq scheme ranges

/-- The gap loops of `score_first_row` (`/repo/src/metrics/fzf/fzf_v2.rs:446-451,471-476`), over columns
`col .. col + n`. Returns the row, `prev_score` and `penalty`. -/
def firstRowGap : (n : Nat) → (col : Nat) → (row : List Score) → (prevScore penalty : Score) →
    Res (List Score × Score × Score)
  | 0, _, row, prevScore, penalty => .ok (row, prevScore, penalty)
  | n + 1, col, row, prevScore, penalty => do
    let score := saturatingSubI64 prevScore penalty
    let row ← setR row col score
    firstRowGap n (col + 1) row score Penalty.gapExtension

/-- The `for` loop of `score_first_row`, `/repo/src/metrics/fzf/fzf_v2.rs:443-469`. -/
def firstRowLoop (U : Unicode) (scheme : Scheme) : List Nat → FirstRowState → Res FirstRowState
  | [], st => .ok st
  | charOffset :: rest, st => do
    let penalty := Penalty.gapStart
    let (scores, _, penalty) ←
      firstRowGap (charOffset - (st.column + 1)) (st.column + 1) st.scores st.prevScore penalty
    let column := charOffset
    let consecutives ← setR st.consecutives column 1
    let (candidate, bonus) ← st.candidate.bonusAt U column scheme
    let score ← add Bonus.match (← mul bonus Bonus.firstQueryCharMultiplier)
    let scores ← setR scores column score
    let (maxScore, maxScoreCol) :=
      if score > st.maxScore then (score, column) else (st.maxScore, st.maxScoreCol)
    firstRowLoop U scheme rest {
      scores := scores, consecutives := consecutives, candidate := candidate
      maxScore := maxScore, prevScore := score, maxScoreCol := maxScoreCol, column := column
      penalty := penalty }

/-- `/repo/src/metrics/fzf/fzf_v2.rs:426-479` `score_first_row`. Returns the two rows, the candidate, the best
score and its cell. -/
def scoreFirstRow (U : Unicode) (scores : List Score) (consecutives : List Nat)
    (firstPatternChar : Char) (candidate : CandidateV2) (scheme : Scheme) :
    Res (List Score × List Nat × CandidateV2 × Score × Nat) := do
  let offs ← candidate.matches firstPatternChar
  let st ← firstRowLoop U scheme offs {
    scores := scores, consecutives := consecutives, candidate := candidate, maxScore := 0
    prevScore := 0, maxScoreCol := 0, column := 0, penalty := Penalty.gapStart }
  let (scores, _, _) ←
    firstRowGap (st.scores.length - (st.column + 1)) (st.column + 1) st.scores st.prevScore st.penalty
  return (scores, st.consecutives, st.candidate, st.maxScore, st.maxScoreCol)

/-- The gap loops of `score_remaining_rows` (`/repo/src/metrics/fzf/fzf_v2.rs:515-520,561-566`), over
columns `col .. col + n`. Returns the row and `penalty`. -/
def rowGap : (n : Nat) → (col : Nat) → (row : List Score) → (penalty : Score) →
    Res (List Score × Score)
  | 0, _, row, penalty => .ok (row, penalty)
  | n + 1, col, row, penalty => do
    let scoreLeft ← getR row (← subR col 1)
    let row ← setR row col (saturatingSubI64 scoreLeft penalty)
    rowGap n (col + 1) row Penalty.gapExtension

/-- The `for char_offset in ..` loop of `score_remaining_rows`,
`/repo/src/metrics/fzf/fzf_v2.rs:510-559`. -/
def rowLoop (U : Unicode) (scheme : Scheme) (matrixWidth rowIdx : Nat)
    (prevScores : List Score) (prevConsecutives : List Nat) :
    List Nat → RowState → Res RowState
  | [], st => .ok st
  | charOffset :: rest, st => do
    let penalty := Penalty.gapStart
    let (scores, penalty) ←
      rowGap (charOffset - (st.column + 1)) (st.column + 1) st.scores penalty
    let column := charOffset
    let scoreLeft := saturatingSubI64 (← getR scores (← subR column 1)) penalty
    let scoreUpLeft ← add (← getR prevScores (← subR column 1)) Bonus.match
    let (candidate, bonus) ← st.candidate.bonusAt U column scheme
    let consecutive := (← getR prevConsecutives (← subR column 1)) + 1
    let (candidate, bonus, consecutive) ←
      if consecutive > 1 then
        (do
          let (candidate, fb) ← candidate.bonusAt U (← subR (column + 1) consecutive) scheme
          if bonus ≥ Bonus.boundary && bonus > fb then
            return (candidate, bonus, 1)
          else
            return (candidate, max (max Bonus.consecutive fb) bonus, consecutive) :
          Res (CandidateV2 × Score × Nat))
      else pure (candidate, bonus, consecutive)
    let sum ← add scoreUpLeft bonus
    let (candidate, b, consecutive) ←
      if sum < scoreLeft then
        (do
          let (candidate, b) ← candidate.bonusAt U column scheme
          return (candidate, b, 0) : Res (CandidateV2 × Score × Nat))
      else pure (candidate, bonus, consecutive)
    let scoreUpLeft ← add scoreUpLeft b
    let score := max scoreLeft scoreUpLeft
    let (maxScore, maxScoreCell) :=
      if score > st.maxScore then (score, rowIdx * matrixWidth + column)
      else (st.maxScore, st.maxScoreCell)
    let consecutives ← setR st.consecutives column consecutive
    let scores ← setR scores column score
    rowLoop U scheme matrixWidth rowIdx prevScores prevConsecutives rest {
      scores := scores, consecutives := consecutives, candidate := candidate
      maxScore := maxScore, maxScoreCell := maxScoreCell, column := column, penalty := penalty }

/-- The body of the `for row_idx` loop and the loop itself, `/repo/src/metrics/fzf/fzf_v2.rs:495-567`, for rows
`rowIdx .. rowIdx + n`. -/
def remainingRowsLoop (U : Unicode) (scheme : Scheme) (pattern : Pattern) (matchOffsets : List Nat) :
    (n : Nat) → (rowIdx : Nat) → Matrix Score → Matrix Nat → CandidateV2 → Score → Nat →
    Res (Matrix Score × Matrix Nat × CandidateV2 × Score × Nat)
  | 0, _, scores, consecutives, candidate, maxScore, maxScoreCell =>
    .ok (scores, consecutives, candidate, maxScore, maxScoreCell)
  | n + 1, rowIdx, scores, consecutives, candidate, maxScore, maxScoreCell => do
    let matrixWidth := scores.width
    let patternChar ← pattern.char rowIdx
    let (prevScoresRow, scoresRow) ← scores.twoRows (← subR rowIdx 1) rowIdx
    let (prevConsecutivesRow, consecutivesRow) ← consecutives.twoRows (← subR rowIdx 1) rowIdx
    let firstMatchOffset ← getR matchOffsets rowIdx
    let offs ← candidate.matchesFrom firstMatchOffset patternChar
    let st ← rowLoop U scheme matrixWidth rowIdx prevScoresRow prevConsecutivesRow offs {
      scores := scoresRow, consecutives := consecutivesRow, candidate := candidate
      maxScore := maxScore, maxScoreCell := maxScoreCell, column := firstMatchOffset
      penalty := Penalty.gapStart }
    let (scoresRow, _) ←
      rowGap (matrixWidth - (st.column + 1)) (st.column + 1) st.scores st.penalty
    remainingRowsLoop U scheme pattern matchOffsets n (rowIdx + 1)
      (scores.setRow rowIdx scoresRow) (consecutives.setRow rowIdx st.consecutives)
      st.candidate st.maxScore st.maxScoreCell

/-- `/repo/src/metrics/fzf/fzf_v2.rs:384-422` `score` and `483-570` `score_remaining_rows`. Returns the slabs' new
vectors, the two matrices, the candidate, the score and its cell. -/
def v2Score (U : Unicode) (scoringSlab : List Score) (consecutiveSlab : List Nat)
    (pattern : Pattern) (candidate : CandidateV2) (matchOffsets : List Nat) (scheme : Scheme) :
    Res (List Score × List Nat × Matrix Score × Matrix Nat × CandidateV2 × Score × Nat) := do
  let matrixWidth := candidate.base.charLen
  let matrixHeight := pattern.charLen
  let (scoringSlab, scores) ← matrixAlloc (0 : Score) scoringSlab matrixWidth matrixHeight
  let (consecutiveSlab, consecutives) ← matrixAlloc (0 : Nat) consecutiveSlab matrixWidth matrixHeight
  let (row, crow, candidate, maxScore, maxScoreCell) ←
    scoreFirstRow U (← scores.row 0) (← consecutives.row 0) (← pattern.char 0) candidate scheme
  let (scores, consecutives, candidate, maxScore, maxScoreCell) ←
    remainingRowsLoop U scheme pattern matchOffsets (scores.height - 1) 1
      (scores.setRow 0 row) (consecutives.setRow 0 crow) candidate maxScore maxScoreCell
  return (scoringSlab, consecutiveSlab, scores, consecutives, candidate, maxScore, maxScoreCell)

/-- The `for` loop of `fuzzy_single_char`, `/repo/src/metrics/fzf/fzf_v2.rs:653-672`. -/
def singleCharLoop (U : Unicode) (candidate : Candidate) (scheme : Scheme) :
    List Nat → (maxScore : Score) → (maxScorePos : Nat) → Res (Score × Nat)
  | [], maxScore, maxScorePos => .ok (maxScore, maxScorePos)
  | charOffset :: rest, maxScore, maxScorePos => do
    let prevClass ←
      if charOffset == 0 then pure scheme.initialCharClass
      else (do return charClass U (← candidate.char (charOffset - 1)) scheme : Res CharClass)
    let thisClass := charClass U (← candidate.char charOffset) scheme
    let bonus := computeBonus prevClass thisClass scheme
    let score ← add Bonus.match (← mul bonus Bonus.firstQueryCharMultiplier)
    if score > maxScore then
      singleCharLoop U candidate scheme rest score charOffset
    else
      singleCharLoop U candidate scheme rest maxScore maxScorePos

/-- `/repo/src/metrics/fzf/fzf_v2.rs:642-685` `fuzzy_single_char`. -/
def fuzzySingleChar (U : Unicode) (RANGES : Bool) (patternChar : Char) (candidate : Candidate)
    (opts : CandidateOpts) (scheme : Scheme) (ranges : MatchedRanges) :
    Res (MatchedRanges × Option Score) := do
  let offs ← candidate.matches patternChar opts.isCaseSensitive opts.charEq
  let (maxScore, maxScorePos) ← singleCharLoop U candidate scheme offs 0 0
  if maxScore == 0 then
    return (ranges, none)
  else
    let ranges ←
      if RANGES then (do
        let start ← candidate.toByteOffset maxScorePos
        let byteLen := lenUtf8 (← candidate.char maxScorePos)
        ranges.insert ⟨start, start + byteLen⟩ : Res MatchedRanges)
      else pure ranges
    return (ranges, some maxScore)

/-- `/repo/src/metrics/fzf/fzf.rs:27-136` `Fzf::score`. The `if pattern.is_inverse { f::<false> } else { f::<RANGES> }`
of each arm is written `f (if pattern.isInverse then false else RANGES)`. -/
def score {σ : Type} (U : Unicode) (I : FzfImpl σ) (RANGES : Bool) (self : σ) (pattern : Pattern)
    (candidate : Candidate) (ranges : MatchedRanges) : Res (σ × MatchedRanges × Option Score) := do
  let R := if pattern.isInverse then false else RANGES
  let (self, ranges, score) ←
    match pattern.matchType with
    | .fuzzy => I.fuzzy R self pattern candidate ranges
    | .exact =>
      let (ranges, s) ← exactMatch U R pattern candidate (I.charEq self pattern) (I.scheme self) ranges
      pure (self, ranges, s)
    | .prefixExact =>
      let (ranges, s) ← prefixMatch U R pattern candidate (I.charEq self pattern) (I.scheme self) ranges
      pure (self, ranges, s)
    | .suffixExact =>
      let (ranges, s) ← suffixMatch U R pattern candidate (I.charEq self pattern) (I.scheme self) ranges
      pure (self, ranges, s)
    | .equalExact =>
      let (ranges, s) ← equalMatch U R pattern candidate (I.charEq self pattern) (I.scheme self) ranges
      pure (self, ranges, s)
  match score.isSome, pattern.isInverse with
  | true, false => return (self, ranges, score)
  | false, true => return (self, ranges, some 0)
  | _, _ => return (self, ranges, none)

/-- `condition.iter().find_map(|pattern| self.score(..))`, `/repo/src/metrics/fzf/fzf.rs:166-168`. -/
def scoreCondition {σ : Type} (U : Unicode) (I : FzfImpl σ) (RANGES : Bool) (candidate : Candidate) :
    List Pattern → σ → MatchedRanges → Res (σ × MatchedRanges × Option Score)
  | [], self, ranges => .ok (self, ranges, none)
  | pattern :: rest, self, ranges => do
    let (self, ranges, s) ← score U I RANGES self pattern candidate ranges
    match s with
    | some s => return (self, ranges, some s)
    | none => scoreCondition U I RANGES candidate rest self ranges

/-- The `for` loop over conditions, `/repo/src/metrics/fzf/fzf.rs:164-170`. -/
def scoreConditions {σ : Type} (U : Unicode) (I : FzfImpl σ) (RANGES : Bool) (candidate : Candidate) :
    List Condition → σ → MatchedRanges → (totalScore : Score) →
    Res (σ × MatchedRanges × Option Score)
  | [], self, ranges, totalScore => .ok (self, ranges, some totalScore)
  | condition :: rest, self, ranges, totalScore => do
    let (self, ranges, s) ← scoreCondition U I RANGES candidate condition self ranges
    match s with
    | none => return (self, ranges, none)
    | some s => scoreConditions U I RANGES candidate rest self ranges (← add totalScore s)

/-- `/repo/src/metrics/fzf/fzf.rs:140-173` `Fzf::distance`. Returns the metric, the caller's vector and
the result. -/
def distance {σ : Type} (U : Unicode) (I : FzfImpl σ) (RANGES : Bool) (self : σ) (query : FzfQuery)
    (candidate : List Char) (ranges : List Range) :
    Res (σ × List Range × Option FzfDistance) := do
  if query.isEmpty then
    return (self, ranges, some (FzfDistance.fromScore 0))
  else
    let (self, candidate) ←
      if strIsAscii candidate then pure (self, Candidate.ascii (strBytes candidate))
      else (do
        let (self, chars) ← I.allocChars self candidate
        return (self, Candidate.unicode chars) : Res (σ × Candidate))
    let ranges := MatchedRanges.ofVec ranges
    let (self, ranges, s) ←
      match query with
      | .notExtended pattern => I.fuzzy RANGES self pattern candidate ranges
      | .extended conditions => scoreConditions U I RANGES candidate conditions self ranges 0
    return (self, ranges.ranges, s.map FzfDistance.fromScore)

/-- `/repo/src/metrics/fzf/fzf_v1.rs:250-280` `fuzzy`. -/
def fuzzyV1 (U : Unicode) (RANGES : Bool) (self : FzfV1) (pattern : Pattern) (candidate : Candidate)
    (ranges : MatchedRanges) : Res (FzfV1 × MatchedRanges × Option Score) := do
  let opts := CandidateOpts.new (isSensitive self.caseSensitivity pattern) self.candidateNormalization
  match ← forwardPass pattern candidate opts with
  | none => return (self, ranges, none)
  | some endForward =>
    let startBackward ← backwardPass pattern candidate endForward opts
    let (ranges, score) ← computeScore U RANGES pattern candidate ⟨startBackward, endForward⟩
      opts.charEq self.scoringScheme ranges
    return (self, ranges, some score)

/-- `/repo/src/metrics/fzf/fzf_v1.rs:227-281` `impl Fzf for FzfV1`. -/
def implV1 (U : Unicode) : FzfImpl FzfV1 where
  allocChars := FzfV1.allocChars
  charEq := FzfV1.charEq
  scheme := fun self => self.scoringScheme
  fuzzy := fuzzyV1 U

/-- `/repo/src/metrics/fzf/fzf_v1.rs:207-214` `Metric::distance`. -/
def distanceV1 (U : Unicode) (self : FzfV1) (query : FzfQuery) (candidate : List Char) :
    Res (FzfV1 × Option FzfDistance) := do
  let (self, _, d) ← distance U (implV1 U) false self query candidate []
  return (self, d)

/-- `/repo/src/metrics/fzf/fzf_v1.rs:217-224` `Metric::distance_and_ranges`. -/
def distanceAndRangesV1 (U : Unicode) (self : FzfV1) (query : FzfQuery) (candidate : List Char)
    (ranges : List Range) : Res (FzfV1 × List Range × Option FzfDistance) :=
  distance U (implV1 U) true self query candidate ranges

/-- `/repo/src/metrics/fzf/fzf_v2.rs:261-332` `fuzzy`. -/
def fuzzyV2 (U : Unicode) (RANGES : Bool) (self : FzfV2) (pattern : Pattern) (candidate : Candidate)
    (ranges : MatchedRanges) : Res (FzfV2 × MatchedRanges × Option Score) := do
  let opts := CandidateOpts.new (isSensitive self.caseSensitivity pattern) self.candidateNormalization
  if pattern.charLen == 1 then
    let (ranges, s) ← fuzzySingleChar U RANGES (← pattern.char 0) candidate opts
      self.scoringScheme ranges
    return (self, ranges, s)
  else
    let (indices, matchOffsets, lastMatchOffset?) ←
      v2Matches self.slab.matchedIndices pattern candidate opts
    match lastMatchOffset? with
    | none =>
      return ({ self with slab := { self.slab with
        matchedIndices := writeBack indices matchOffsets } }, ranges, none)
    | some lastMatchOffset =>
      let firstOffset ← getR matchOffsets 0
      let startByteOffset ← if RANGES then candidate.toByteOffset firstOffset else pure 0
      let initialCharClass ←
        if firstOffset == 0 then pure self.scoringScheme.initialCharClass
        else (do
          return charClass U (← candidate.char (firstOffset - 1)) self.scoringScheme : Res CharClass)
      let base ← candidate.slice ⟨firstOffset, lastMatchOffset⟩
      -- `CandidateV2::new`, `/repo/src/metrics/fzf/candidate.rs:106-114`
      let (bonusSlab, bonuses) ← bonusAlloc self.slab.bonus base.charLen
      let candidateV2 : CandidateV2 := ⟨bonuses, base, initialCharClass, opts⟩
      let matchOffsets ← shiftOffsets firstOffset matchOffsets
      let (scoringSlab, consecutiveSlab, scores, consecutives, candidateV2, score, scoreCell) ←
        v2Score U self.slab.scoringMatrix self.slab.consecutiveMatrix pattern candidateV2
          matchOffsets self.scoringScheme
      let ranges ←
        if RANGES then
          v2MatchedRanges scores consecutives scoreCell candidateV2.base startByteOffset ranges
        else pure ranges
      return ({ self with slab := {
        bonus := writeBack bonusSlab candidateV2.bonuses
        consecutiveMatrix := writeBack consecutiveSlab consecutives.slice
        matchedIndices := writeBack indices matchOffsets
        scoringMatrix := writeBack scoringSlab scores.slice } }, ranges, some score)

/-- `/repo/src/metrics/fzf/fzf_v2.rs:238-333` `impl Fzf for FzfV2`. -/
def implV2 (U : Unicode) : FzfImpl FzfV2 where
  allocChars := FzfV2.allocChars
  charEq := FzfV2.charEq
  scheme := fun self => self.scoringScheme
  fuzzy := fuzzyV2 U

/-- `/repo/src/metrics/fzf/fzf_v2.rs:218-225` `Metric::distance`. -/
def distanceV2 (U : Unicode) (self : FzfV2) (query : FzfQuery) (candidate : List Char) :
    Res (FzfV2 × Option FzfDistance) := do
  let (self, _, d) ← distance U (implV2 U) false self query candidate []
  return (self, d)

/-- `/repo/src/metrics/fzf/fzf_v2.rs:228-235` `Metric::distance_and_ranges`. -/
def distanceAndRangesV2 (U : Unicode) (self : FzfV2) (query : FzfQuery) (candidate : List Char)
    (ranges : List Range) : Res (FzfV2 × List Range × Option FzfDistance) :=
  distance U (implV2 U) true self query candidate ranges

/-- `/repo/src/metric.rs:45-49` `Metric::distance`. -/
def metricDistance (U : Unicode) (q : FzfQuery) (candidate : List Char) :
    Metric → Res (Metric × Option FzfDistance)
  | .v1 m => (distanceV1 U m q candidate).mapR (fun x => (.v1 x.1, x.2))
  | .v2 m => (distanceV2 U m q candidate).mapR (fun x => (.v2 x.1, x.2))

/-- `/repo/src/metric.rs:124-129` `Metric::distance_and_ranges`. -/
def metricDistanceAndRanges (U : Unicode) (q : FzfQuery) (candidate : List Char) (buf : List Range) :
    Metric → Res (Metric × List Range × Option FzfDistance)
  | .v1 m => (distanceAndRangesV1 U m q candidate buf).mapR (fun x => (.v1 x.1, x.2))
  | .v2 m => (distanceAndRangesV2 U m q candidate buf).mapR (fun x => (.v2 x.1, x.2))

end Norm.Checked
