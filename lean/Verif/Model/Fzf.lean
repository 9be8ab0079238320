import Verif.Model.MatchedRanges
import Verif.Model.Slab
import Verif.Model.Query

/-!
# `src/metrics/fzf/fzf.rs`

`RANGES` const generics are ordinary `Bool` arguments. A function taking `&mut MatchedRanges` and
returning `Option<Score>` becomes one returning `Res (MatchedRanges × Option Score)`: when it returns
`None` early the (possibly modified) ranges are still visible to the caller.
-/

namespace Norm

/-- The local variables of the `for` loop of `compute_score`,
`/repo/src/metrics/fzf/fzf.rs:493-522`. -/
structure ScoreState where
  isInGap : Bool
  isFirstPatternChar : Bool
  firstBonus : Score
  consecutive : Nat
  byteOffset : Nat
  prevClass : CharClass
  patternChars : List Char
  patternChar : Char
  score : Score
  ranges : MatchedRanges

/-- The `for` loop of `compute_score`, `/repo/src/metrics/fzf/fzf.rs:524-583`. -/
def computeScoreLoop (U : Unicode) (RANGES : Bool) (eq : CharEq) (scheme : Scheme)
    (byteRangeStart : Nat) : List Char → ScoreState → Res ScoreState
  | [], st => .ok st
  | candidateCh :: rest, st => do
    let chClass := charClass U candidateCh scheme
    if eq st.patternChar candidateCh then
      let bonus := computeBonus st.prevClass chClass scheme
      let firstBonus :=
        if st.consecutive == 0 then bonus
        else if bonus ≥ Bonus.boundary && bonus > st.firstBonus then bonus
        else st.firstBonus
      let bonus :=
        if st.consecutive == 0 then bonus
        else max (max bonus firstBonus) Bonus.consecutive
      let score := st.score + Bonus.match +
        (if st.isFirstPatternChar then bonus * Bonus.firstQueryCharMultiplier else bonus)
      let ranges ←
        if RANGES then
          let start := byteRangeStart + st.byteOffset
          st.ranges.insert ⟨start, start + lenUtf8 candidateCh⟩
        else pure st.ranges
      let st := { st with
        firstBonus := firstBonus, score := score, ranges := ranges, isInGap := false,
        isFirstPatternChar := false, consecutive := st.consecutive + 1 }
      match st.patternChars with
      | nextChar :: patternChars =>
        computeScoreLoop U RANGES eq scheme byteRangeStart rest { st with
          patternChar := nextChar, patternChars := patternChars, prevClass := chClass,
          byteOffset := if RANGES then st.byteOffset + lenUtf8 candidateCh else st.byteOffset }
      | [] => return st
    else
      let score := st.score - (if st.isInGap then Penalty.gapExtension else Penalty.gapStart)
      computeScoreLoop U RANGES eq scheme byteRangeStart rest { st with
        score := score, isInGap := true, consecutive := 0, firstBonus := 0, prevClass := chClass,
        byteOffset := if RANGES then st.byteOffset + lenUtf8 candidateCh else st.byteOffset }

/-- `/repo/src/metrics/fzf/fzf.rs:484-586` `compute_score`. -/
def computeScore (U : Unicode) (RANGES : Bool) (pattern : Pattern) (candidate : Candidate)
    (charRange : Range) (eq : CharEq) (scheme : Scheme) (ranges : MatchedRanges) :
    Res (MatchedRanges × Score) := do
  let byteRangeStart ← if RANGES then candidate.toByteOffset charRange.start else pure 0
  let prevClass ←
    if charRange.start == 0 then pure scheme.initialCharClass
    else (do return charClass U (← candidate.char (charRange.start - 1)) scheme : Res CharClass)
  let patternChar ← Res.unwrap pattern.text.head?
  let chars ← (← candidate.slice charRange).chars
  let st ← computeScoreLoop U RANGES eq scheme byteRangeStart chars {
    isInGap := false, isFirstPatternChar := true, firstBonus := 0, consecutive := 0
    byteOffset := 0, prevClass := prevClass, patternChars := pattern.text.tail
    patternChar := patternChar, score := 0, ranges := ranges }
  return (st.ranges, st.score)

/-- The local variables of `exact_match`, `/repo/src/metrics/fzf/fzf.rs:190-209`. -/
structure ExactState where
  bestBonus : Score
  bestBonusCharStart : Nat
  bestBonusCharEnd : Nat
  matched : Bool
  prevClass : CharClass
  startOffset : Nat
  bonusStart : Nat
  currentBonus : Score
  patternCharIdx : Nat
deriving Repr, DecidableEq

/-- How the inner `for` loop of `exact_match` ended: `break 'outer`, or (by `break` or exhaustion)
with the given characters left in the iterator. Source: `/repo/src/metrics/fzf/fzf.rs:205-256`. -/
inductive ExactExit where
  | breakOuter
  | done (rest : List Char)
deriving Repr, DecidableEq

/-- The inner `for` loop of `exact_match`, `/repo/src/metrics/fzf/fzf.rs:213-251`, on the remaining
characters, the next of which has enumeration index `charOffset`. -/
def exactInner (U : Unicode) (pattern : Pattern) (eq : CharEq) (scheme : Scheme)
    (currentStartOffset : Nat) : List Char → (charOffset : Nat) → ExactState →
    Res (ExactExit × ExactState)
  | [], _, st => .ok (.done [], st)
  | candidateCh :: rest, charOffset, st => do
    let patternCh ← pattern.char st.patternCharIdx
    let chClass := charClass U candidateCh scheme
    if eq patternCh candidateCh then
      let st :=
        if st.patternCharIdx == 0 then
          { st with
            bonusStart := currentStartOffset + charOffset
            startOffset := st.startOffset + (charOffset + 1)
            currentBonus := computeBonus st.prevClass chClass scheme }
        else st
      let st := { st with patternCharIdx := st.patternCharIdx + 1 }
      if st.patternCharIdx == pattern.charLen then
        let st := { st with matched := true }
        let st :=
          if st.currentBonus > st.bestBonus then
            { st with
              bestBonus := st.currentBonus
              bestBonusCharStart := st.bonusStart
              bestBonusCharEnd := currentStartOffset + charOffset + 1 }
          else st
        if st.currentBonus ≥ Bonus.boundary then
          return (.breakOuter, st)
        else
          return (.done rest, st)
      else
        exactInner U pattern eq scheme currentStartOffset rest (charOffset + 1)
          { st with prevClass := chClass }
    else if st.patternCharIdx > 0 then
      return (.done rest, st)
    else
      exactInner U pattern eq scheme currentStartOffset rest (charOffset + 1)
        { st with prevClass := chClass }

/-- The `'outer` loop of `exact_match`, `/repo/src/metrics/fzf/fzf.rs:205-256`. `fuel` bounds the
iterations (each one that continues has advanced `start_offset`). -/
def exactOuter (U : Unicode) (pattern : Pattern) (candidate : Candidate) (eq : CharEq)
    (scheme : Scheme) : (fuel : Nat) → ExactState → Res ExactState
  | 0, _ => .panic
  | fuel + 1, st => do
    let currentStartOffset := st.startOffset
    let st := { st with bonusStart := 0, currentBonus := 0, patternCharIdx := 0 }
    let chars ← candidate.charsFrom st.startOffset
    let (exit, st) ← exactInner U pattern eq scheme currentStartOffset chars 0 st
    match exit with
    | .breakOuter => return st
    | .done [] => return st
    | .done (_ :: _) => exactOuter U pattern candidate eq scheme fuel st

/-- The common tail of the exact matchers: `/repo/src/metrics/fzf/fzf.rs:264-277,317-330,372-385,436-449`. -/
def finishExact (U : Unicode) (RANGES : Bool) (pattern : Pattern) (candidate : Candidate)
    (matchedRange : Range) (eq : CharEq) (scheme : Scheme) (ranges : MatchedRanges) :
    Res (MatchedRanges × Option Score) := do
  let (ranges, score) ← computeScore U false pattern candidate matchedRange eq scheme ranges
  let ranges ←
    if RANGES then (do ranges.insert (← candidate.toByteRange matchedRange) : Res MatchedRanges)
    else pure ranges
  return (ranges, some score)

/-- `/repo/src/metrics/fzf/fzf.rs:178-278` `exact_match`. -/
def exactMatch (U : Unicode) (RANGES : Bool) (pattern : Pattern) (candidate : Candidate)
    (eq : CharEq) (scheme : Scheme) (ranges : MatchedRanges) :
    Res (MatchedRanges × Option Score) := do
  if pattern.isEmpty then
    return (ranges, some 0)
  else
    let st ← exactOuter U pattern candidate eq scheme (candidate.charLen + 1) {
      bestBonus := -1, bestBonusCharStart := 0, bestBonusCharEnd := 0, matched := false
      prevClass := scheme.initialCharClass, startOffset := 0
      bonusStart := 0, currentBonus := 0, patternCharIdx := 0 }
    if !st.matched then
      return (ranges, none)
    else
      finishExact U RANGES pattern candidate ⟨st.bestBonusCharStart, st.bestBonusCharEnd⟩ eq scheme
        ranges

/-- `/repo/src/metrics/fzf/fzf.rs:454-465` `ignored_candidate_leading_spaces`. -/
def ignoredCandidateLeadingSpaces (pattern : Pattern) (candidate : Candidate) : Res (Option Nat) :=
  let candidateLeadingSpaces := candidate.leadingSpaces
  if pattern.leadingSpaces > candidateLeadingSpaces then .ok none
  else do return some (← subR candidateLeadingSpaces pattern.leadingSpaces)

/-- `/repo/src/metrics/fzf/fzf.rs:469-480` `ignored_candidate_trailing_spaces`. -/
def ignoredCandidateTrailingSpaces (pattern : Pattern) (candidate : Candidate) : Res (Option Nat) :=
  let candidateTrailingSpaces := candidate.trailingSpaces
  if pattern.trailingSpaces > candidateTrailingSpaces then .ok none
  else do return some (← subR candidateTrailingSpaces pattern.trailingSpaces)

/-- The `zip` loops of the prefix, suffix and equal matchers
(`/repo/src/metrics/fzf/fzf.rs:298-305,351-360,424-430`): `none` when a pair differs (`return None`),
otherwise the items left in the pattern's and the candidate's iterator.

`a.by_ref().zip(b.by_ref())` calls `a.next()` first, so when the first iterator is the longer one its
next item is consumed and dropped. That only concerns the iterator that comes first: the candidate's
in the prefix and suffix matchers (whose rest is not used), the pattern's in the equal matcher (`patternFirst`),
where the candidate's rest is then empty and the dropped pattern item matters. -/
def zipLoop (eq : CharEq) (patternFirst : Bool) :
    (pattern candidate : List Char) → Option (List Char × List Char)
  | p :: ps, c :: cs => if eq p c then zipLoop eq patternFirst ps cs else none
  | [], cs => some ([], cs)
  | p :: ps, [] => some (if patternFirst then ps else p :: ps, [])

/-- `/repo/src/metrics/fzf/fzf.rs:282-331` `prefix_match`. -/
def prefixMatch (U : Unicode) (RANGES : Bool) (pattern : Pattern) (candidate : Candidate)
    (eq : CharEq) (scheme : Scheme) (ranges : MatchedRanges) :
    Res (MatchedRanges × Option Score) := do
  if pattern.isEmpty then
    return (ranges, some 0)
  else
    match ← ignoredCandidateLeadingSpaces pattern candidate with
    | none => return (ranges, none)
    | some ignoredLeadingSpaces =>
      let chars ← candidate.charsFrom ignoredLeadingSpaces
      match zipLoop eq false pattern.text chars with
      | none => return (ranges, none)
      | some (_ :: _, _) => return (ranges, none)
      | some ([], _) =>
        finishExact U RANGES pattern candidate
          ⟨ignoredLeadingSpaces, ignoredLeadingSpaces + pattern.charLen⟩ eq scheme ranges

/-- `/repo/src/metrics/fzf/fzf.rs:335-386` `suffix_match`. -/
def suffixMatch (U : Unicode) (RANGES : Bool) (pattern : Pattern) (candidate : Candidate)
    (eq : CharEq) (scheme : Scheme) (ranges : MatchedRanges) :
    Res (MatchedRanges × Option Score) := do
  if pattern.isEmpty then
    return (ranges, some 0)
  else
    match ← ignoredCandidateTrailingSpaces pattern candidate with
    | none => return (ranges, none)
    | some ignoredTrailingSpaces =>
      let upToIgnoredSpaces ← subR candidate.charLen ignoredTrailingSpaces
      let chars ← (← candidate.slice ⟨0, upToIgnoredSpaces⟩).chars
      match zipLoop eq false pattern.text.reverse chars.reverse with
      | none => return (ranges, none)
      | some (_ :: _, _) => return (ranges, none)
      | some ([], _) =>
        let start ← subR upToIgnoredSpaces pattern.charLen
        finishExact U RANGES pattern candidate ⟨start, upToIgnoredSpaces⟩ eq scheme ranges

/-- `/repo/src/metrics/fzf/fzf.rs:390-450` `equal_match`. -/
def equalMatch (U : Unicode) (RANGES : Bool) (pattern : Pattern) (candidate : Candidate)
    (eq : CharEq) (scheme : Scheme) (ranges : MatchedRanges) :
    Res (MatchedRanges × Option Score) := do
  if pattern.isEmpty then
    return (ranges, some 0)
  else
    match ← ignoredCandidateLeadingSpaces pattern candidate with
    | none => return (ranges, none)
    | some ignoredLeadingSpaces =>
      if ignoredLeadingSpaces == candidate.charLen then
        return (ranges, none)
      else
        match ← ignoredCandidateTrailingSpaces pattern candidate with
        | none => return (ranges, none)
        | some ignoredTrailingSpaces =>
          let matchedCharRange : Range :=
            ⟨ignoredLeadingSpaces, ← subR candidate.charLen ignoredTrailingSpaces⟩
          if matchedCharRange.len < pattern.charLen then
            return (ranges, none)
          else
            let chars ← (← candidate.slice matchedCharRange).chars
            match zipLoop eq true pattern.text chars with
            | none => return (ranges, none)
            | some (patternRest, candidateRest) =>
              if !patternRest.isEmpty || !candidateRest.isEmpty then
                return (ranges, none)
              else
                finishExact U RANGES pattern candidate matchedCharRange eq scheme ranges

/-- `/repo/src/metrics/fzf/fzf.rs:8-24` the required methods of the trait `Fzf`, for a metric with state `σ`. -/
structure FzfImpl (σ : Type) where
  allocChars : σ → List Char → Res (σ × List Char)
  charEq : σ → Pattern → CharEq
  scheme : σ → Scheme
  fuzzy : (RANGES : Bool) → σ → Pattern → Candidate → MatchedRanges →
    Res (σ × MatchedRanges × Option Score)

namespace FzfImpl
variable {σ : Type}

/-- `/repo/src/metrics/fzf/fzf.rs:27-136` `Fzf::score`. The `if pattern.is_inverse { f::<false> } else { f::<RANGES> }`
of each arm is written `f (if pattern.isInverse then false else RANGES)`. -/
def score (U : Unicode) (I : FzfImpl σ) (RANGES : Bool) (self : σ) (pattern : Pattern)
    (candidate : Candidate) (ranges : MatchedRanges) : Res (σ × MatchedRanges × Option Score) := do
  let R := if pattern.isInverse then false else RANGES
  let (self, ranges, score) ←
    match pattern.matchType with
    | .fuzzy => I.fuzzy R self pattern candidate ranges
    | .exact =>
      let (ranges, s) ← exactMatch U R pattern candidate (I.charEq self pattern) (I.scheme self) ranges
      pure (self, ranges, s)
    | .prefixExact =>
      let (ranges, s) ← prefixMatch U R pattern candidate (I.charEq self pattern) (I.scheme self) ranges
      pure (self, ranges, s)
    | .suffixExact =>
      let (ranges, s) ← suffixMatch U R pattern candidate (I.charEq self pattern) (I.scheme self) ranges
      pure (self, ranges, s)
    | .equalExact =>
      let (ranges, s) ← equalMatch U R pattern candidate (I.charEq self pattern) (I.scheme self) ranges
      pure (self, ranges, s)
  match score.isSome, pattern.isInverse with
  | true, false => return (self, ranges, score)
  | false, true => return (self, ranges, some 0)
  | _, _ => return (self, ranges, none)

/-- `condition.iter().find_map(|pattern| self.score(..))`, `/repo/src/metrics/fzf/fzf.rs:166-168`. -/
def scoreCondition (U : Unicode) (I : FzfImpl σ) (RANGES : Bool) (candidate : Candidate) :
    List Pattern → σ → MatchedRanges → Res (σ × MatchedRanges × Option Score)
  | [], self, ranges => .ok (self, ranges, none)
  | pattern :: rest, self, ranges => do
    let (self, ranges, s) ← I.score U RANGES self pattern candidate ranges
    match s with
    | some s => return (self, ranges, some s)
    | none => scoreCondition U I RANGES candidate rest self ranges

/-- The `for` loop over conditions, `/repo/src/metrics/fzf/fzf.rs:164-170`. -/
def scoreConditions (U : Unicode) (I : FzfImpl σ) (RANGES : Bool) (candidate : Candidate) :
    List Condition → σ → MatchedRanges → (totalScore : Score) →
    Res (σ × MatchedRanges × Option Score)
  | [], self, ranges, totalScore => .ok (self, ranges, some totalScore)
  | condition :: rest, self, ranges, totalScore => do
    let (self, ranges, s) ← scoreCondition U I RANGES candidate condition self ranges
    match s with
    | none => return (self, ranges, none)
    | some s => scoreConditions U I RANGES candidate rest self ranges (totalScore + s)

/-- `/repo/src/metrics/fzf/fzf.rs:140-173` `Fzf::distance`. Returns the metric, the caller's vector and
the result. -/
def distance (U : Unicode) (I : FzfImpl σ) (RANGES : Bool) (self : σ) (query : FzfQuery)
    (candidate : List Char) (ranges : List Range) :
    Res (σ × List Range × Option FzfDistance) := do
  if query.isEmpty then
    return (self, ranges, some (FzfDistance.fromScore 0))
  else
    let (self, candidate) ←
      if strIsAscii candidate then pure (self, Candidate.ascii (strBytes candidate))
      else (do
        let (self, chars) ← I.allocChars self candidate
        return (self, Candidate.unicode chars) : Res (σ × Candidate))
    let ranges := MatchedRanges.ofVec ranges
    let (self, ranges, s) ←
      match query with
      | .notExtended pattern => I.fuzzy RANGES self pattern candidate ranges
      | .extended conditions => I.scoreConditions U RANGES candidate conditions self ranges 0
    return (self, ranges.ranges, s.map FzfDistance.fromScore)

end FzfImpl

end Norm
