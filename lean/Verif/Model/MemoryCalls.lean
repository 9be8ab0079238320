import Verif.Model.Memory
import Verif.Model.Metric

/-!
# The metrics' calls, with references

`Fzf::distance` of `src/metrics/fzf/fzf.rs` once more. Here the query refers to its parser's buffers (`Model/Memory.lean`), and a
candidate that is not ASCII is a reference to the beginning of the metric's own buffer, which outlives the borrow of the metric
(`alloc_chars`, `/repo/src/metrics/fzf/fzf_v1.rs:229-231`, `/repo/src/metrics/fzf/fzf_v2.rs:240-242`). Both are read again for every
pattern, from the memory and the metric as they are then. -/

namespace Norm

/-- `/repo/src/candidate.rs:7-10` `Candidate`; a Unicode one is a reference to the first `len` characters of the metric's buffer. -/
inductive CandidateR where
  | ascii (bytes : List UInt8)
  | unicode (len : Nat)
deriving Repr, DecidableEq

/-- What the candidate reads as. Source: `/repo/src/candidate.rs:7-10`. -/
def CandidateR.read (slab : List Char) : CandidateR → Res Candidate
  | ascii bytes => .ok (.ascii bytes)
  | unicode len => do return .unicode (← sliceToR slab len)

/-- What a pattern reads as. Source: `/repo/src/metrics/fzf/query.rs:136-154`. -/
def PatternR.read (h : Heap) (x : PatternR) : Res Pattern := do
  return {
    text := ← readR h.chars x.text
    hasUppercase := x.hasUppercase
    matchType := x.matchType
    isInverse := x.isInverse
    leadingSpaces := x.leadingSpaces
    trailingSpaces := x.trailingSpaces }

/-- `/repo/src/metrics/fzf/query.rs:41-46` `FzfQuery::is_empty`. -/
def FzfQueryR.isEmpty : FzfQueryR → Bool
  | extended conditions => conditions.len == 0
  | notExtended pattern => pattern.text.len == 0

namespace FzfImpl
variable {σ : Type}

/-- `condition.iter().find_map(|pattern| self.score(..))`, `/repo/src/metrics/fzf/fzf.rs:166-168`. `slab` is the metric's buffer for
candidates. -/
def scoreConditionR (U : Unicode) (I : FzfImpl σ) (slab : σ → List Char) (h : Heap) (RANGES : Bool) (candidate : CandidateR) :
    List PatternR → σ → MatchedRanges → Res (σ × MatchedRanges × Option Score)
  | [], self, ranges => .ok (self, ranges, none)
  | pattern :: rest, self, ranges => do
    let (self, ranges, s) ←
      I.score U RANGES self (← pattern.read h) (← candidate.read (slab self)) ranges
    match s with
    | some s => return (self, ranges, some s)
    | none => scoreConditionR U I slab h RANGES candidate rest self ranges

/-- The `for` loop over conditions, `/repo/src/metrics/fzf/fzf.rs:164-170`. -/
def scoreConditionsR (U : Unicode) (I : FzfImpl σ) (slab : σ → List Char) (h : Heap) (RANGES : Bool) (candidate : CandidateR) :
    List ConditionR → σ → MatchedRanges → (totalScore : Score) → Res (σ × MatchedRanges × Option Score)
  | [], self, ranges, totalScore => .ok (self, ranges, some totalScore)
  | condition :: rest, self, ranges, totalScore => do
    let (self, ranges, s) ← scoreConditionR U I slab h RANGES candidate (← readR h.patterns condition) self ranges
    match s with
    | none => return (self, ranges, none)
    | some s => scoreConditionsR U I slab h RANGES candidate rest self ranges (totalScore + s)

/-- `/repo/src/metrics/fzf/fzf.rs:140-173` `Fzf::distance`. -/
def distanceR (U : Unicode) (I : FzfImpl σ) (slab : σ → List Char) (h : Heap) (RANGES : Bool) (self : σ) (query : FzfQueryR)
    (candidate : List Char) (ranges : List Range) : Res (σ × List Range × Option FzfDistance) := do
  if query.isEmpty then
    return (self, ranges, some (FzfDistance.fromScore 0))
  else
    let (self, candidate) ←
      if strIsAscii candidate then pure (self, CandidateR.ascii (strBytes candidate))
      else (do
        let (self, chars) ← I.allocChars self candidate
        return (self, CandidateR.unicode chars.length) : Res (σ × CandidateR))
    let ranges := MatchedRanges.ofVec ranges
    let (self, ranges, s) ←
      match query with
      | .notExtended pattern =>
        (do I.fuzzy RANGES self (← pattern.read h) (← candidate.read (slab self)) ranges : Res (σ × MatchedRanges × Option Score))
      | .extended conditions =>
        (do scoreConditionsR U I slab h RANGES candidate (← readR h.conditions conditions) self ranges 0 :
          Res (σ × MatchedRanges × Option Score))
    return (self, ranges.ranges, s.map FzfDistance.fromScore)

end FzfImpl

namespace Metric

/-- `Metric::distance`, with references. Source: `/repo/src/metric.rs:45-49`. -/
def distanceR (U : Unicode) (h : Heap) (q : FzfQueryR) (candidate : List Char) : Metric → Res (Metric × Option FzfDistance)
  | .v1 m => ((FzfV1.impl U).distanceR U FzfV1.candidateSlab h false m q candidate []).mapR (fun x => (.v1 x.1, x.2.2))
  | .v2 m => ((FzfV2.impl U).distanceR U FzfV2.candidateSlab h false m q candidate []).mapR (fun x => (.v2 x.1, x.2.2))

/-- `Metric::distance_and_ranges`, with references. Source: `/repo/src/metric.rs:124-129`. -/
def distanceAndRangesR (U : Unicode) (h : Heap) (q : FzfQueryR) (candidate : List Char) (buf : List Range) :
    Metric → Res (Metric × List Range × Option FzfDistance)
  | .v1 m => ((FzfV1.impl U).distanceR U FzfV1.candidateSlab h true m q candidate buf).mapR (fun x => (.v1 x.1, x.2))
  | .v2 m => ((FzfV2.impl U).distanceR U FzfV2.candidateSlab h true m q candidate buf).mapR (fun x => (.v2 x.1, x.2))

end Metric

end Norm
