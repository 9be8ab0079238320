import Verif.SpecApi

/-!
# Sizes of the buffers

How many elements the vectors have that a metric or a parser keeps between calls. -/

namespace Norm.Spec

/-- The lengths of the vectors of a metric: `candidate_slab`, and of an `FzfV2`'s `slab` the vectors `bonus`,
`matched_indices`, `scoring_matrix` and `consecutive_matrix` (none in an `FzfV1`). -/
structure BufLens where
  candidate : Nat
  bonus : Nat
  indices : Nat
  scores : Nat
  consecutives : Nat
deriving Repr, DecidableEq

def sizes : Metric → BufLens
  | .v1 m => ⟨m.candidateSlab.length, 0, 0, 0, 0⟩
  | .v2 m => ⟨m.candidateSlab.length, m.slab.bonus.length, m.slab.matchedIndices.length, m.slab.scoringMatrix.length,
      m.slab.consecutiveMatrix.length⟩

/-- No length of the first is above that of the second. -/
structure BufLens.Le (x y : BufLens) : Prop where
  candidate : x.candidate ≤ y.candidate
  bonus : x.bonus ≤ y.bonus
  indices : x.indices ≤ y.indices
  scores : x.scores ≤ y.scores
  consecutives : x.consecutives ≤ y.consecutives

/-- The larger of the two, length by length. -/
def BufLens.sup (x y : BufLens) : BufLens :=
  ⟨max x.candidate y.candidate, max x.bonus y.bonus, max x.indices y.indices, max x.scores y.scores,
    max x.consecutives y.consecutives⟩

/-- What a call with patterns of at most `n` characters and a candidate of `b` bytes and `k` characters may need. -/
def need (a : Algo) (n b k : Nat) : BufLens :=
  match a with
  | .v1 => ⟨b, 0, 0, 0, 0⟩
  | .v2 => ⟨b, k, n, n * k, n * k⟩

/-- No pattern of the query is longer than `n` characters. -/
def Within (n : Nat) (q : FzfQuery) : Prop := ∀ p ∈ patterns q, p.text.length ≤ n

/-- `m` is what some sequence of API calls makes of a new metric, with patterns of at most `n` characters and candidates
of at most `b` bytes and `k` characters. -/
inductive ReachableWithin (U : Unicode) (a : Algo) (n b k : Nat) : Metric → Prop
  | new : ReachableWithin U a n b k (Metric.new a)
  | setCandidateNormalization {m} (x : Bool) : ReachableWithin U a n b k m →
      ReachableWithin U a n b k (m.setCandidateNormalization x)
  | setCaseSensitivity {m} (cs : CaseSensitivity) : ReachableWithin U a n b k m →
      ReachableWithin U a n b k (m.setCaseSensitivity cs)
  | setScoringScheme {m} (S : FzfScheme) : ReachableWithin U a n b k m →
      ReachableWithin U a n b k (m.setScoringScheme S)
  | distance {m m' q s d} : ReachableWithin U a n b k m → Within n q → strLen s ≤ b → s.length ≤ k →
      m.distance U q s = .ok (m', d) → ReachableWithin U a n b k m'
  | distanceAndRanges {m m' q s buf buf' d} : ReachableWithin U a n b k m → Within n q → strLen s ≤ b → s.length ≤ k →
      m.distanceAndRanges U q s buf = .ok (m', buf', d) → ReachableWithin U a n b k m'

/-- A parser after some sequence of API calls with strings of at most `b` bytes. -/
inductive ReachableParserWithin (U : Unicode) (b : Nat) : FzfParser → Prop
  | new : ReachableParserWithin U b FzfParser.new
  | parse {P P' t q} : ReachableParserWithin U b P → strLen t ≤ b → P.parse U t = .ok (P', q) →
      ReachableParserWithin U b P'
  | parseNotExtended {P P' t q} : ReachableParserWithin U b P → strLen t ≤ b → P.parseNotExtended U t = .ok (P', q) →
      ReachableParserWithin U b P'

end Norm.Spec
