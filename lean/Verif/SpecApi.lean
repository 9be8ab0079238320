import Verif.Model.Metric
import Verif.SpecQuery

/-!
# Histories of API calls

`Reachable U a m st`: the metric `m` is what some sequence of API calls makes of a new metric of algorithm `a`, and
`st` are the settings last written by that sequence (the documented defaults if never written). Calls that panic are
among them: the panic may be caught and the metric be used again. -/

namespace Norm.Spec

/-- The settings of a new metric, as documented. -/
def defaultSettings : Settings := ⟨.smart, false, .default⟩

/-- What a call of `distance` or `distance_and_ranges` that panics may leave of a metric: anything in its buffers, which are
not shorter than before; the settings are what they were. -/
inductive Unwound : Metric → Metric → Prop
  | v1 {m m' : FzfV1} : m.candidateSlab.length ≤ m'.candidateSlab.length → m'.caseSensitivity = m.caseSensitivity →
      m'.candidateNormalization = m.candidateNormalization → m'.scoringScheme = m.scoringScheme → Unwound (.v1 m) (.v1 m')
  | v2 {m m' : FzfV2} : m.candidateSlab.length ≤ m'.candidateSlab.length → m.slab.bonus.length ≤ m'.slab.bonus.length →
      m.slab.consecutiveMatrix.length ≤ m'.slab.consecutiveMatrix.length →
      m.slab.matchedIndices.length ≤ m'.slab.matchedIndices.length →
      m.slab.scoringMatrix.length ≤ m'.slab.scoringMatrix.length → m'.caseSensitivity = m.caseSensitivity →
      m'.candidateNormalization = m.candidateNormalization → m'.scoringScheme = m.scoringScheme → Unwound (.v2 m) (.v2 m')

/-- What a call of `parse` or `parse_not_extended` that panics may leave of a parser: anything in its buffers, which are not
shorter than before. -/
structure UnwoundParser (P P' : FzfParser) : Prop where
  chars : P.chars.length ≤ P'.chars.length
  patterns : P.patterns.length ≤ P'.patterns.length
  conditions : P.conditions.length ≤ P'.conditions.length

inductive Reachable (U : Unicode) (a : Algo) : Metric → Settings → Prop
  | new : Reachable U a (Metric.new a) defaultSettings
  | setCandidateNormalization {m st} (n : Bool) : Reachable U a m st →
      Reachable U a (m.setCandidateNormalization n) { st with normalization := n }
  | setCaseSensitivity {m st} (cs : CaseSensitivity) : Reachable U a m st →
      Reachable U a (m.setCaseSensitivity cs) { st with caseSensitivity := cs }
  | setScoringScheme {m st} (S : FzfScheme) : Reachable U a m st →
      Reachable U a (m.setScoringScheme S) { st with scheme := S }
  | distance {m m' st q s d} : Reachable U a m st → QueryOk U q → m.distance U q s = .ok (m', d) →
      Reachable U a m' st
  | distanceAndRanges {m m' st q s buf buf' d} : Reachable U a m st → QueryOk U q →
      m.distanceAndRanges U q s buf = .ok (m', buf', d) → Reachable U a m' st
  | unwound {m m' st} : Reachable U a m st → Unwound m m' → Reachable U a m' st

/-- A parser after some sequence of API calls. -/
inductive ReachableParser (U : Unicode) : FzfParser → Prop
  | new : ReachableParser U FzfParser.new
  | parse {P P' t q} : ReachableParser U P → P.parse U t = .ok (P', q) → ReachableParser U P'
  | parseNotExtended {P P' t q} : ReachableParser U P → P.parseNotExtended U t = .ok (P', q) → ReachableParser U P'
  | unwound {P P'} : ReachableParser U P → UnwoundParser P P' → ReachableParser U P'

/-- `q` is what `parse` returns for the string `t`, on some parser. -/
def Parsed (U : Unicode) (t : List Char) (q : FzfQuery) : Prop :=
  ∃ P P', ReachableParser U P ∧ P.parse U t = .ok (P', q)

/-- `q` is what `parse_not_extended` returns for the string `t`, on some parser. -/
def ParsedRaw (U : Unicode) (t : List Char) (q : FzfQuery) : Prop :=
  ∃ P P', ReachableParser U P ∧ P.parseNotExtended U t = .ok (P', q)

/-- The call `m.distance(q, s)` returns (does not panic), and returns `d`. -/
def Returns (U : Unicode) (m : Metric) (q : FzfQuery) (s : List Char) (d : Option FzfDistance) : Prop :=
  ∃ m', m.distance U q s = .ok (m', d)

/-- The call `m.distance_and_ranges(q, s, &mut buf)` returns `d` and leaves `buf'` in the buffer. -/
def ReturnsRanges (U : Unicode) (m : Metric) (q : FzfQuery) (s : List Char) (buf buf' : List Range)
    (d : Option FzfDistance) : Prop :=
  ∃ m', m.distanceAndRanges U q s buf = .ok (m', buf', d)

/-- The query made of one pattern. -/
def single (p : Pattern) : FzfQuery := .extended [[p]]

/-- `q` is the fuzzy query of the pattern `p`: a non-extended query, or one non-negated fuzzy pattern. -/
def FuzzyFor (q : FzfQuery) (p : Pattern) : Prop :=
  q = .notExtended p ∨ (q = single p ∧ p.matchType = .fuzzy ∧ p.isInverse = false)

/-- `p` is the first alternative of the condition `c` that matches the candidate. -/
def FirstMatch (U : Unicode) (st : Settings) (s : List Char) (c : Condition) (p : Pattern) : Prop :=
  ∃ l l', c = l ++ p :: l' ∧ (∀ x ∈ l, ¬ PatternMatches U st x s) ∧ PatternMatches U st p s

/-- All patterns of a query. -/
def patterns : FzfQuery → List Pattern
  | .notExtended p => [p]
  | .extended cs => cs.flatten

/-- Byte `b` is covered by one of the ranges. -/
def Covers (l : List Range) (b : Nat) : Prop := ∃ r ∈ l, r.start ≤ b ∧ b < r.stop

end Norm.Spec
