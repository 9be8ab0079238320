import Verif.Model.UsizeParser
import Verif.SpecApi

/-!
# Builds of the library, and what a program can reach in one

`BuildOk` says what a build has to be like for the comparisons of C78 and C79 to make sense; the histories are those of
`SpecApi.lean`, run on the functions of `Model/Usize.lean`. -/

namespace Norm.Spec

open Norm.Usize

/-- What the language guarantees: no allocation is larger than `isize::MAX` bytes, and every element takes at least one
byte. (A new metric and a new parser have vectors of up to 256 elements.) -/
structure BuildOk (B : Build) : Prop where
  lo : ∀ e, 256 ≤ B.limit e
  hi : ∀ e, B.limit e < 2 ^ (B.bits - 1)

/-- The size in bytes of what the vectors hold, for a `usize` of 32 or 64 bits. -/
def elemSize (bits : Nat) : Elem → Nat
  | .char => 4
  | .range => 2 * (bits / 8)
  | .bonus => 2
  | .index => bits / 8
  | .score => 8
  | .pattern => 5 * (bits / 8)
  | .condition => 2 * (bits / 8)

/-- A build in which vectors take up to `isize::MAX` bytes. -/
def roomyBuild (bits : Nat) (debug : Bool) : Build where
  bits := bits
  debug := debug
  limit e := (2 ^ (bits - 1) - 1) / elemSize bits e

/-- There is room to parse a string: for as many characters as it has bytes, and for half as many patterns and conditions. -/
def ParseFits (B : Build) (t : List Char) : Prop :=
  strLen t ≤ B.limit .char ∧ strLen t / 2 + 1 ≤ B.limit .pattern ∧ strLen t / 2 + 1 ≤ B.limit .condition

/-- The character of `s` at `i` is one that `x` matches. -/
def HitAt (R : Char → Char → Prop) (x : Char) (s : List Char) (i : Nat) : Prop := ∃ c, s[i]? = some c ∧ R x c

/-- From the first character of `s` that the first of `p` matches to the last that the last of `p` matches there are `w`
characters. -/
def Width (R : Char → Char → Prop) (p s : List Char) (w : Nat) : Prop :=
  ∃ x y i j, p.head? = some x ∧ p.getLast? = some y ∧ HitAt R x s i ∧ (∀ k, k < i → ¬ HitAt R x s k) ∧
    HitAt R y s j ∧ (∀ k, j < k → ¬ HitAt R y s k) ∧ w = j + 1 - i

/-- `FzfV2` has room for a fuzzy pattern: if it has not just one character, for an index for each; if it also matches, for a
bonus for each character of that part of the candidate, and for a score and an index for each pair of a character of the
pattern and one of that part. -/
def MatrixFits (B : Build) (U : Unicode) (st : Settings) (p : Pattern) (s : List Char) : Prop :=
  p.text.length ≠ 1 → p.text.length ≤ B.limit .index ∧
    (RawMatches U st p s → ∀ w, Width (Cmp U st p.text) p.text s w →
      w ≤ B.limit .bonus ∧ p.text.length * w ≤ B.limit .score ∧ p.text.length * w ≤ B.limit .index)

/-- A pattern of a query that is tried on a candidate: all conditions before its own have an alternative that matches, and no
alternative before it does. -/
def Tried (U : Unicode) (st : Settings) (s : List Char) : FzfQuery → Pattern → Prop
  | .notExtended p', p => p = p'
  | .extended cs, p => ∃ ds d ds' l l', cs = ds ++ d :: ds' ∧ d = l ++ p :: l' ∧
      (∀ e ∈ ds, ∃ x ∈ e, PatternMatches U st x s) ∧ ∀ x ∈ l, ¬ PatternMatches U st x s

/-- There is room to run a query on a candidate, apart from ranges: for as many characters as a candidate that is not ASCII has
bytes, and for what `FzfV2` needs for the fuzzy patterns that are tried. The empty query needs nothing. -/
def CallFits (B : Build) (U : Unicode) (a : Algo) (st : Settings) (q : FzfQuery) (s : List Char) : Prop :=
  (∃ p ∈ patterns q, p.text ≠ []) → (strIsAscii s = false → strLen s ≤ B.limit .char) ∧
    (a = .v2 → ∀ p, Tried U st s q p → p.matchType = .fuzzy → MatrixFits B U st p s)

/-- A `&str` that exists in memory has at most `isize::MAX` bytes. -/
def InMemory (B : Build) (s : List Char) : Prop := strLen s < 2 ^ (B.bits - 1)

/-- The vectors of a parser are no longer than they can be. -/
structure ParserFits (B : Build) (P : FzfParser) : Prop where
  chars : P.chars.length ≤ B.limit .char
  patterns : P.patterns.length ≤ B.limit .pattern
  conditions : P.conditions.length ≤ B.limit .condition

/-- The vectors of a metric are no longer than they can be. -/
def MetricFits (B : Build) : Metric → Prop
  | .v1 m => m.candidateSlab.length ≤ B.limit .char
  | .v2 m => m.candidateSlab.length ≤ B.limit .char ∧ m.slab.bonus.length ≤ B.limit .bonus ∧
      m.slab.consecutiveMatrix.length ≤ B.limit .index ∧ m.slab.matchedIndices.length ≤ B.limit .index ∧
      m.slab.scoringMatrix.length ≤ B.limit .score

/-- A parser after some sequence of API calls, in the build `B`; some of them may have panicked. -/
inductive ReachableParserIn (B : Build) (U : Unicode) : FzfParser → Prop
  | new : ReachableParserIn B U FzfParser.new
  | parse {P P' t q} : ReachableParserIn B U P → InMemory B t → Usize.parse B U P t = .ok (P', q) →
      ReachableParserIn B U P'
  | parseNotExtended {P P' t q} : ReachableParserIn B U P → InMemory B t →
      Usize.parseNotExtended B U P t = .ok (P', q) → ReachableParserIn B U P'
  | parseUnwound {P P' t} : ReachableParserIn B U P → InMemory B t → Usize.parse B U P t = .panic →
      UnwoundParser P P' → ParserFits B P' → ReachableParserIn B U P'
  | parseNotExtendedUnwound {P P' t} : ReachableParserIn B U P → InMemory B t → Usize.parseNotExtended B U P t = .panic →
      UnwoundParser P P' → ParserFits B P' → ReachableParserIn B U P'

/-- `q` is what `parse` returns for the string `t`, on some parser, in the build `B`. -/
def ParsedIn (B : Build) (U : Unicode) (t : List Char) (q : FzfQuery) : Prop :=
  ∃ P P', ReachableParserIn B U P ∧ InMemory B t ∧ Usize.parse B U P t = .ok (P', q)

/-- `q` is what `parse_not_extended` returns for the string `t`, on some parser, in the build `B`. -/
def ParsedRawIn (B : Build) (U : Unicode) (t : List Char) (q : FzfQuery) : Prop :=
  ∃ P P', ReachableParserIn B U P ∧ InMemory B t ∧ Usize.parseNotExtended B U P t = .ok (P', q)

/-- `q` is a query some parser returned, in the build `B`. -/
def QueryIn (B : Build) (U : Unicode) (q : FzfQuery) : Prop := ∃ t, ParsedIn B U t q ∨ ParsedRawIn B U t q

/-- The metric `m` is what some sequence of API calls makes of a new metric of algorithm `a`, in the build `B`;
some of the calls may have panicked. -/
inductive ReachableIn (B : Build) (U : Unicode) (a : Algo) : Metric → Settings → Prop
  | new : ReachableIn B U a (Metric.new a) defaultSettings
  | setCandidateNormalization {m st} (n : Bool) : ReachableIn B U a m st →
      ReachableIn B U a (m.setCandidateNormalization n) { st with normalization := n }
  | setCaseSensitivity {m st} (cs : CaseSensitivity) : ReachableIn B U a m st →
      ReachableIn B U a (m.setCaseSensitivity cs) { st with caseSensitivity := cs }
  | setScoringScheme {m st} (S : FzfScheme) : ReachableIn B U a m st →
      ReachableIn B U a (m.setScoringScheme S) { st with scheme := S }
  | distance {m m' st q s d} : ReachableIn B U a m st → QueryIn B U q → InMemory B s →
      Usize.metricDistance B U q s m = .ok (m', d) → ReachableIn B U a m' st
  | distanceAndRanges {m m' st q s buf buf' d} : ReachableIn B U a m st → QueryIn B U q → InMemory B s →
      buf.length ≤ B.limit .range → Usize.metricDistanceAndRanges B U q s buf m = .ok (m', buf', d) →
      ReachableIn B U a m' st
  | distanceUnwound {m m' st q s} : ReachableIn B U a m st → QueryIn B U q → InMemory B s →
      Usize.metricDistance B U q s m = .panic → Unwound m m' → MetricFits B m' → ReachableIn B U a m' st
  | distanceAndRangesUnwound {m m' st q s buf} : ReachableIn B U a m st → QueryIn B U q → InMemory B s →
      buf.length ≤ B.limit .range → Usize.metricDistanceAndRanges B U q s buf m = .panic → Unwound m m' →
      MetricFits B m' → ReachableIn B U a m' st

end Norm.Spec
