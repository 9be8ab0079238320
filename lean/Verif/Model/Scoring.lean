import Verif.Model.Utils

/-!
# `src/metrics/fzf/{mod,distance,scheme,scoring}.rs`
-/

namespace Norm

/-- `/repo/src/metrics/fzf/distance.rs:1` `Score = i64`, modelled as an unbounded integer (C42 bounds it). -/
abbrev Score := Int

namespace Penalty
/-- `/repo/src/metrics/fzf/mod.rs:88` `penalty::GAP_START` -/
def gapStart : Score := 3
/-- `/repo/src/metrics/fzf/mod.rs:91` `penalty::GAP_EXTENSION` -/
def gapExtension : Score := 1
end Penalty

namespace Bonus
/-- `/repo/src/metrics/fzf/mod.rs:63` `bonus::MATCH` -/
def «match» : Score := 16
/-- `/repo/src/metrics/fzf/mod.rs:66` `bonus::BOUNDARY = MATCH / 2` -/
def boundary : Score := Bonus.match / 2
/-- `/repo/src/metrics/fzf/mod.rs:69` `bonus::NON_WORD = MATCH / 2` -/
def nonWord : Score := Bonus.match / 2
/-- `/repo/src/metrics/fzf/mod.rs:72` `bonus::CAMEL_123 = BOUNDARY - GAP_EXTENSION` -/
def camel123 : Score := Bonus.boundary - Penalty.gapExtension
/-- `/repo/src/metrics/fzf/mod.rs:75` `bonus::CONSECUTIVE = GAP_START + GAP_EXTENSION` -/
def consecutive : Score := Penalty.gapStart + Penalty.gapExtension
/-- `/repo/src/metrics/fzf/mod.rs:78` `bonus::FIRST_QUERY_CHAR_MULTIPLIER` -/
def firstQueryCharMultiplier : Score := 2
end Bonus

/-- `/repo/src/metrics/fzf/distance.rs:7-8` `FzfDistance`. -/
structure FzfDistance where
  score : Score
deriving Repr, DecidableEq

/-- `/repo/src/metrics/fzf/distance.rs:35-37` `FzfDistance::from_score`. -/
def FzfDistance.fromScore (s : Score) : FzfDistance := ⟨s⟩

/-- `/repo/src/metrics/fzf/distance.rs:17-23` `Ord for FzfDistance`: the arguments of the score comparison
are swapped (`other.0.cmp(&self.0)`). -/
def FzfDistance.cmp (self other : FzfDistance) : Ordering := compare other.score self.score

/-- `/repo/src/metrics/fzf/distance.rs:10-15` `PartialOrd for FzfDistance`. -/
def FzfDistance.partialCmp (self other : FzfDistance) : Option Ordering := some (self.cmp other)

/-- `/repo/src/metrics/fzf/distance.rs:25-30` `Default for FzfDistance`. -/
def FzfDistance.default : FzfDistance := FzfDistance.fromScore 0

/-- `/repo/src/metrics/fzf/scoring.rs:5-26` `CharClass`. -/
inductive CharClass where
  | whiteSpace | nonWord | delimiter | lower | upper | letter | number
deriving Repr, DecidableEq

/-- `/repo/src/metrics/fzf/scheme.rs:55-60` `Scheme`. The function `is_delimiter` depends on the platform. -/
structure Scheme where
  bonusBoundaryWhite : Score
  bonusBoundaryDelimiter : Score
  initialCharClass : CharClass
  isDelimiter : Unicode → Char → Bool

/-- `/repo/src/metrics/fzf/scheme.rs:78-80` `is_delimiter_default`. -/
def isDelimiterDefault (_ : Unicode) (ch : Char) : Bool :=
  ch == '/' || ch == ',' || ch == ':' || ch == ';' || ch == '|'

/-- `/repo/src/metrics/fzf/scheme.rs:91-100` `is_delimiter_path`. -/
def isDelimiterPath (U : Unicode) (ch : Char) : Bool :=
  let osPathSeparator := if U.windows then '\\' else '/'
  ch == '/' || ch == osPathSeparator

/-- `/repo/src/metrics/fzf/scheme.rs:70-75` `DEFAULT`. -/
def schemeDefault : Scheme where
  bonusBoundaryWhite := Bonus.boundary + 2
  bonusBoundaryDelimiter := Bonus.boundary + 1
  initialCharClass := .whiteSpace
  isDelimiter := isDelimiterDefault

/-- `/repo/src/metrics/fzf/scheme.rs:83-88` `PATH`. -/
def schemePath : Scheme where
  bonusBoundaryWhite := Bonus.boundary
  bonusBoundaryDelimiter := Bonus.boundary + 1
  initialCharClass := .delimiter
  isDelimiter := isDelimiterPath

/-- `/repo/src/metrics/fzf/scheme.rs:103-108` `HISTORY`. -/
def schemeHistory : Scheme where
  bonusBoundaryWhite := Bonus.boundary
  bonusBoundaryDelimiter := Bonus.boundary
  initialCharClass := schemeDefault.initialCharClass
  isDelimiter := schemeDefault.isDelimiter

/-- `/repo/src/metrics/fzf/scheme.rs:9-22` `FzfScheme`. -/
inductive FzfScheme where
  | default | path | history
deriving Repr, DecidableEq

/-- `/repo/src/metrics/fzf/scheme.rs:27-33` `FzfScheme::into_inner`. -/
def FzfScheme.intoInner : FzfScheme → Scheme
  | .default => schemeDefault
  | .path => schemePath
  | .history => schemeHistory

/-- `/repo/src/metrics/fzf/scheme.rs:37-49` `FzfScheme::from_inner`. -/
def FzfScheme.fromInner (s : Scheme) : Option FzfScheme :=
  if s.bonusBoundaryWhite == schemeDefault.bonusBoundaryWhite then some .default
  else if s.bonusBoundaryWhite == schemePath.bonusBoundaryWhite then
    if s.initialCharClass == .delimiter then some .path else some .history
  else none

/-- `/repo/src/metrics/fzf/scoring.rs:40-54` `ascii_char_class`. -/
def asciiCharClass (U : Unicode) (ch : Char) (scheme : Scheme) : CharClass :=
  if isAsciiLower ch then .lower
  else if isAsciiUpper ch then .upper
  else if isAsciiDigit ch then .number
  else if isAsciiWhitespace ch then .whiteSpace
  else if scheme.isDelimiter U ch then .delimiter
  else .nonWord

/-- `/repo/src/metrics/fzf/scoring.rs:58-74` `non_ascii_char_class`. -/
def nonAsciiCharClass (U : Unicode) (ch : Char) (scheme : Scheme) : CharClass :=
  if U.isLowercase ch then .lower
  else if U.isUppercase ch then .upper
  else if U.isNumeric ch then .number
  else if U.isAlphabetic ch then .letter
  else if U.isWhitespace ch then .whiteSpace
  else if scheme.isDelimiter U ch then .delimiter
  else .nonWord

/-- `/repo/src/metrics/fzf/scoring.rs:30-36` `char_class`. -/
def charClass (U : Unicode) (ch : Char) (scheme : Scheme) : CharClass :=
  if isAscii ch then asciiCharClass U ch scheme else nonAsciiCharClass U ch scheme

/-- The fall-through arm of `compute_bonus`, `/repo/src/metrics/fzf/scoring.rs:94-104`. -/
def boundaryBonus (prev : CharClass) (scheme : Scheme) : Score :=
  if prev == .whiteSpace then scheme.bonusBoundaryWhite
  else if prev == .delimiter then scheme.bonusBoundaryDelimiter
  else if prev == .nonWord then Bonus.boundary
  else 0

/-- `/repo/src/metrics/fzf/scoring.rs:78-106` `compute_bonus`. -/
def computeBonus (prev next : CharClass) (scheme : Scheme) : Score :=
  match next with
  | .nonWord => Bonus.nonWord
  | .whiteSpace => scheme.bonusBoundaryWhite
  | .upper => if prev == .lower then Bonus.camel123 else boundaryBonus prev scheme
  | .number => if prev != .number then Bonus.camel123 else boundaryBonus prev scheme
  | _ => boundaryBonus prev scheme

end Norm
