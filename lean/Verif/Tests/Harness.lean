import Verif.Model.Parser
import Verif.Model.V2

/-! Harness for replaying the repository's tests on the model. -/

namespace Norm.Tests

/-- A concrete Unicode classification for the tests: ASCII letters and digits, everything else
unclassified. The replayed tests contain no non-ASCII upper-case letters in queries. -/
def U : Unicode where
  isUppercase c := isAsciiUpper c
  isLowercase c := isAsciiLower c
  isNumeric c := isAsciiDigit c
  isAlphabetic c := isAsciiUpper c || isAsciiLower c
  isWhitespace c := isAsciiWhitespace c
  windows := false

/-- Parse with a fresh parser. -/
def parse (s : String) : Res FzfQuery := (FzfParser.new.parse U s.toList).mapR (·.2)

/-- `FzfV1::new().set_case_sensitivity(cs).set_candidate_normalization(norm).distance_and_ranges(..)`:
appended ranges and score. -/
def run_v1 (cs : CaseSensitivity) (norm : Bool) (q c : String) :
    Res (List (Nat × Nat) × Option Int) := do
  let q ← parse q
  let m := (FzfV1.new.setCaseSensitivity cs).setCandidateNormalization norm
  let (_, r, d) ← m.distanceAndRanges U q c.toList []
  return (r.map (fun r => (r.start, r.stop)), d.map (·.score))

@[inherit_doc run_v1]
def run_v2 (cs : CaseSensitivity) (norm : Bool) (q c : String) :
    Res (List (Nat × Nat) × Option Int) := do
  let q ← parse q
  let m := (FzfV2.new.setCaseSensitivity cs).setCandidateNormalization norm
  let (_, r, d) ← m.distanceAndRanges U q c.toList []
  return (r.map (fun r => (r.start, r.stop)), d.map (·.score))

/-- Inserting a sequence of ranges into an empty buffer. -/
def inserts : List (Nat × Nat) → Res (List (Nat × Nat)) := fun l =>
  (l.foldlM (fun (m : MatchedRanges) r => m.insert ⟨r.1, r.2⟩) (MatchedRanges.ofVec [])).mapR
    (fun m => m.ranges.map (fun r => (r.start, r.stop)))

/-- `Pattern::parse` summarised: text, kind, inverse. -/
def pat (s : String) : Res (Option (String × MatchType × Bool)) :=
  (Pattern.parse U s.toList).mapR (·.map (fun p => (String.ofList p.text, p.matchType, p.isInverse)))

/-- The conditions of a parsed query as lists of pattern texts. -/
def blocks (s : String) : Res (List (List String)) :=
  (parse s).mapR fun
    | .extended cs => cs.map (·.map (fun p => String.ofList p.text))
    | .notExtended p => [[String.ofList p.text]]

/-- All the words of a string. -/
def words (s : String) : Res (List String) := (wordsOf s.toList).mapR (·.map String.ofList)

end Norm.Tests
