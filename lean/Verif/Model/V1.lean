import Verif.Model.Fzf

/-!
# `src/metrics/fzf/fzf_v1.rs`
-/

namespace Norm

/-- `/repo/src/metrics/fzf/fzf_v1.rs:58-70` `FzfV1`. -/
structure FzfV1 where
  candidateSlab : List Char
  caseSensitivity : CaseSensitivity
  candidateNormalization : Bool
  scoringScheme : Scheme

/-- `match self.case_sensitivity { .. }`: `/repo/src/metrics/fzf/fzf_v1.rs:235-239,256-260`,
`/repo/src/metrics/fzf/fzf_v2.rs:246-250,267-271`. -/
def isSensitive (cs : CaseSensitivity) (pattern : Pattern) : Bool :=
  match cs with
  | .sensitive => true
  | .insensitive => false
  | .smart => pattern.hasUppercase

/-- The loop of `forward_pass`, `/repo/src/metrics/fzf/fzf_v1.rs:296-309`. -/
def forwardLoop (candidate : Candidate) (opts : CandidateOpts) :
    (patternChars : List Char) → (patternChar : Char) → (endOffset : Nat) → Res (Option Nat)
  | rest, patternChar, endOffset => do
    match ← candidate.findFirstFrom endOffset patternChar opts.isCaseSensitive opts.charEq with
    | none => return none
    | some off =>
      match rest with
      | next :: rest => forwardLoop candidate opts rest next (off + 1)
      | [] => return some (off + 1)

/-- `/repo/src/metrics/fzf/fzf_v1.rs:285-310` `forward_pass`. -/
def forwardPass (pattern : Pattern) (candidate : Candidate) (opts : CandidateOpts) :
    Res (Option Nat) :=
  match pattern.text with
  | [] => .ok none
  | patternChar :: rest => forwardLoop candidate opts rest patternChar 0

/-- The loop of `backward_pass`, `/repo/src/metrics/fzf/fzf_v1.rs:326-341`. -/
def backwardLoop (candidate : Candidate) (opts : CandidateOpts) :
    (patternChars : List Char) → (patternChar : Char) → (startOffset : Nat) → Res Nat
  | rest, patternChar, startOffset => do
    let off ← Res.unwrap
      (← candidate.findLastFrom startOffset patternChar opts.isCaseSensitive opts.charEq)
    match rest with
    | next :: rest => backwardLoop candidate opts rest next off
    | [] => return off

/-- `/repo/src/metrics/fzf/fzf_v1.rs:314-342` `backward_pass`. -/
def backwardPass (pattern : Pattern) (candidate : Candidate) (endOffset : Nat)
    (opts : CandidateOpts) : Res Nat :=
  match pattern.text.reverse with
  | [] => .panic
  | patternChar :: rest => backwardLoop candidate opts rest patternChar endOffset

namespace FzfV1

/-- `/repo/src/metrics/fzf/fzf_v1.rs:57,95-97` `FzfV1::new` (derived `Default`; slab
`/repo/src/metrics/fzf/slab.rs:84-89`, `CaseSensitivity::default` is `Smart`, `Scheme::default` is `DEFAULT`). -/
def new : FzfV1 where
  candidateSlab := List.replicate 128 (Char.ofNat 0)
  caseSensitivity := .smart
  candidateNormalization := false
  scoringScheme := schemeDefault

/-- `/repo/src/metrics/fzf/fzf_v1.rs:130-136` `set_candidate_normalization`. -/
def setCandidateNormalization (self : FzfV1) (normalization : Bool) : FzfV1 :=
  { self with candidateNormalization := normalization }

/-- `/repo/src/metrics/fzf/fzf_v1.rs:158-164` `set_case_sensitivity`. -/
def setCaseSensitivity (self : FzfV1) (caseSensitivity : CaseSensitivity) : FzfV1 :=
  { self with caseSensitivity := caseSensitivity }

/-- `/repo/src/metrics/fzf/fzf_v1.rs:195-198` `set_scoring_scheme`. -/
def setScoringScheme (self : FzfV1) (scheme : FzfScheme) : FzfV1 :=
  { self with scoringScheme := scheme.intoInner }

/-- `/repo/src/metrics/fzf/fzf_v1.rs:229-231` `alloc_chars`. -/
def allocChars (self : FzfV1) (s : List Char) : Res (FzfV1 × List Char) := do
  let (slab, chars) ← candidateAlloc self.candidateSlab s
  return ({ self with candidateSlab := slab }, chars)

/-- `/repo/src/metrics/fzf/fzf_v1.rs:234-242` `char_eq`. -/
def charEq (self : FzfV1) (pattern : Pattern) : CharEq :=
  Norm.charEq (isSensitive self.caseSensitivity pattern) self.candidateNormalization

/-- `/repo/src/metrics/fzf/fzf_v1.rs:250-280` `fuzzy`. -/
def fuzzy (U : Unicode) (RANGES : Bool) (self : FzfV1) (pattern : Pattern) (candidate : Candidate)
    (ranges : MatchedRanges) : Res (FzfV1 × MatchedRanges × Option Score) := do
  let opts := CandidateOpts.new (isSensitive self.caseSensitivity pattern) self.candidateNormalization
  match ← forwardPass pattern candidate opts with
  | none => return (self, ranges, none)
  | some endForward =>
    let startBackward ← backwardPass pattern candidate endForward opts
    let (ranges, score) ← computeScore U RANGES pattern candidate ⟨startBackward, endForward⟩
      opts.charEq self.scoringScheme ranges
    return (self, ranges, some score)

/-- `/repo/src/metrics/fzf/fzf_v1.rs:227-281` `impl Fzf for FzfV1`. -/
def impl (U : Unicode) : FzfImpl FzfV1 where
  allocChars := allocChars
  charEq := charEq
  scheme := fun self => self.scoringScheme
  fuzzy := fuzzy U

/-- `/repo/src/metrics/fzf/fzf_v1.rs:207-214` `Metric::distance`. -/
def distance (U : Unicode) (self : FzfV1) (query : FzfQuery) (candidate : List Char) :
    Res (FzfV1 × Option FzfDistance) := do
  let (self, _, d) ← (impl U).distance U false self query candidate []
  return (self, d)

/-- `/repo/src/metrics/fzf/fzf_v1.rs:217-224` `Metric::distance_and_ranges`. -/
def distanceAndRanges (U : Unicode) (self : FzfV1) (query : FzfQuery) (candidate : List Char)
    (ranges : List Range) : Res (FzfV1 × List Range × Option FzfDistance) :=
  (impl U).distance U true self query candidate ranges

end FzfV1

end Norm
