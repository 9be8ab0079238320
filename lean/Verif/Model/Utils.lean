import Verif.Model.Normalize

/-!
# `src/utils.rs`, `src/case_sensitivity.rs`
-/

namespace Norm

/-- `/repo/src/utils.rs:4` `CharEq`: first argument the query character, second the candidate's. -/
abbrev CharEq := Char → Char → Bool

/-- `/repo/src/utils.rs:7-14` `ascii_letter_flip_case` (with `ASCII_CASE_MASK`). The `debug_assert!` holds at
every call site: they are all guarded by `is_ascii_alphabetic`. -/
def asciiLetterFlipCase (b : UInt8) : UInt8 := b ^^^ 0x20

/-- `/repo/src/utils.rs:54-60` `normalize_candidate_char`. -/
def normalizeCandidateChar (queryChar candidateChar : Char) : Char :=
  if isNormalized queryChar then normalize candidateChar else candidateChar

/-- `/repo/src/utils.rs:17-19` `case_insensitive_eq`. -/
def caseInsensitiveEq (lhs rhs : Char) : Bool := eqIgnoreAsciiCase lhs rhs

/-- `/repo/src/utils.rs:22-24` `case_insensitive_normalized_eq`. -/
def caseInsensitiveNormalizedEq (lhs rhs : Char) : Bool :=
  eqIgnoreAsciiCase lhs (normalizeCandidateChar lhs rhs)

/-- `/repo/src/utils.rs:27-29` `case_sensitive_eq`. -/
def caseSensitiveEq (lhs rhs : Char) : Bool := lhs == rhs

/-- `/repo/src/utils.rs:32-34` `case_sensitive_normalized_eq`. -/
def caseSensitiveNormalizedEq (lhs rhs : Char) : Bool := lhs == normalizeCandidateChar lhs rhs

/-- `/repo/src/utils.rs:37-44` `char_eq`. -/
def charEq (isCaseSensitive normalizeCandidate : Bool) : CharEq :=
  match isCaseSensitive, normalizeCandidate with
  | false, false => caseInsensitiveEq
  | true, false => caseSensitiveEq
  | false, true => caseInsensitiveNormalizedEq
  | true, true => caseSensitiveNormalizedEq

/-- `/repo/src/utils.rs:48-50` `leading_spaces`. -/
def strLeadingSpaces (s : List Char) : Nat := ((strBytes s).takeWhile (· == 32)).length

/-- `/repo/src/utils.rs:64-66` `strip_leading_spaces`. -/
def stripLeadingSpaces (s : List Char) : Res (List Char) := strFromR s (strLeadingSpaces s)

/-- `/repo/src/case_sensitivity.rs:6-23` `CaseSensitivity`. -/
inductive CaseSensitivity where
  | sensitive
  | insensitive
  | smart
deriving Repr, DecidableEq

end Norm
