import Verif.Model.Res

/-!
# `&str` and `char`

A `&str` is modelled as the list of its Unicode scalar values (`List Char`); byte-level operations go
through its UTF-8 encoding (`strBytes`, using Lean core's `String.utf8EncodeChar`).
These definitions model Rust's `core::str` and `core::char`, not a file of `/repo`.
-/

namespace Norm

/-- `char::is_ascii`. Source: `/repo/src/metrics/fzf/scoring.rs:31`, `/repo/src/candidate.rs:76,105,128,357`. -/
def isAscii (c : Char) : Bool := c.toNat < 128
/-- `char::is_ascii_lowercase`. Source: `/repo/src/metrics/fzf/scoring.rs:41`. -/
def isAsciiLower (c : Char) : Bool := 97 ≤ c.toNat && c.toNat ≤ 122
/-- `char::is_ascii_uppercase`. Source: `/repo/src/metrics/fzf/scoring.rs:43`. -/
def isAsciiUpper (c : Char) : Bool := 65 ≤ c.toNat && c.toNat ≤ 90
/-- `char::is_ascii_digit`. Source: `/repo/src/metrics/fzf/scoring.rs:45`. -/
def isAsciiDigit (c : Char) : Bool := 48 ≤ c.toNat && c.toNat ≤ 57
/-- `char::is_ascii_whitespace`: space, tab, line feed, form feed, carriage return.
Source: `/repo/src/metrics/fzf/scoring.rs:47`. -/
def isAsciiWhitespace (c : Char) : Bool :=
  c.toNat == 32 || c.toNat == 9 || c.toNat == 10 || c.toNat == 12 || c.toNat == 13
/-- `u8::is_ascii_alphabetic`. Source: `/repo/src/candidate.rs:270,283,363`, `/repo/src/utils.rs:12`. -/
def isAsciiAlphaByte (b : UInt8) : Bool :=
  (65 ≤ b.toNat && b.toNat ≤ 90) || (97 ≤ b.toNat && b.toNat ≤ 122)

/-- `char::to_ascii_lowercase`. Source: `/repo/src/utils.rs:18,23`. -/
def toAsciiLowercase (c : Char) : Char :=
  if isAsciiUpper c then Char.ofNat (c.toNat + 32) else c

/-- `char::eq_ignore_ascii_case`: "equivalent to `to_ascii_lowercase(a) == to_ascii_lowercase(b)`".
Source: `/repo/src/utils.rs:18,23`. -/
def eqIgnoreAsciiCase (a b : Char) : Bool := toAsciiLowercase a == toAsciiLowercase b

/-- `char::len_utf8`.
Source: `/repo/src/metrics/fzf/fzf.rs:549,581`, `/repo/src/metrics/fzf/fzf_v2.rs:622,680`, `/repo/src/candidate.rs:221,237,242`. -/
def lenUtf8 (c : Char) : Nat := c.utf8Size

/-- `ch as u8` (truncating cast). Source: `/repo/src/candidate.rs:361`. -/
def charToByte (c : Char) : UInt8 := UInt8.ofNat c.toNat

/-- `byte as char`. Source: `/repo/src/candidate.rs:32,325-341`. -/
def byteToChar (b : UInt8) : Char := Char.ofNat b.toNat

/-- `str::as_bytes`. Source: `/repo/src/metrics/fzf/fzf.rs:151`, `/repo/src/metrics/fzf/parser.rs:355,358`. -/
def strBytes (s : List Char) : List UInt8 := s.flatMap String.utf8EncodeChar

/-- `str::len` (in bytes). Source: `/repo/src/metrics/fzf/slab.rs:94`, `/repo/src/metrics/fzf/parser.rs:88`. -/
def strLen (s : List Char) : Nat := (strBytes s).length

/-- `str::is_ascii`. Source: `/repo/src/metrics/fzf/fzf.rs:150`. -/
def strIsAscii (s : List Char) : Bool := (strBytes s).all (fun b => b < 128)

/-- Splits off the first `n` bytes of a string; panics unless `n` is a character boundary
(including the end of the string).  Basis of `&s[..n]` and `&s[n..]`.
Source: `/repo/src/metrics/fzf/parser.rs:360,367,373,387`, `/repo/src/utils.rs:65`. -/
def strSplitR : List Char → Nat → Res (List Char × List Char)
  | s, 0 => .ok ([], s)
  | [], _ + 1 => .panic
  | c :: s, n + 1 =>
    if c.utf8Size ≤ n + 1 then
      match strSplitR s (n + 1 - c.utf8Size) with
      | .ok (a, b) => .ok (c :: a, b)
      | .panic => .panic
    else .panic

/-- `&s[..n]`. Source: `/repo/src/metrics/fzf/parser.rs:360,373`. -/
def strToR (s : List Char) (n : Nat) : Res (List Char) := (strSplitR s n).mapR (·.1)
/-- `&s[n..]`. Source: `/repo/src/metrics/fzf/parser.rs:367,387`, `/repo/src/utils.rs:65`. -/
def strFromR (s : List Char) (n : Nat) : Res (List Char) := (strSplitR s n).mapR (·.2)

/-- `memchr::memchr(needle, haystack)`: index of the first occurrence (external crate, modelled by
its contract). Source: `/repo/src/metrics/fzf/parser.rs:355`. -/
def memchr (needle : UInt8) (haystack : List UInt8) : Option Nat :=
  haystack.findIdx? (· == needle)

/-- What the code takes from its environment: the Unicode character classification of Rust's standard library for
arbitrary characters, and the target platform. The model is parametric in it: theorems quantify over all `Unicode`.
Source: `/repo/src/metrics/fzf/scoring.rs:58-74`, `/repo/src/metrics/fzf/query.rs:211,257`, `/repo/src/metrics/fzf/scheme.rs:94`. -/
structure Unicode where
  /-- `char::is_uppercase` -/
  isUppercase : Char → Bool
  /-- `char::is_lowercase` -/
  isLowercase : Char → Bool
  /-- `char::is_numeric` -/
  isNumeric : Char → Bool
  /-- `char::is_alphabetic` -/
  isAlphabetic : Char → Bool
  /-- `char::is_whitespace` -/
  isWhitespace : Char → Bool
  /-- `cfg(windows)` -/
  windows : Bool

end Norm
