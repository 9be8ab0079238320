import Verif.Model.Utils

/-!
# `src/candidate.rs`
-/

namespace Norm

/-- `/repo/src/candidate.rs:7-10` `Candidate`. -/
inductive Candidate where
  | ascii (bytes : List UInt8)
  | unicode (chars : List Char)
deriving Repr, DecidableEq

/-- Index of the last element satisfying `p`. Source: `/repo/src/candidate.rs:284-286,310-312`. -/
def findLastIdx? {α : Type u} (p : α → Bool) (l : List α) : Option Nat :=
  (l.reverse.findIdx? p).map (fun i => l.length - 1 - i)

/-- All indices of elements satisfying `p`, ascending, counted from `off`. Source: `/repo/src/candidate.rs:363-373,397-404`. -/
def allIdxFrom {α : Type u} (p : α → Bool) : List α → Nat → List Nat
  | [], _ => []
  | a :: l, off => if p a then off :: allIdxFrom p l (off + 1) else allIdxFrom p l (off + 1)

/-- The predicate "byte equals the needle, or its case-flipped form when searching case-insensitively for a
letter": the choice between `memchr` and `memchr2` in `/repo/src/candidate.rs:270-274,283-287,363-371`. -/
def asciiNeedle (needle : UInt8) (isCaseSensitive : Bool) : UInt8 → Bool :=
  if isCaseSensitive || !isAsciiAlphaByte needle then
    fun b => b == needle
  else
    fun b => b == needle || b == asciiLetterFlipCase needle

/-- `/repo/src/candidate.rs:265-275` `find_first_ascii` (`memchr`/`memchr2` by contract). -/
def findFirstAscii (needle : UInt8) (haystack : List UInt8) (isCaseSensitive : Bool) : Option Nat :=
  haystack.findIdx? (asciiNeedle needle isCaseSensitive)

/-- `/repo/src/candidate.rs:278-288` `find_last_ascii` (`memrchr`/`memrchr2` by contract). -/
def findLastAscii (needle : UInt8) (haystack : List UInt8) (isCaseSensitive : Bool) : Option Nat :=
  findLastIdx? (asciiNeedle needle isCaseSensitive) haystack

/-- `/repo/src/candidate.rs:291-300` `find_first_unicode`. -/
def findFirstUnicode (needle : Char) (haystack : List Char) (eq : CharEq) : Option Nat :=
  haystack.findIdx? (fun ch => eq needle ch)

/-- `/repo/src/candidate.rs:303-313` `find_last_unicode`. -/
def findLastUnicode (needle : Char) (haystack : List Char) (eq : CharEq) : Option Nat :=
  findLastIdx? (fun ch => eq needle ch) haystack

/-- `/repo/src/candidate.rs:408-413` `UnicodeMatches`. -/
structure UnicodeMatches where
  needle : Char
  haystack : List Char
  eq : CharEq
  offset : Nat

/-- `/repo/src/candidate.rs:424-438` `UnicodeMatches::next`. -/
def UnicodeMatches.next (it : UnicodeMatches) : Res (Option (Nat × UnicodeMatches)) :=
  match it.haystack.findIdx? (fun ch => it.eq it.needle ch) with
  | none => .ok none
  | some idx => do
    let haystack ← sliceFromR it.haystack (idx + 1)
    let offset := it.offset + idx
    return some (offset, { it with haystack := haystack, offset := offset + 1 })

/-- All items of a `UnicodeMatches` iterator (the iterator borrows only immutable data, so running
it eagerly is equivalent); `fuel` bounds the number of `next` calls.
Source: `/repo/src/metrics/fzf/fzf_v2.rs:443,510-511,653-654`. -/
def UnicodeMatches.collect : (fuel : Nat) → UnicodeMatches → Res (List Nat)
  | 0, _ => .panic
  | fuel + 1, it => do
    match ← it.next with
    | none => return []
    | some (i, it') => return i :: (← UnicodeMatches.collect fuel it')

namespace Candidate

/-- `/repo/src/candidate.rs:30-35` `Candidate::char`. -/
def char (c : Candidate) (idx : Nat) : Res Char :=
  match c with
  | ascii bs => do return byteToChar (← getR bs idx)
  | unicode cs => getR cs idx

/-- `/repo/src/candidate.rs:45-54` `Candidate::chars_from` (and the `Chars` iterator,
`/repo/src/candidate.rs:316-341`, as the list of its items). -/
def charsFrom (c : Candidate) (off : Nat) : Res (List Char) :=
  match c with
  | ascii bs => do return (← sliceFromR bs off).map byteToChar
  | unicode cs => sliceFromR cs off

/-- `/repo/src/candidate.rs:39-41` `Candidate::chars`. -/
def chars (c : Candidate) : Res (List Char) := c.charsFrom 0

/-- `/repo/src/candidate.rs:58-63` `Candidate::char_len`. -/
def charLen : Candidate → Nat
  | ascii bs => bs.length
  | unicode cs => cs.length

/-- `/repo/src/candidate.rs:67-93` `Candidate::find_first_from`. -/
def findFirstFrom (c : Candidate) (off : Nat) (ch : Char) (isCaseSensitive : Bool) (eq : CharEq) :
    Res (Option Nat) :=
  match c with
  | ascii bs =>
    if !isAscii ch then .ok none
    else do
      let slice ← sliceFromR bs off
      return (findFirstAscii (charToByte ch) slice isCaseSensitive).map (fun o => o + off)
  | unicode cs => do
    let slice ← sliceFromR cs off
    return (findFirstUnicode ch slice eq).map (fun o => o + off)

/-- `/repo/src/candidate.rs:97-114` `Candidate::find_last`. -/
def findLast (c : Candidate) (ch : Char) (isCaseSensitive : Bool) (eq : CharEq) : Option Nat :=
  match c with
  | ascii bs => if isAscii ch then findLastAscii (charToByte ch) bs isCaseSensitive else none
  | unicode cs => findLastUnicode ch cs eq

/-- `/repo/src/candidate.rs:119-141` `Candidate::find_last_from`. -/
def findLastFrom (c : Candidate) (endOff : Nat) (ch : Char) (isCaseSensitive : Bool) (eq : CharEq) :
    Res (Option Nat) :=
  match c with
  | ascii bs =>
    if isAscii ch then do
      let slice ← sliceToR bs endOff
      return findLastAscii (charToByte ch) slice isCaseSensitive
    else .ok none
  | unicode cs => do
    let slice ← sliceToR cs endOff
    return findLastUnicode ch slice eq

/-- `/repo/src/candidate.rs:145-155` `Candidate::leading_spaces`. -/
def leadingSpaces : Candidate → Nat
  | ascii bs => (bs.takeWhile (· == 32)).length
  | unicode cs => (cs.takeWhile (· == ' ')).length

/-- `/repo/src/candidate.rs:251-261` `Candidate::trailing_spaces`. -/
def trailingSpaces : Candidate → Nat
  | ascii bs => (bs.reverse.takeWhile (· == 32)).length
  | unicode cs => (cs.reverse.takeWhile (· == ' ')).length

/-- `/repo/src/candidate.rs:351-374` `CandidateMatches::from_ascii` and the items it yields
(`/repo/src/candidate.rs:394-406`); `memchr::Memchr`/`Memchr2` by contract. -/
def matchesAscii (needle : Char) (haystack : List UInt8) (isCaseSensitive : Bool) (startOffset : Nat) :
    Res (List Nat) :=
  if !isAscii needle then
    -- `Self::from_unicode(needle, &[], char_eq(false, false), 0)`
    UnicodeMatches.collect 1 ⟨needle, [], charEq false false, 0⟩
  else
    .ok ((allIdxFrom (asciiNeedle (charToByte needle) isCaseSensitive) haystack 0).map
      (fun o => startOffset + o))

/-- `/repo/src/candidate.rs:377-385` `CandidateMatches::from_unicode` and the items it yields. -/
def matchesUnicode (needle : Char) (haystack : List Char) (eq : CharEq) (startOffset : Nat) :
    Res (List Nat) := do
  let l ← UnicodeMatches.collect (haystack.length + 1) ⟨needle, haystack, eq, 0⟩
  return l.map (fun o => startOffset + o)

/-- `/repo/src/candidate.rs:159-174` `Candidate::matches`, as the list of items of the iterator. -/
def «matches» (c : Candidate) (ch : Char) (isCaseSensitive : Bool) (eq : CharEq) : Res (List Nat) :=
  match c with
  | ascii bs => matchesAscii ch bs isCaseSensitive 0
  | unicode cs => matchesUnicode ch cs eq 0

/-- `/repo/src/candidate.rs:178-201` `Candidate::matches_from`. -/
def matchesFrom (c : Candidate) (off : Nat) (ch : Char) (isCaseSensitive : Bool) (eq : CharEq) :
    Res (List Nat) :=
  match c with
  | ascii bs => do
    let slice ← sliceFromR bs off
    matchesAscii ch slice isCaseSensitive off
  | unicode cs => do
    let slice ← sliceFromR cs off
    matchesUnicode ch slice eq off

/-- `/repo/src/candidate.rs:205-213` `Candidate::slice`. -/
def slice (c : Candidate) (r : Range) : Res Candidate :=
  match c with
  | ascii bs => do return ascii (← sliceR bs r.start r.stop)
  | unicode cs => do return unicode (← sliceR cs r.start r.stop)

/-- `/repo/src/candidate.rs:217-224` `Candidate::to_byte_offset`. -/
def toByteOffset (c : Candidate) (off : Nat) : Res Nat :=
  match c with
  | ascii _ => .ok off
  | unicode cs => do
    let s ← sliceToR cs off
    return (s.map lenUtf8).sum

/-- `/repo/src/candidate.rs:228-247` `Candidate::to_byte_range`. `chars.by_ref().map(..).take(start)` consumes
`start` items of the iterator, the second sum consumes the rest. -/
def toByteRange (c : Candidate) (r : Range) : Res Range :=
  match c with
  | ascii _ => .ok r
  | unicode cs => do
    let s ← sliceToR cs r.stop
    let start := ((s.take r.start).map lenUtf8).sum
    let stop := start + ((s.drop r.start).map lenUtf8).sum
    return ⟨start, stop⟩

end Candidate

end Norm
