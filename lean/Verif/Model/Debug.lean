import Verif.Model.Metric

/-!
# The `Debug` implementations

`{:?}` and `{:#?}` (`alternate`). What `core::fmt` does for strings, integers, `debug_struct` and `debug_tuple` is
modelled after its documentation; the method call `x.fmt(f)` inside an `impl Debug` resolves to `Debug::fmt`, so
that strings are written with quotes and escapes. -/

namespace Norm

/-! ### `core::fmt` -/

/-- How a value is formatted: `alternate` is the flag `#`; `escaped` are the characters that `char::escape_debug` writes as
`\u{…}`, for being unprintable or extending a grapheme.
Source: `/repo/src/matched_ranges.rs:19`, `/repo/src/metrics/fzf/query.rs:23,87,158`. -/
structure Format where
  alternate : Bool
  escaped : Char → Bool

/-- `char::escape_debug` as used for the characters of strings: double quotes are escaped, single quotes are not.
Source: `/repo/src/metrics/fzf/query.rs:159`, `/repo/src/candidate.rs:17,21`. -/
def escapeDebug (escaped : Char → Bool) (c : Char) : List Char :=
  if c = Char.ofNat 0 then ['\\', '0']
  else if c = '\t' then ['\\', 't']
  else if c = '\r' then ['\\', 'r']
  else if c = '\n' then ['\\', 'n']
  else if c = '\\' then ['\\', '\\']
  else if c = '"' then ['\\', '"']
  else if escaped c then '\\' :: 'u' :: '{' :: (Nat.toDigits 16 c.toNat ++ ['}'])
  else [c]

/-- `Debug for str`. Source: `/repo/src/metrics/fzf/query.rs:159`, `/repo/src/candidate.rs:17,21`. -/
def debugStr (f : Format) (s : List Char) : List Char := '"' :: (s.flatMap (escapeDebug f.escaped) ++ ['"'])

/-- `Display for usize`. Source: `/repo/src/metrics/fzf/slab.rs:281`. -/
def displayNat (n : Nat) : List Char := Nat.toDigits 10 n

/-- `Display for i64`, and `Debug` without flags for hexadecimal digits.
Source: `/repo/src/metrics/fzf/slab.rs:281`, `/repo/src/metrics/fzf/distance.rs:7`. -/
def displayInt : Int → List Char
  | .ofNat n => displayNat n
  | .negSucc n => '-' :: displayNat (n + 1)

/-- `Debug for bool`. Source: `/repo/src/metrics/fzf/fzf_v1.rs:81`, `/repo/src/metrics/fzf/fzf_v2.rs:91`. -/
def debugBool (b : Bool) : List Char := if b then "true".toList else "false".toList

/-- `f.debug_tuple(name).field(value).finish()`; the value is given by what it writes, without line breaks.
Source: `/repo/src/metrics/fzf/distance.rs:7`. -/
def debugTuple1 (f : Format) (name value : List Char) : List Char :=
  if f.alternate then name ++ "(\n    ".toList ++ value ++ ",\n)".toList
  else name ++ "(".toList ++ value ++ ")".toList

/-- `f.debug_struct(name).field(name₁, value₁)….finish_non_exhaustive()`.
Source: `/repo/src/metrics/fzf/fzf_v1.rs:80-84`, `/repo/src/metrics/fzf/fzf_v2.rs:90-94`, `/repo/src/metrics/fzf/parser.rs:39`. -/
def debugStruct (f : Format) (name : List Char) (fields : List (List Char × List Char)) : List Char :=
  if fields.isEmpty then name ++ " { .. }".toList
  else if f.alternate then
    name ++ " {\n".toList ++ fields.flatMap (fun x => "    ".toList ++ x.1 ++ ": ".toList ++ x.2 ++ ",\n".toList) ++
      "    ..\n}".toList
  else name ++ " { ".toList ++ fields.flatMap (fun x => x.1 ++ ": ".toList ++ x.2 ++ ", ".toList) ++ ".. }".toList

/-! ### The public types -/

/-- `/repo/src/case_sensitivity.rs:5` derived `Debug`. -/
def CaseSensitivity.debug : CaseSensitivity → List Char
  | .sensitive => "Sensitive".toList
  | .insensitive => "Insensitive".toList
  | .smart => "Smart".toList

/-- `/repo/src/metrics/fzf/scheme.rs:8` derived `Debug` of `FzfScheme`. -/
def FzfScheme.debug : FzfScheme → List Char
  | .default => "Default".toList
  | .path => "Path".toList
  | .history => "History".toList

/-- `/repo/src/metrics/fzf/distance.rs:7` derived `Debug`. -/
def FzfDistance.debug (f : Format) (d : FzfDistance) : List Char :=
  debugTuple1 f "FzfDistance".toList (displayInt d.score)

/-- `/repo/src/metrics/fzf/fzf_v1.rs:72-86` `Debug for FzfV1`. -/
def FzfV1.debug (f : Format) (m : FzfV1) : List Char :=
  match FzfScheme.fromInner m.scoringScheme with
  | none => []
  | some scoringScheme =>
    debugStruct f "FzfV1".toList [
      ("candidate_normalization".toList, debugBool m.candidateNormalization),
      ("case_sensitivity".toList, m.caseSensitivity.debug),
      ("scoring_scheme".toList, scoringScheme.debug)]

/-- `/repo/src/metrics/fzf/fzf_v2.rs:82-96` `Debug for FzfV2`. -/
def FzfV2.debug (f : Format) (m : FzfV2) : List Char :=
  match FzfScheme.fromInner m.scoringScheme with
  | none => []
  | some scoringScheme =>
    debugStruct f "FzfV2".toList [
      ("candidate_normalization".toList, debugBool m.candidateNormalization),
      ("case_sensitivity".toList, m.caseSensitivity.debug),
      ("scoring_scheme".toList, scoringScheme.debug)]

/-- `Debug` of either metric. Source: `/repo/src/metrics/fzf/fzf_v1.rs:72-86`, `/repo/src/metrics/fzf/fzf_v2.rs:82-96`. -/
def Metric.debug (f : Format) : Metric → List Char
  | .v1 m => m.debug f
  | .v2 m => m.debug f

/-- `/repo/src/metrics/fzf/parser.rs:36-41` `Debug for FzfParser`. -/
def FzfParser.debug (f : Format) (_P : FzfParser) : List Char := debugStruct f "FzfParser".toList []

/-- `/repo/src/metrics/fzf/query.rs:190-192` `Pattern::into_string`. -/
def Pattern.intoString (p : Pattern) : List Char := p.text

/-- `/repo/src/metrics/fzf/query.rs:156-161` `Debug for Pattern`. -/
def Pattern.debug (f : Format) (p : Pattern) : List Char := debugStr f p.intoString

/-- The loop of `Debug for Condition`, `/repo/src/metrics/fzf/query.rs:98-106`, from the index `idx` on. -/
def Condition.debugLoop (f : Format) (len : Nat) : List Pattern → (idx : Nat) → List Char
  | [], _ => []
  | p :: ps, idx =>
    debugStr f p.intoString ++ (if idx + 1 = len then [] else " || ".toList) ++ debugLoop f len ps (idx + 1)

/-- `/repo/src/metrics/fzf/query.rs:86-112` `Debug for Condition`. -/
def Condition.debug (f : Format) (c : Condition) : List Char :=
  match c with
  | [] => []
  | [p] => debugStr f p.intoString
  | _ => '(' :: (Condition.debugLoop f c.length c 0 ++ [')'])

/-- `/repo/src/metrics/fzf/query.rs:22-36` `Debug for FzfQuery`; the conditions are formatted with `{:?}` whatever the flags. -/
def FzfQuery.debug (f : Format) (q : FzfQuery) : List Char :=
  let s := match q with
    | .extended conditions =>
      " && ".toList.intercalate (conditions.map (Condition.debug { f with alternate := false }))
    | .notExtended pattern => pattern.intoString
  debugTuple1 f "FzfQuery".toList (debugStr f s)

/-! ### Types private to the crate -/

/-- `/repo/src/candidate.rs:12-25` `Debug for Candidate`. `core::str::from_utf8(slice).unwrap()` is simplified: it is
taken to panic unless all bytes are ASCII. -/
def Candidate.debug (f : Format) : Candidate → Res (List Char)
  | .ascii bytes => if bytes.all (fun b => b < 128) then .ok (debugStr f (bytes.map byteToChar)) else .panic
  | .unicode chars => .ok (debugStr f chars)

/-- `Debug for Range<usize>`. Source: `/repo/src/matched_ranges.rs:31,40`. -/
def Range.debug (r : Range) : List Char := displayNat r.start ++ "..".toList ++ displayNat r.stop

/-- `Debug` of a slice of ranges, with `{:?}`. Source: `/repo/src/matched_ranges.rs:18-50`. -/
def debugRanges (l : List Range) : List Char :=
  '[' :: (", ".toList.intercalate (l.map Range.debug) ++ [']'])

/-- The loops of `Debug for MatchedRanges`, `/repo/src/matched_ranges.rs:30-35,39-44`, from the index `idx` on. The loop variable has
the name of the slice, so that `len()` is the length of the range and not that of the slice. -/
def debugRangesLoop : List Range → (idx : Nat) → List Char
  | [], _ => []
  | r :: l, idx =>
    r.debug ++ (if idx + 1 < r.len then ", ".toList else []) ++ debugRangesLoop l (idx + 1)

/-- `/repo/src/matched_ranges.rs:18-50` `Debug for MatchedRanges`, with `{:?}`. -/
def MatchedRanges.debug (m : MatchedRanges) : Res (List Char) := do
  let initial ← sliceToR m.ranges m.initialLen
  let this ← sliceFromR m.ranges m.initialLen
  if this.isEmpty then
    return debugRanges initial
  else
    return '[' :: (debugRangesLoop initial 0 ++ " | ".toList ++ debugRangesLoop this 0 ++ [']'])

/-- `ilog10` of a positive number: one less than the number of its decimal digits.
Source: `/repo/src/metrics/fzf/slab.rs:152,167`. -/
def ilog10 (n : Nat) : Nat := if h : n < 10 then 0 else ilog10 (n / 10) + 1
decreasing_by omega

/-- `/repo/src/metrics/fzf/slab.rs:134-140` the trait `MatrixItem`, with the `Ord` and `Display` it includes. -/
structure MatrixItem (α : Type) where
  le : α → α → Bool
  display : α → List Char
  printedWidth : α → Res Nat

/-- `/repo/src/metrics/fzf/slab.rs:142-155` `MatrixItem for Score`; `ilog10` panics for negative numbers. -/
def MatrixItem.score : MatrixItem Score where
  le a b := decide (a ≤ b)
  display := displayInt
  printedWidth s := if s = 0 then .ok 1 else if s < 0 then .panic else .ok (ilog10 s.toNat + 1)

/-- `/repo/src/metrics/fzf/slab.rs:157-170` `MatrixItem for usize`. -/
def MatrixItem.usize : MatrixItem Nat where
  le a b := decide (a ≤ b)
  display := displayNat
  printedWidth s := if s = 0 then .ok 1 else .ok (ilog10 s + 1)

/-- `Iterator::max().unwrap()`. Source: `/repo/src/metrics/fzf/slab.rs:236,246-250`. -/
def maxR {α : Type} (I : MatrixItem α) : List α → Res α
  | [] => .panic
  | a :: l => .ok (l.foldl (fun a b => if I.le a b then b else a) a)

/-- Run the body of a `for` loop that only writes, for every element.
Source: `/repo/src/metrics/fzf/slab.rs:275,278`, `/repo/src/matched_ranges.rs:30,39`. -/
def writeEach {α : Type} (body : α → Res (List Char)) : List α → Res (List Char)
  | [] => .ok []
  | a :: l => do
    let x ← body a
    let y ← writeEach body l
    return x ++ y

/-- Read every cell. Source: `/repo/src/metrics/fzf/slab.rs:246-248`. -/
def readEach {α : Type} (m : Matrix α) : List Nat → Res (List α)
  | [] => .ok []
  | c :: l => do
    let x ← m.get c
    let y ← readEach m l
    return x :: y

/-- `/repo/src/metrics/fzf/slab.rs:430-448` the items of `Cols`. -/
def colsItems : (next remaining : Nat) → List Nat
  | _, 0 => []
  | next, remaining + 1 => next :: colsItems (next + 1) remaining

/-- `/repo/src/metrics/fzf/slab.rs:450-470` the items of `Rows`. -/
def rowsItems (matrixWidth : Nat) : (next remaining : Nat) → List Nat
  | _, 0 => []
  | next, remaining + 1 => next :: rowsItems matrixWidth (next + matrixWidth) remaining

namespace Matrix
variable {α : Type}

/-- `/repo/src/metrics/fzf/slab.rs:324-329` `cols`. -/
def cols (m : Matrix α) (cell : Nat) : Res (List Nat) := do
  let remaining ← subR m.width (← m.colOf cell)
  return colsItems cell remaining

/-- `/repo/src/metrics/fzf/slab.rs:364-370` `rows`. -/
def rows (m : Matrix α) (cell : Nat) : Res (List Nat) := do
  let remaining ← subR m.height (← m.rowOf cell)
  return rowsItems m.width cell remaining

/-- The body of the inner loop of `Debug for Matrix`, `/repo/src/metrics/fzf/slab.rs:279-289`. -/
def debugCell (I : MatrixItem α) (m : Matrix α) (maxWidth lastWidth cell : Nat) : Res (List Char) := do
  let item ← m.get cell
  let col ← m.colOf cell
  let width ← I.printedWidth item
  let numSpaces ←
    if col + 1 = m.width then subR lastWidth width
    else (do return (← subR maxWidth width) + 1 : Res Nat)
  return I.display item ++ List.replicate numSpaces ' '

/-- The body of the outer loop, `/repo/src/metrics/fzf/slab.rs:275-295`. -/
def debugRow (I : MatrixItem α) (m : Matrix α) (maxWidth lastWidth : Nat) (opening closing : Char) (cell : Nat) :
    Res (List Char) := do
  let inner ← writeEach (m.debugCell I maxWidth lastWidth) (← m.cols cell)
  return opening :: (inner ++ [closing, '\n'])

/-- `/repo/src/metrics/fzf/slab.rs:225-305` `Debug for Matrix`. -/
def debug (I : MatrixItem α) (m : Matrix α) : Res (List Char) := do
  if m.slice.isEmpty then
    return "[ ]".toList
  else
    let maxWidth ← I.printedWidth (← maxR I m.slice)
    let firstRowLastCol ← Res.unwrap (← m.cols 0).getLast?
    let lastCol ← readEach m (← m.rows firstRowLastCol)
    let lastWidth ← I.printedWidth (← maxR I lastCol)
    let innerWidth := (← subR m.width 1) * (maxWidth + 1) + lastWidth
    let spaces := List.replicate innerWidth ' '
    let (opening, closing) := if m.height = 1 then ('[', ']') else ('│', '│')
    let top := if m.height = 1 then [] else '┌' :: (spaces ++ ['┐', '\n'])
    let body ← writeEach (m.debugRow I maxWidth lastWidth opening closing) (← m.rows 0)
    let bottom := if m.height > 1 then '└' :: (spaces ++ ['┘']) else []
    return top ++ body ++ bottom

end Matrix

end Norm
