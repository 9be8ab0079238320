import Verif.Model.Timed
import Verif.Model.Programs

/-!
# The benchmarks, `benches/*.rs`

What the closures measured by the benchmarks do, with the steps that they take. The crate `criterion` is modelled by what is needed
here: `Bencher::iter` calls its closure some number of times, one after the other. -/

namespace Norm

/-! ### `benches/common.rs` -/

/-- The closures passed to `b.iter`, `/repo/benches/common.rs:116-120,124-128`, with the implementations of `dist` and
`dist_and_ranges` (`/repo/benches/fzf_v1.rs:31-42`, `/repo/benches/fzf_v2.rs:31-42`) and the closure of
`/repo/benches/fzf_common.rs:36-38` (one candidate, no ranges): one call for each of the candidates. The vector of ranges, if there
is one, is not cleared. -/
def benchIteration (U : Unicode) (query : FzfQuery) :
    (candidates : List (List Char)) → Metric → (ranges : Option (List Range)) → Timed (Metric × Option (List Range))
  | [], m, ranges => pure (m, ranges)
  | candidate :: rest, m, some ranges => do
    let (m, ranges, _) ← m.timedDistanceAndRanges U query candidate ranges
    benchIteration U query rest m (some ranges)
  | candidate :: rest, m, none => do
    let (m, _) ← m.timedDistance U query candidate
    benchIteration U query rest m none

/-- `b.iter(..)`, `/repo/benches/common.rs:116-120,124-128`, `/repo/benches/fzf_common.rs:36-38`: `n` calls of the closure. -/
def benchIterations (U : Unicode) (query : FzfQuery) (candidates : List (List Char)) :
    (n : Nat) → Metric → (ranges : Option (List Range)) → Timed (Metric × Option (List Range))
  | 0, m, ranges => pure (m, ranges)
  | n + 1, m, ranges => do
    let (m, ranges) ← benchIterations U query candidates n m ranges
    benchIteration U query candidates m ranges

/-- `/repo/benches/common.rs:94-131` `bench`, where `b.iter` makes `n` calls. The query is parsed before anything is measured,
so that the steps of parsing are not counted. -/
def bench (U : Unicode) (n : Nat) (m : Metric) (query : List Char) (candidates : List (List Char))
    (ranges : Option (List Range)) : Timed (Metric × Option (List Range)) := do
  let (_, query) ← Timed.free (FzfParser.new.parse U query)
  benchIterations U query candidates n m ranges

/-- `/repo/benches/common.rs:38-63` `param`. -/
def param (case : CaseSensitivity) (withRanges : Bool) (suffix : Option (List Char)) : List Char :=
  let s := match case with
    | .sensitive => "case_sensitive".toList
    | .insensitive => "case_insensitive".toList
    | .smart => "case_smart".toList
  let s := s ++ if withRanges then "_with_ranges".toList else []
  match suffix with
  | some suffix => s ++ '_' :: suffix
  | none => s

/-- What `for_all_cases_and_ranges` goes through, `/repo/benches/common.rs:75-80`. -/
def benchCases : List (CaseSensitivity × Bool) :=
  [CaseSensitivity.sensitive, .insensitive, .smart].flatMap fun case => [true, false].map fun withRanges => (case, withRanges)

/-- `/repo/benches/common.rs:66-91` `for_all_cases_and_ranges` with the closures of lines 154-266, which all call `bench`: the
metric is kept, the vector of ranges is new. `n` is how often each of the closures is called. Returns the metric and the ids. -/
def benchAll (U : Unicode) (n : CaseSensitivity → Bool → Nat) (query : List Char) (candidates : List (List Char))
    (suffix : Option (List Char)) : List (CaseSensitivity × Bool) → Metric → Timed (Metric × List (List Char))
  | [], m => pure (m, [])
  | (case, withRanges) :: rest, m => do
    let m := m.setCaseSensitivity case
    let id := param case withRanges suffix
    let (m, _) ← bench U (n case withRanges) m query candidates (if withRanges then some [] else none)
    let (m, ids) ← benchAll U n query candidates suffix rest m
    return (m, id :: ids)

/-- `/repo/benches/common.rs:133-136` `MEDIUM_TEXT`. -/
def mediumText : List Char :=
  "Far far away, behind the word mountains, far from the countries Vokalia ".toList ++
  "and Consonantia, there live the blind texts. Separated they live in ".toList ++
  "Bookmarksgrove right at the coast of the Semantics, a large.".toList

/-- `/repo/benches/common.rs:138-146` `LONG_TEXT`. -/
def longText : List Char :=
  "Far far away, behind the word mountains, far from the countries Vokalia ".toList ++
  "and Consonantia, there live the blind texts. Separated they live in ".toList ++
  "Bookmarksgrove right at the coast of the Semantics, a large language ".toList ++
  "ocean. A small river named Duden flows by their place and supplies it ".toList ++
  "with the necessary regelialia. It is a paradisematic country, in which ".toList ++
  "roasted parts of sentences fly into your mouth. Even the all-powerful ".toList ++
  "Pointing has no control about the blind texts it is an almost ".toList ++
  "unorthographic life".toList

/-- The names, queries and candidates of `short`, `medium_start`, `medium_middle`, `medium_end`, `long_start`, `long_middle` and
`long_end`, `/repo/benches/common.rs:149-267`, each of which has one candidate. -/
def commonBenches : List (List Char × List Char × List Char) :=
  [("short".toList, "paradise".toList, "paradisematic".toList),
   ("medium_start".toList, "away".toList, mediumText),
   ("medium_middle".toList, "blind".toList, mediumText),
   ("medium_end".toList, "Semantics".toList, mediumText),
   ("long_start".toList, "mountains".toList, longText),
   ("long_middle".toList, "Duden".toList, longText),
   ("long_end".toList, "unorthographic".toList, longText)]

/-! ### `benches/fzf_common.rs` -/

/-- `/repo/benches/fzf_common.rs:17` `QUERY_LEN`. -/
def queryLen16 : Nat := 16

/-- The query string and the candidate of `exact`, `/repo/benches/fzf_common.rs:49-60`, made of a text in the place of
`common::MEDIUM_TEXT`. -/
def exactBench (text : List Char) : Res (List Char × List Char) := do
  let midpoint := strLen text / 2
  let start ← subR midpoint (queryLen16 / 2)
  let stop := start + queryLen16
  let query ← strSliceR text ⟨start, stop⟩
  return ('\'' :: query, text)

/-- The same of `prefix`, `/repo/benches/fzf_common.rs:66-70`. -/
def prefixBench (text : List Char) : Res (List Char × List Char) := do
  let query ← strToR text queryLen16
  return ('^' :: query, text)

/-- The same of `suffix`, `/repo/benches/fzf_common.rs:76-81`. -/
def suffixBench (text : List Char) : Res (List Char × List Char) := do
  let query ← strFromR text (← subR (strLen text) queryLen16)
  return (query ++ ['$'], text)

/-- The same of `equal`, `/repo/benches/fzf_common.rs:87-91`. -/
def equalBench (text : List Char) : Res (List Char × List Char) := do
  let candidate ← strToR text queryLen16
  return ('^' :: (candidate ++ ['$']), candidate)

end Norm
