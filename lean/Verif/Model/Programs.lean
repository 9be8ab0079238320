import Verif.Model.Metric

/-!
# The programs of the repository that use the API

The fuzz target and the example, which filters a list by a query and sorts what is left. -/

namespace Norm

/-! ### `fuzz/fuzz_targets/fzf.rs` -/

/-- `&s[r]`: panics unless the ends are in order, in the string and on character boundaries,
`/repo/fuzz/fuzz_targets/fzf.rs:53-55,63-65`. -/
def strSliceR (s : List Char) (r : Range) : Res (List Char) := do
  let s ← strToR s r.stop
  strFromR s r.start

/-- Slicing the candidate with every range of the buffer, `/repo/fuzz/fuzz_targets/fzf.rs:53-55,63-65`. -/
def sliceAll (s : List Char) : List Range → Res Unit
  | [] => .ok ()
  | r :: rs => do
    let _ ← strSliceR s r
    sliceAll s rs

/-- The options that `with_opts` goes through, `/repo/fuzz/fuzz_targets/fzf.rs:14-31`. -/
def fuzzOptions : List (CaseSensitivity × Bool × FzfScheme) :=
  [CaseSensitivity.sensitive, .insensitive, .smart].flatMap fun cs =>
    [true, false].flatMap fun n => [FzfScheme.default, .path, .history].map fun S => (cs, n, S)

/-- One metric's half of the closure's body, `/repo/fuzz/fuzz_targets/fzf.rs:47-55,57-65`. -/
def fuzzHalf (U : Unicode) (q : FzfQuery) (s : List Char) (o : CaseSensitivity × Bool × FzfScheme) (m : Metric)
    (ranges : List Range) : Res (Metric × List Range) := do
  let m := ((m.setCandidateNormalization o.2.1).setCaseSensitivity o.1).setScoringScheme o.2.2
  let (m, ranges, _) ← m.distanceAndRanges U q s ranges
  sliceAll s ranges
  return (m, ranges)

/-- The closure passed to `with_opts`, called for each of the options, `/repo/fuzz/fuzz_targets/fzf.rs:46-66`. The
buffer is never cleared. -/
def fuzzLoop (U : Unicode) (q : FzfQuery) (s : List Char) :
    List (CaseSensitivity × Bool × FzfScheme) → Metric → Metric → List Range → Res (List Range)
  | [], _, _, ranges => .ok ranges
  | o :: os, m₁, m₂, ranges => do
    let (m₁, ranges) ← fuzzHalf U q s o m₁ ranges
    let (m₂, ranges) ← fuzzHalf U q s o m₂ ranges
    fuzzLoop U q s os m₁ m₂ ranges

/-- `/repo/fuzz/fuzz_targets/fzf.rs:33-67`, for the given query and candidate. Returns what is in the buffer at the
end. -/
def fuzzTarget (U : Unicode) (query candidate : List Char) : Res (List Range) := do
  let (_, query) ← FzfParser.new.parse U query
  fuzzLoop U query candidate fuzzOptions (.new .v1) (.new .v2) []

/-! ### `examples/cities.rs` -/

/-- `.filter_map(|s| metric.distance(query, s).map(|dist| (s, dist))).collect()`,
`/repo/examples/cities.rs:15-19`. -/
def filterList (U : Unicode) (q : FzfQuery) : List (List Char) → Metric → Res (Metric × List (List Char × FzfDistance))
  | [], m => .ok (m, [])
  | s :: ss, m => do
    let (m, d) ← m.distance U q s
    let (m, rest) ← filterList U q ss m
    return (m, match d with
      | some d => (s, d) :: rest
      | none => rest)

/-- Insert before the first element that is not smaller, in the sense of `Ord for FzfDistance`. A step of
`/repo/examples/cities.rs:21`. -/
def insertByDistance (x : List Char × FzfDistance) :
    List (List Char × FzfDistance) → List (List Char × FzfDistance)
  | [] => [x]
  | y :: ys => if x.2.cmp y.2 ≠ .gt then x :: y :: ys else y :: insertByDistance x ys

/-- `results.sort_by_key(|(_, dist)| *dist)`, `/repo/examples/cities.rs:21`. `slice::sort_by_key` is a stable sort by
`Ord for FzfDistance`; it is modelled by one, insertion sort. -/
def sortByDistance : List (List Char × FzfDistance) → List (List Char × FzfDistance)
  | [] => []
  | x :: xs => insertByDistance x (sortByDistance xs)

/-- The filtering and sorting of a list of candidates, `/repo/examples/cities.rs:15-21`. -/
def searchList (U : Unicode) (q : FzfQuery) (l : List (List Char)) (m : Metric) :
    Res (Metric × List (List Char × FzfDistance)) := do
  let (m, results) ← filterList U q l m
  return (m, sortByDistance results)

end Norm
