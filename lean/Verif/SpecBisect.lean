import Verif.Model.MatchedRanges

/-!
# `slice::binary_search_by`

What the documentation of the standard library says about it, and the loop by which the standard library does it, for property C96.
-/

namespace Norm.Spec

/-- "If the value is found then `Result::Ok` is returned, containing the index of the matching element. […] If the value is not found then
`Result::Err` is returned, containing the index where a matching element could be inserted while maintaining sorted order."
Source of the call: `/repo/src/matched_ranges.rs:55-60,71-72`. -/
def Answers (l : List Range) (start : Nat) : Search → Prop
  | .found i => ∃ r, l[i]? = some r ∧ r.start = start
  | .notFound i => i ≤ l.length ∧ (∀ r ∈ l, r.start ≠ start) ∧ (∀ r ∈ l.take i, r.start ≤ start) ∧ ∀ r ∈ l.drop i, start ≤ r.start

/-- The loop of `binary_search_by` in the standard library since Rust 1.82: where it ends, and how many comparisons it made.
`get_unchecked` out of bounds is a panic here. Source of the call: `/repo/src/matched_ranges.rs:55-60`. -/
def halve (l : List Range) (start size base : Nat) : Res (Nat × Nat) :=
  if 1 < size then do
    let half := size / 2
    let mid := base + half
    let r ← getR l mid
    let base := if start < r.start then base else mid
    let (last, n) ← halve l start (size - half) base
    return (last, n + 1)
  else
    return (base, 0)
termination_by size
decreasing_by omega

/-- `binary_search_by` in the standard library since Rust 1.82, with the number of comparisons.
Source of the call: `/repo/src/matched_ranges.rs:55-60,71-72`. -/
def stdSearch (l : List Range) (start : Nat) : Res (Search × Nat) :=
  if l.length = 0 then
    return (.notFound 0, 0)
  else do
    let (base, n) ← halve l start l.length 0
    let r ← getR l base
    if r.start = start then
      return (.found base, n + 1)
    else
      return (.notFound (if r.start < start then base + 1 else base), n + 1)

end Norm.Spec
