import Verif.Model.Res

/-!
# `src/matched_ranges.rs`
-/

namespace Norm

/-- `/repo/src/matched_ranges.rs:5-8` `MatchedRanges`: the caller's whole vector, and its length when the
call started. -/
structure MatchedRanges where
  ranges : List Range
  initialLen : Nat
deriving Repr, DecidableEq

/-- The result of `slice::binary_search_by`. Source: `/repo/src/matched_ranges.rs:55-60`. -/
inductive Search where
  | found (idx : Nat)
  | notFound (idx : Nat)
deriving Repr, DecidableEq

/-- `slice::binary_search_by(|range| range.start.cmp(&start))` of the standard library, by its contract: `Ok` of the index of an element
with that start, else `Err` of the insertion point. The contract asks for a slice sorted by `start` and leaves open what happens
otherwise, and which of several elements with that start is found; the model panics unless the starts are strictly increasing, so that
whoever shows that there is no panic also shows that the contract determines the answer. Source: `/repo/src/matched_ranges.rs:55-60,71-72`. -/
def binarySearchStart (l : List Range) (start : Nat) : Res Search :=
  if l.Pairwise (fun a b => a.start < b.start) then
    match l.findIdx? (fun r => r.start == start) with
    | some idx => .ok (.found idx)
    | none => .ok (.notFound (l.takeWhile (fun r => r.start < start)).length)
  else
    .panic

namespace MatchedRanges

/-- `/repo/src/matched_ranges.rs:10-16` `From<&mut Vec<Range<usize>>>`. -/
def ofVec (ranges : List Range) : MatchedRanges := ⟨ranges, ranges.length⟩

/-- `/repo/src/matched_ranges.rs:197-199` `len`. -/
def len (m : MatchedRanges) : Res Nat := subR m.ranges.length m.initialLen

/-- `/repo/src/matched_ranges.rs:184-187` `insert_at`. -/
def insertAt (m : MatchedRanges) (idx : Nat) (r : Range) : Res MatchedRanges := do
  return { m with ranges := ← insertAtR m.ranges (m.initialLen + idx) r }

/-- `/repo/src/matched_ranges.rs:209-211` `remove`. -/
def remove (m : MatchedRanges) (idx : Nat) : Res MatchedRanges := do
  return { m with ranges := ← removeR m.ranges (m.initialLen + idx) }

/-- `/repo/src/matched_ranges.rs:203-205` `push`. -/
def push (m : MatchedRanges) (r : Range) : MatchedRanges :=
  { m with ranges := m.ranges ++ [r] }

/-- Assignment through a `&mut Range` obtained from `get_mut`/`split_at_mut`/`last_mut`
(`/repo/src/matched_ranges.rs:64-66,191-193,214-223`): overwrite element `idx` of this call's part. -/
def setAt (m : MatchedRanges) (idx : Nat) (r : Range) : Res MatchedRanges := do
  return { m with ranges := ← setR m.ranges (m.initialLen + idx) r }

/-- Reading element `idx` of this call's part, panicking if absent. Source: `/repo/src/matched_ranges.rs:64-66,191-193`. -/
def getAt (m : MatchedRanges) (idx : Nat) : Res Range := getR m.ranges (m.initialLen + idx)

/-- `/repo/src/matched_ranges.rs:70-181` `MatchedRanges::insert`. -/
def insert (m : MatchedRanges) (new : Range) : Res MatchedRanges := do
  let this ← sliceFromR m.ranges m.initialLen
  match ← binarySearchStart this new.start with
  | .found idx =>
    -- lines 77-102
    let range ← m.getAt idx
    let next := m.ranges[m.initialLen + (idx + 1)]?
    if range.stop ≥ new.stop then
      return m
    else
      match next with
      | some next =>
        if new.stop ≥ next.start then
          (← m.setAt idx { range with stop := next.stop }).remove (idx + 1)
        else
          m.setAt idx { range with stop := new.stop }
      | none => m.setAt idx { range with stop := new.stop }
  | .notFound insertIdx =>
    if insertIdx == 0 then
      -- lines 105-119
      match m.ranges[m.initialLen + 0]? with
      | none => return m.push new
      | some first =>
        if new.stop ≥ first.start then
          m.setAt 0 { first with start := new.start }
        else
          m.insertAt 0 new
    else if insertIdx == (← m.len) then
      -- lines 121-131; `last_mut` is the last element of the whole vector
      let last ← Res.unwrap m.ranges.getLast?
      if new.start ≤ last.stop then
        return { m with
          ranges := m.ranges.dropLast ++ [{ last with stop := max last.stop new.stop }] }
      else
        return m.push new
    else
      -- lines 133-180
      let prevIdx ← subR insertIdx 1
      let prev ← m.getAt prevIdx
      let next ← m.getAt insertIdx
      match decide (new.start ≤ prev.stop), decide (new.stop ≥ next.start) with
      | true, true =>
        (← m.setAt prevIdx { prev with stop := next.stop }).remove insertIdx
      | true, false =>
        if new.stop > prev.stop then
          m.setAt prevIdx { prev with stop := new.stop }
        else
          return m
      | false, true => m.setAt insertIdx { next with start := new.start }
      | false, false => m.insertAt insertIdx new

end MatchedRanges

end Norm
