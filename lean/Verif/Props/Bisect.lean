import Verif.Proofs.Bisect

/-!
# The binary search among the ranges

Property C96: `binary_search_by` is only called where its documentation says what it returns, and the loop of the standard library returns
that. The model's search panics on any other slice, and by `C27_distance_total` no call panics. -/

namespace Norm.Props

open Spec

variable {ranges ranges' : MatchedRanges} {l : List Range} {r : Range}

/-- **C96.** When a range is inserted without a panic, the ranges of this call have strictly increasing starts, one answer is as documented,
and the search in the model gives it. -/
theorem C96_insert (h : ranges.insert r = .ok ranges') :
    (ranges.ranges.drop ranges.initialLen).Pairwise (fun a b => a.start < b.start) ∧
      ∀ x, Answers (ranges.ranges.drop ranges.initialLen) r.start x ↔
        binarySearchStart (ranges.ranges.drop ranges.initialLen) r.start = .ok x := by
  have hs := insert_sorted h
  refine ⟨hs, fun x => ⟨fun hx => ?_, fun hx => (answers_model hx).2⟩⟩
  unfold MatchedRanges.insert at h
  obtain ⟨this, h1, h2⟩ := Res.bind_eq_ok.mp h
  obtain ⟨y, h3, -⟩ := Res.bind_eq_ok.mp h2
  obtain ⟨-, rfl⟩ := Usize.of_sliceFromR h1
  rw [h3, answers_unique hs hx (answers_model h3).2]

/-- **C96.** On ranges with strictly increasing starts the loop of the standard library stays within the slice and answers as documented,
with one comparison more than it takes halvings to get to one element. -/
theorem C96_std (h : l.Pairwise (fun a b => a.start < b.start)) (start : Nat) :
    ∃ x n, stdSearch l start = .ok (x, n) ∧ (∀ y, Answers l start y ↔ y = x) ∧ ∀ k, l.length ≤ 2 ^ k → n ≤ k + 1 := by
  obtain ⟨x, n, h1, h2, h3⟩ := stdSearch_spec h start
  exact ⟨x, n, h1, fun y => ⟨fun hy => answers_unique h hy h2, fun e => e ▸ h2⟩, h3⟩

/-- Five ranges, and one that goes between the third and the fourth. -/
example : (MatchedRanges.insert ⟨[⟨7, 8⟩, ⟨0, 1⟩, ⟨2, 3⟩, ⟨4, 5⟩, ⟨8, 9⟩, ⟨10, 12⟩], 1⟩ ⟨6, 7⟩ =
      .ok ⟨[⟨7, 8⟩, ⟨0, 1⟩, ⟨2, 3⟩, ⟨4, 5⟩, ⟨6, 7⟩, ⟨8, 9⟩, ⟨10, 12⟩], 1⟩) ∧
    stdSearch [⟨0, 1⟩, ⟨2, 3⟩, ⟨4, 5⟩, ⟨8, 9⟩, ⟨10, 12⟩] 6 = .ok (.notFound 3, 4) ∧
    stdSearch [⟨0, 1⟩, ⟨2, 3⟩, ⟨4, 5⟩, ⟨8, 9⟩, ⟨10, 12⟩] 8 = .ok (.found 3, 4) := by
  decide +kernel

/-- If starts repeat, several answers are as documented; otherwise the loop may miss an element. -/
example : (Answers [⟨2, 3⟩, ⟨2, 5⟩] 2 (.found 0) ∧ Answers [⟨2, 3⟩, ⟨2, 5⟩] 2 (.found 1)) ∧
    stdSearch [⟨4, 5⟩, ⟨2, 3⟩] 4 = .ok (.notFound 2, 2) ∧ MatchedRanges.insert ⟨[⟨4, 5⟩, ⟨2, 3⟩], 0⟩ ⟨4, 6⟩ = .panic :=
  ⟨⟨⟨_, rfl, rfl⟩, ⟨_, rfl, rfl⟩⟩, by decide +kernel, by decide +kernel⟩

end Norm.Props
