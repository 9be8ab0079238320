import Verif.Proofs.Checked
import Verif.Props.Concrete

/-!
# No overflow

The second half of property C42: the main model computes scores in unbounded integers, the code in `i64`. The functions
of `Model/Checked` panic when a sum, a difference or a product does not fit into an `i64`, and saturate where the code
does. They return what the main model returns. -/

namespace Norm.Props

open Spec

variable {U : Unicode} {a : Algo} {m : Metric} {st : Settings} {q : FzfQuery} {s t : List Char}

/-- **C42**, intermediate values: no call overflows. -/
theorem C42_no_overflow (h : Reachable U a m st) {N : Nat} (hs : Sizes N q s) (buf : List Range) :
    Checked.metricDistance U q s m = m.distance U q s ∧
      Checked.metricDistanceAndRanges U q s buf m = m.distanceAndRanges U q s buf := by
  have hh := (reachable_has h).2
  cases m with
  | v1 m =>
    have hB : Checked.BonusBd m.scoringScheme := by rw [hh.3]; exact Checked.bonusBd _
    have h1 := fun R buf => Checked.distance_agree (U := U) (RANGES := R) (Checked.implV1_agree (U := U)) hB hs buf
    unfold Checked.metricDistance Checked.metricDistanceAndRanges Checked.distanceV1 Checked.distanceAndRangesV1
    simp only [h1]
    exact ⟨rfl, rfl⟩
  | v2 m =>
    have hB : Checked.BonusBd m.scoringScheme := by rw [hh.3]; exact Checked.bonusBd _
    have h1 := fun R buf => Checked.distance_agree (U := U) (RANGES := R) (Checked.implV2_agree (U := U)) hB hs buf
    unfold Checked.metricDistance Checked.metricDistanceAndRanges Checked.distanceV2 Checked.distanceAndRangesV2
    simp only [h1]
    exact ⟨rfl, rfl⟩

/-- **C42**, the sizes in terms of the strings: a query string of `k` characters and a candidate of `n` characters do not
overflow if `(k + 1) * (40 * max k n + 40)` fits into an `i64`. -/
theorem C42_no_overflow_strings (h : Reachable U a m st) (hq : Parsed U t q) (ht : t.length < 2 ^ 32 - 1)
    (hs : (t.length + 1) * (40 * max t.length s.length + 40) < 2 ^ 63) (buf : List Range) :
    Checked.metricDistance U q s m = m.distance U q s ∧
      Checked.metricDistanceAndRanges U q s buf m = m.distanceAndRanges U q s buf := by
  obtain ⟨h1, h2⟩ := Checked.query_sizes U t
  rw [← hq.eq] at h1 h2
  refine C42_no_overflow h (N := max t.length s.length) ⟨by omega, fun p hp => ?_, ?_⟩ buf
  · have := h2 p hp; omega
  · exact Nat.lt_of_le_of_lt (Nat.mul_le_mul_right _ (by omega)) hs

/-- A million characters of query and ten billion characters of candidate are fine. -/
example : (10 ^ 6 + 1) * (40 * max (10 ^ 6) (10 ^ 10) + 40) < 2 ^ 63 := by decide

/-- The checked functions do notice an overflow: with a score close to the limit, the loop of `compute_score` panics. -/
example : Checked.computeScoreLoop Concrete.U false (fun x y => x == y) schemeDefault 0 ['a']
    ⟨false, true, 0, 0, 0, .nonWord, [], 'a', 2 ^ 63 - 20, ⟨[], 0⟩⟩ = .panic := rfl

/-- And on small inputs they compute what the main model computes. -/
example : (Checked.metricDistance Concrete.U (Concrete.parse "ab c") "xabyc".toList (Concrete.metric .v2)).mapR (·.2)
    = Concrete.dist (Concrete.metric .v2) (Concrete.parse "ab c") "xabyc" ∧
      (Concrete.dist (Concrete.metric .v2) (Concrete.parse "ab c") "xabyc") ≠ .panic := by decide +kernel

end Norm.Props
