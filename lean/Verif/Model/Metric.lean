import Verif.Model.Parser
import Verif.Model.V1
import Verif.Model.V2

/-!
# `src/metric.rs`: the trait `Metric` and its two implementations

The trait is modelled by the sum of its two implementors; its methods dispatch on the implementor. -/

namespace Norm

/-- The two algorithms: `FzfV1` (`/repo/src/metrics/fzf/fzf_v1.rs:58-70`) and `FzfV2`
(`/repo/src/metrics/fzf/fzf_v2.rs:65-80`). -/
inductive Algo where
  | v1 | v2
deriving Repr, DecidableEq

/-- A value of a type implementing `Metric`: `/repo/src/metrics/fzf/fzf_v1.rs:201-225`,
`/repo/src/metrics/fzf/fzf_v2.rs:212-236`. -/
inductive Metric where
  | v1 (m : FzfV1)
  | v2 (m : FzfV2)

namespace Metric

/-- Which algorithm a metric implements. Source: `/repo/src/metric.rs:9-130`. -/
def algo : Metric → Algo
  | .v1 _ => .v1
  | .v2 _ => .v2

/-- `FzfV1::new`, `/repo/src/metrics/fzf/fzf_v1.rs:95-97`; `FzfV2::new`, `/repo/src/metrics/fzf/fzf_v2.rs:105-107`. -/
def new : Algo → Metric
  | .v1 => .v1 FzfV1.new
  | .v2 => .v2 FzfV2.new

/-- `set_candidate_normalization` of either type: `/repo/src/metrics/fzf/fzf_v1.rs:130-136`,
`/repo/src/metrics/fzf/fzf_v2.rs:141-147`. -/
def setCandidateNormalization (n : Bool) : Metric → Metric
  | .v1 m => .v1 (m.setCandidateNormalization n)
  | .v2 m => .v2 (m.setCandidateNormalization n)

/-- `set_case_sensitivity` of either type: `/repo/src/metrics/fzf/fzf_v1.rs:158-164`,
`/repo/src/metrics/fzf/fzf_v2.rs:169-175`. -/
def setCaseSensitivity (cs : CaseSensitivity) : Metric → Metric
  | .v1 m => .v1 (m.setCaseSensitivity cs)
  | .v2 m => .v2 (m.setCaseSensitivity cs)

/-- `set_scoring_scheme` of either type: `/repo/src/metrics/fzf/fzf_v1.rs:195-198`,
`/repo/src/metrics/fzf/fzf_v2.rs:206-209`. -/
def setScoringScheme (S : FzfScheme) : Metric → Metric
  | .v1 m => .v1 (m.setScoringScheme S)
  | .v2 m => .v2 (m.setScoringScheme S)

/-- `/repo/src/metric.rs:45-49` `Metric::distance`. -/
def distance (U : Unicode) (q : FzfQuery) (candidate : List Char) : Metric → Res (Metric × Option FzfDistance)
  | .v1 m => (m.distance U q candidate).mapR (fun x => (.v1 x.1, x.2))
  | .v2 m => (m.distance U q candidate).mapR (fun x => (.v2 x.1, x.2))

/-- `/repo/src/metric.rs:124-129` `Metric::distance_and_ranges`; the caller's buffer is passed and returned. -/
def distanceAndRanges (U : Unicode) (q : FzfQuery) (candidate : List Char) (buf : List Range) :
    Metric → Res (Metric × List Range × Option FzfDistance)
  | .v1 m => (m.distanceAndRanges U q candidate buf).mapR (fun x => (.v1 x.1, x.2))
  | .v2 m => (m.distanceAndRanges U q candidate buf).mapR (fun x => (.v2 x.1, x.2))

end Metric

end Norm
