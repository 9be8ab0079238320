import Verif.Model.Parser
import Verif.Model.Metric
import Verif.Model.Checked
import Verif.SpecApi
import Verif.SpecV2
import Verif.SpecExact
import Verif.SpecCase
import Verif.Proofs.Distance
import Verif.Proofs.V2Facts
import Verif.Proofs.Parser
import Verif.Proofs.Matching
import Verif.Proofs.Highlights
import Verif.Props.Decision
import Verif.Props.State
import Verif.Props.Ranges
import Verif.Props.Score
import Verif.Props.V2
import Verif.Props.Grammar
import Verif.Props.Folding
import Verif.Props.Overflow
import Verif.Props.Default
import Verif.Props.Outcome
import Verif.Tests.Upstream
import Verif.Tests.Repo
import Verif.Proofs.Closest
import Verif.Proofs.Append
import Verif.Proofs.Shortfall
import Verif.Proofs.Enumerate
import Verif.Props.Closest
import Verif.Model.Memory
import Verif.Model.MemoryCalls
import Verif.SpecMemory
import Verif.Proofs.Memory
import Verif.Proofs.MemoryCalls
import Verif.Props.Memory
import Verif.Props.MemoryCalls
import Verif.Proofs.Local
import Verif.Props.Local
import Verif.SpecSizes
import Verif.Proofs.Sizes
import Verif.Props.Sizes
import Verif.Model.Debug
import Verif.SpecDebug
import Verif.Proofs.Debug
import Verif.Props.Debug
import Verif.Model.Timed
import Verif.Proofs.Timed
import Verif.Proofs.Steps
import Verif.Proofs.StepsV1
import Verif.Proofs.StepsExact
import Verif.Proofs.StepsV2
import Verif.SpecTime
import Verif.Proofs.StepsCalls
import Verif.Proofs.StepsQuery
import Verif.Proofs.StepsLower
import Verif.Proofs.StepsMetric
import Verif.Props.Time
import Verif.Model.TimedParser
import Verif.Proofs.TimedParser
import Verif.Proofs.StepsParser
import Verif.Props.ParseTime
import Verif.Proofs.StepsV2Lower
import Verif.Proofs.StepsFamily
import Verif.Model.Programs
import Verif.SpecSearch
import Verif.Proofs.Search
import Verif.Proofs.Typing
import Verif.Props.Programs
import Verif.Model.Borrows
import Verif.SpecBorrows
import Verif.Proofs.Borrows
import Verif.Proofs.InPlace
import Verif.Props.Borrows
import Verif.Model.Usize
import Verif.Model.UsizeParser
import Verif.SpecUsize
import Verif.Proofs.UsizeBase
import Verif.Proofs.UsizeRanges
import Verif.Proofs.UsizeFzf
import Verif.Proofs.UsizeV2
import Verif.Proofs.UsizeParser
import Verif.Proofs.UsizeMetric
import Verif.Props.Usize
import Verif.SpecWritable
import Verif.Proofs.Writable
import Verif.Props.Writable
import Verif.Props.Panics
import Verif.SpecLetters
import Verif.Proofs.Families
import Verif.Props.Families
import Verif.Model.Benches
import Verif.Proofs.Steady
import Verif.Proofs.Bench
import Verif.Props.Benches
import Verif.Proofs.Highlighted
import Verif.Proofs.Dearer
import Verif.Props.Reported
import Verif.Proofs.Repeated
import Verif.Props.Repeated
import Verif.Proofs.Schemes
import Verif.Props.Schemes
import Verif.SpecPlaces
import Verif.Proofs.Places
import Verif.Props.Places
import Verif.Proofs.Starting
import Verif.Props.Starting
import Verif.SpecRename
import Verif.Proofs.Rename
import Verif.Props.Rename
import Verif.Props.Settings
import Verif.SpecBisect
import Verif.Proofs.Bisect
import Verif.Props.Bisect
import Verif.SpecCount
import Verif.Proofs.Count
import Verif.Props.Count
import Verif.Proofs.Padding
import Verif.Props.Padding
import Verif.Proofs.LocalExact
import Verif.Props.LocalExact
