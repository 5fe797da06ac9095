import Verif.Core.Prog
import Verif.Core.Sem
import Verif.Core.Adequacy
import Verif.Core.View
import Verif.Core.Tri
import Verif.Spec
import Verif.Proof.Order
import Verif.Model.Insertion
import Verif.Proof.Insertion
import Verif.Model.Heap
import Verif.Proof.Heap
import Verif.Model.Partition
import Verif.Proof.Pivot
import Verif.Proof.Partition
import Verif.Proof.Blocks
import Verif.Model.Quick
import Verif.Proof.Quick
import Verif.Model.Select
import Verif.Proof.Select
import Verif.Model.Api
import Verif.Props.Base
import Verif.Props.Sample
import Verif.Props.Unstable
import Verif.Props.Select
import Verif.Props.Parallel
import Verif.Core.Scratch
import Verif.Core.TriL
import Verif.Model.Merge
import Verif.Proof.Merge
import Verif.Proof.RunVec
import Verif.Proof.MergeSort
import Verif.Props.Stable
import Verif.Props.RunStack
import Verif.Model.Search
import Verif.Proof.Search
import Verif.Proof.Dedup
import Verif.Props.Search
import Verif.Props.Dedup
import Verif.Props.Compose
import Verif.Props.Copies
import Verif.Props.Alias
import Verif.Model.ParMerge
import Verif.Proof.ParMergeSeq
import Verif.Proof.ParMerge
import Verif.Proof.ParMergeSort
import Verif.Props.ParStable
import Verif.Model.Cached
import Verif.Proof.Cached
import Verif.Props.Cached
import Verif.Props.Partition
import Verif.Props.Trivial
import Verif.Core.Sim
import Verif.Proof.Sim
import Verif.Proof.SimSort
import Verif.Proof.SimMerge
import Verif.Proof.SimSearch
import Verif.Props.Relational
import Verif.Props.Variants
import Verif.Core.Exact
import Verif.Core.ExactLog
import Verif.Proof.NoChoose
import Verif.Proof.ParExact
import Verif.Props.ParDeterministic
import Verif.Core.Path
import Verif.Core.Cost
import Verif.Proof.AlreadySorted
import Verif.Props.AlreadySorted
import Verif.Props.Cost
import Verif.Core.RunLog
import Verif.Proof.Adversary
import Verif.Proof.SelectSlow
import Verif.Props.SelectCost
import Verif.Proof.Ninther
import Verif.Proof.SelectLinear
import Verif.Props.SelectLinear
import Verif.Proof.Within
import Verif.Proof.QuickSlow
import Verif.Props.QuickCost
import Verif.Proof.QuickOdd
import Verif.Props.QuickOdd
import Verif.Core.Init
import Verif.Core.InPlace
import Verif.Proof.InPlace
import Verif.Proof.InSort
import Verif.Proof.InMerge
import Verif.Props.Init
import Verif.Proof.CostPar
import Verif.Proof.CostQuickAny
import Verif.Proof.SelectAny
import Verif.Props.ParCost
import Verif.Core.PathW
import Verif.Proof.Descending
import Verif.Props.Descending
import Verif.Props.Function
import Verif.Core.Prompt
import Verif.Proof.Prompt
import Verif.Props.Panics
import Verif.Core.RunSteps
import Verif.Core.Refs
import Verif.Model.Refs
import Verif.Proof.Refs
import Verif.Proof.RefsBlocks
import Verif.Proof.RefsQuick
import Verif.Proof.RefsMerge
import Verif.Props.Refs
import Verif.Core.Serial
import Verif.Proof.Inside
import Verif.Model.RefsPar
import Verif.Proof.RefsPar
import Verif.Proof.InsidePar
import Verif.Props.RefsPar
import Verif.Model.RefsParMerge
import Verif.Proof.RefsParMerge
import Verif.Proof.InsideParMerge
import Verif.Props.RefsParStable
import Verif.Core.MapAns
import Verif.Model.RefsCached
import Verif.Proof.RefsCached
import Verif.Props.RefsCached
import Verif.Props.CachedInit
import Verif.Props.SelectEnds
import Verif.Proof.AllocFail
import Verif.Props.AllocFail
import Verif.Tests.DocExamples
import Verif.Core.Apart
import Verif.Props.Apart
import Verif.Model.Extend
import Verif.Proof.Extend
import Verif.Props.Extend
import Verif.Props.Depth
import Verif.Props.Numbers
import Verif.Core.Credit
import Verif.Proof.CreditLeaf
import Verif.Proof.CreditSort
import Verif.Proof.CreditPar
import Verif.Props.Time
import Verif.Props.Told
import Verif.Proof.CostFew
import Verif.Props.FewValues
import Verif.Proof.SelectShort
import Verif.Proof.SelectShortGood
import Verif.Props.SelectShort
import Verif.Core.Span
import Verif.Proof.Span
import Verif.Props.Span
import Verif.Core.Greedy
import Verif.Props.Greedy
import Verif.Props.ScratchMem
import Verif.Proof.Sequences
import Verif.Proof.CostAdaptive
import Verif.Proof.CostParAdaptive
import Verif.Props.Adaptive
import Verif.Core.PathP
import Verif.Proof.ParSorted
import Verif.Props.ParSorted
import Verif.Core.Lag
import Verif.Proof.Lag
import Verif.Props.Lag
import Verif.Core.Due
import Verif.Proof.LagMerge
import Verif.Proof.DuePar
import Verif.Props.AtLeast
import Verif.Core.Adversary
import Verif.Props.Entropy
import Verif.Props.SearchLeast
import Verif.Props.ParAsks
import Verif.Props.ParPanic
import Verif.Core.Below
import Verif.Proof.HalfBuffer
import Verif.Props.HalfBuffer
import Verif.Model.CachedBudget
import Verif.Proof.CachedBudget
import Verif.Props.CachedBudget
import Verif.Props.Together
import Verif.Props.Rows
import Verif.Props.Distinct
import Verif.Props.Inverted
import Verif.Props.ParCachedAsks
import Verif.Core.Looks
import Verif.Props.Searches
import Verif.Props.SelectRows
import Verif.Props.CachedRows
import Verif.Props.Mixture
import Verif.Props.DedupRows
import Verif.Props.Halves
import Verif.Props.Grid
