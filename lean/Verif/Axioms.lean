import Lean.Elab.Command
import Lean.Util.CollectAxioms
import Verif.Claims
import Verif.CodeLaw
import Verif.Instances.Adapt
import Verif.Instances.Adaptors
import Verif.Instances.Ancestors
import Verif.Instances.AnyCode
import Verif.Instances.AnySource
import Verif.Instances.BigNumbers
import Verif.Instances.BitVecTrait
import Verif.Instances.BitVector
import Verif.Instances.BlockChoice
import Verif.Instances.BlockIO
import Verif.Instances.BlockWidth
import Verif.Instances.Blockwise
import Verif.Instances.BloomFilter
import Verif.Instances.Broadword
import Verif.Instances.BufferMemory
import Verif.Instances.Builds
import Verif.Instances.Calls
import Verif.Instances.CanonicalCode
import Verif.Instances.Capacity
import Verif.Instances.CapacityOps
import Verif.Instances.Chunks
import Verif.Instances.Closure
import Verif.Instances.CodeLengths
import Verif.Instances.CodeOrder
import Verif.Instances.CodeOutcome
import Verif.Instances.CodeSpace
import Verif.Instances.CodeTotality
import Verif.Instances.Coding
import Verif.Instances.CommonPart
import Verif.Instances.CompareNumbers
import Verif.Instances.Completion
import Verif.Instances.Counter
import Verif.Instances.Data
import Verif.Instances.Decode
import Verif.Instances.Derived
import Verif.Instances.Directory
import Verif.Instances.Documentation
import Verif.Instances.EncodeMemory
import Verif.Instances.Exact
import Verif.Instances.ExactSpan
import Verif.Instances.ExactVec
import Verif.Instances.ExtraBits
import Verif.Instances.Fenwick
import Verif.Instances.Format
import Verif.Instances.FormatOpts
import Verif.Instances.Formats
import Verif.Instances.GapSpace
import Verif.Instances.Gaps
import Verif.Instances.Graph
import Verif.Instances.Growth
import Verif.Instances.HashSet
import Verif.Instances.HeapSort
import Verif.Instances.Hidden
import Verif.Instances.IndexChoice
import Verif.Instances.IntVecTrait
import Verif.Instances.IntVector
import Verif.Instances.Iter
import Verif.Instances.IterCompare
import Verif.Instances.Layout
import Verif.Instances.Memory
import Verif.Instances.MinimalImpl
import Verif.Instances.MoveBits
import Verif.Instances.Neighbours
import Verif.Instances.Nesting
import Verif.Instances.NoRecover
import Verif.Instances.OwnBlocks
import Verif.Instances.OwnInts
import Verif.Instances.Packed
import Verif.Instances.Paper
import Verif.Instances.Parentheses
import Verif.Instances.Pieces
import Verif.Instances.Portable
import Verif.Instances.PriorityQueue
import Verif.Instances.Program
import Verif.Instances.ProgramCatch
import Verif.Instances.Queue
import Verif.Instances.RandomAccess
import Verif.Instances.RangeLeast
import Verif.Instances.Rank
import Verif.Instances.RankMemory
import Verif.Instances.RankSpace
import Verif.Instances.Reach
import Verif.Instances.Recover
import Verif.Instances.Resync
import Verif.Instances.Save
import Verif.Instances.Search
import Verif.Instances.SearchGeneric
import Verif.Instances.Select
import Verif.Instances.SelectCost
import Verif.Instances.SelectExact
import Verif.Instances.Sequence
import Verif.Instances.Sieve
import Verif.Instances.Slice
import Verif.Instances.SliceUse
import Verif.Instances.Sorted
import Verif.Instances.SpaceUsage
import Verif.Instances.Sparse
import Verif.Instances.Stale
import Verif.Instances.Storage
import Verif.Instances.Stream
import Verif.Instances.SubsetSums
import Verif.Instances.SubtractNumbers
import Verif.Instances.Tests
import Verif.Instances.TextSearch
import Verif.Instances.Totality
import Verif.Instances.Transcode
import Verif.Instances.Transfer
import Verif.Instances.Trees
import Verif.Instances.UnionFind
import Verif.Instances.Universal
import Verif.Instances.Unwind
import Verif.Instances.VariableWidth
import Verif.Instances.Wavelet
import Verif.Instances.WaveletRange
import Verif.Instances.WhichCode
import Verif.Instances.WriteOrder
import Verif.Law
import Verif.Lemmas.AnySource
import Verif.Lemmas.BitBuffer
import Verif.Lemmas.BitVecTrait
import Verif.Lemmas.BitVector
import Verif.Lemmas.Bits
import Verif.Lemmas.Broadword
import Verif.Lemmas.BroadwordSelect
import Verif.Lemmas.Builds
import Verif.Lemmas.Coding
import Verif.Lemmas.CodingComma
import Verif.Lemmas.CodingFib
import Verif.Lemmas.CodingGeneric
import Verif.Lemmas.CodingOmega
import Verif.Lemmas.CodingTotal
import Verif.Lemmas.Decode
import Verif.Lemmas.Defaults
import Verif.Lemmas.Format
import Verif.Lemmas.FormatOpts
import Verif.Lemmas.Hidden
import Verif.Lemmas.HiddenStill
import Verif.Lemmas.Instances
import Verif.Lemmas.IntVector
import Verif.Lemmas.Iter
import Verif.Lemmas.Jacobson
import Verif.Lemmas.Lanes
import Verif.Lemmas.Law
import Verif.Lemmas.OwnBlocks
import Verif.Lemmas.OwnInts
import Verif.Lemmas.Rank
import Verif.Lemmas.Rank9
import Verif.Lemmas.RankCapacity
import Verif.Lemmas.Select
import Verif.Lemmas.SelectExact
import Verif.Lemmas.Slice
import Verif.Lemmas.Storage
import Verif.Lemmas.Stream
import Verif.Lemmas.Terminates
import Verif.Lemmas.Unwind
import Verif.Lemmas.UnwindMore
import Verif.Lemmas.VectorBase
import Verif.Lemmas.View
import Verif.Model.Adaptors
import Verif.Model.BitVecTrait
import Verif.Model.BlockIO
import Verif.Model.Broadword
import Verif.Model.Capacity
import Verif.Model.Coding
import Verif.Model.Derived
import Verif.Model.Format
import Verif.Model.FormatOpts
import Verif.Model.Hidden
import Verif.Model.Iter
import Verif.Model.Memory
import Verif.Model.MemoryMore
import Verif.Model.MinimalImpl
import Verif.Model.OwnBlocks
import Verif.Model.OwnInts
import Verif.Model.Probes
import Verif.Model.Rank
import Verif.Model.RankCapacity
import Verif.Model.SearchGeneric
import Verif.Model.Select
import Verif.Model.Slice
import Verif.Model.SpaceUsage
import Verif.Model.Storage
import Verif.Model.Stream
import Verif.Model.Unwind
import Verif.Model.UnwindMore
import Verif.Model.VectorBase
import Verif.Props.Adapt
import Verif.Props.Adaptors
import Verif.Props.Ancestors
import Verif.Props.AnyCode
import Verif.Props.AnySource
import Verif.Props.BigNumbers
import Verif.Props.BitVecTrait
import Verif.Props.BitVector
import Verif.Props.BlockChoice
import Verif.Props.BlockIO
import Verif.Props.BlockWidth
import Verif.Props.Blockwise
import Verif.Props.BloomFilter
import Verif.Props.Broadword
import Verif.Props.BufferMemory
import Verif.Props.Builds
import Verif.Props.Calls
import Verif.Props.CanonicalCode
import Verif.Props.Capacity
import Verif.Props.CapacityOps
import Verif.Props.Chunks
import Verif.Props.Closure
import Verif.Props.CodeLengths
import Verif.Props.CodeOrder
import Verif.Props.CodeOutcome
import Verif.Props.CodeSpace
import Verif.Props.CodeTotality
import Verif.Props.Coding
import Verif.Props.CommonPart
import Verif.Props.CompareNumbers
import Verif.Props.Completion
import Verif.Props.Counter
import Verif.Props.Decode
import Verif.Props.Derived
import Verif.Props.Directory
import Verif.Props.Documentation
import Verif.Props.EncodeMemory
import Verif.Props.Exact
import Verif.Props.ExactSpan
import Verif.Props.ExactVec
import Verif.Props.ExtraBits
import Verif.Props.Fenwick
import Verif.Props.Format
import Verif.Props.FormatOpts
import Verif.Props.Formats
import Verif.Props.GapSpace
import Verif.Props.Gaps
import Verif.Props.Graph
import Verif.Props.Growth
import Verif.Props.HashSet
import Verif.Props.HeapSort
import Verif.Props.Hidden
import Verif.Props.IndexChoice
import Verif.Props.IntVecTrait
import Verif.Props.IntVector
import Verif.Props.Iter
import Verif.Props.IterCompare
import Verif.Props.Layout
import Verif.Props.Memory
import Verif.Props.MinimalImpl
import Verif.Props.MoveBits
import Verif.Props.Neighbours
import Verif.Props.Nesting
import Verif.Props.NoRecover
import Verif.Props.OwnBlocks
import Verif.Props.OwnInts
import Verif.Props.Packed
import Verif.Props.Paper
import Verif.Props.Parentheses
import Verif.Props.Pieces
import Verif.Props.Portable
import Verif.Props.PriorityQueue
import Verif.Props.Program
import Verif.Props.ProgramCatch
import Verif.Props.Queue
import Verif.Props.RandomAccess
import Verif.Props.RangeLeast
import Verif.Props.Rank
import Verif.Props.RankMemory
import Verif.Props.RankSpace
import Verif.Props.Reach
import Verif.Props.Recover
import Verif.Props.Resync
import Verif.Props.Save
import Verif.Props.Search
import Verif.Props.SearchGeneric
import Verif.Props.Select
import Verif.Props.SelectCost
import Verif.Props.SelectExact
import Verif.Props.Sequence
import Verif.Props.Sieve
import Verif.Props.Slice
import Verif.Props.SliceUse
import Verif.Props.Sorted
import Verif.Props.SpaceUsage
import Verif.Props.Sparse
import Verif.Props.Stale
import Verif.Props.Storage
import Verif.Props.Stream
import Verif.Props.SubsetSums
import Verif.Props.SubtractNumbers
import Verif.Props.Tests
import Verif.Props.TextSearch
import Verif.Props.Totality
import Verif.Props.Transcode
import Verif.Props.Transfer
import Verif.Props.Trees
import Verif.Props.UnionFind
import Verif.Props.Universal
import Verif.Props.Unwind
import Verif.Props.VariableWidth
import Verif.Props.Wavelet
import Verif.Props.WaveletRange
import Verif.Props.WhichCode
import Verif.Props.WriteOrder
import Verif.RankLaw
import Verif.Rust
import Verif.Spec
import Verif.Spec.Alike
import Verif.Spec.BitVector
import Verif.Spec.Buffer
import Verif.Spec.BufferMemory
import Verif.Spec.CodeName
import Verif.Spec.CodeOutcome
import Verif.Spec.Codes
import Verif.Spec.Decode
import Verif.Spec.Deque
import Verif.Spec.EncodeMemory
import Verif.Spec.Index
import Verif.Spec.IntVector
import Verif.Spec.Program
import Verif.Spec.ProgramCatch
import Verif.Spec.Unwind
import Verif.Spec.View
import Verif.StreamLaw
import Verif.Tests.Basic
import Verif.Tests.Broadword
import Verif.Tests.Quickcheck
import Verif.Tests.Rank
import Verif.Tests.Storage
import Verif.Tests.Stream
import Verif.Tests.VectorBase
import Verif.Tests.Vectors
/-!
# No theorem depends on anything but Lean's three standard axioms

This file fails to build if a declaration of the project depends on an axiom other than `propext`,
`Classical.choice` and `Quot.sound` (in particular on `sorryAx` or on compiled code).
-/
open Lean Elab Command

run_cmd do
  let env ← getEnv
  let mut bad : Array (Name × Array Name) := #[]
  let mut count : Nat := 0
  for (n, _) in env.constants.map₁.toList do
    if (`Succinct).isPrefixOf n && !n.isInternal then
      let axs ← liftCoreM (collectAxioms n)
      count := count + 1
      let other := axs.filter fun a => a != ``propext && a != ``Classical.choice && a != ``Quot.sound
      if !other.isEmpty then bad := bad.push (n, other)
  unless bad.isEmpty do throwError "unexpected axioms: {repr bad}"
  if count < 1000 then throwError "too few declarations were checked: {repr count}"
