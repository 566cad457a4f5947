import Verif.Basic
import Verif.Spec
import Verif.Capacity
import Verif.Count
import Verif.Swiss.Model
import Verif.Swiss.Probe
import Verif.Swiss.Meta
import Verif.Swiss.Inv
import Verif.Swiss.Rehash
import Verif.Swiss.Ops
import Verif.Swiss.Map
import Verif.Swiss.Multi
import Verif.Swiss.MultiSpec
import Verif.Swiss.Bulk
import Verif.Swiss.Hist
import Verif.Swiss.Grow
import Verif.Props.Behaves
import Verif.Props.SwissA
import Verif.Props.SwissB
import Verif.Bits
import Verif.Swiss.Buffer
import Verif.Props.Bits
import Verif.Props.Buffer
import Verif.Dense.Model
import Verif.Dense.Chain
import Verif.Dense.Inv
import Verif.Dense.Ops
import Verif.Dense.Erase
import Verif.Dense.Spec
import Verif.Dense.Copy
import Verif.Dense.Hist
import Verif.Dense.Faults
import Verif.Props.Dense
import Verif.Swiss.Stable
import Verif.Props.Stable
import Verif.Ordered.Link
import Verif.Ordered.Ring
import Verif.Ordered.DenseSpec
import Verif.Ordered.Dense
import Verif.Ordered.DenseInv
import Verif.Ordered.DenseOps
import Verif.Ordered.Chain
import Verif.Ordered.DenseCopy
import Verif.Ordered.DenseWorld
import Verif.Ordered.DenseIter
import Verif.Props.OrderedDense
import Verif.Props.OrderedSwiss
import Verif.Swiss.Log
import Verif.Swiss.Move
import Verif.Ordered.SwissSpec
import Verif.Ordered.Swiss
import Verif.Ordered.SwissInv
import Verif.Ordered.SwissOps
import Verif.Ordered.SwissIter
import Verif.Ordered.SwissStrict
import Verif.Ordered.SwissCopy
import Verif.Ordered.SwissMerge
import Verif.Ordered.SwissWorld
import Verif.Ordered.SwissHint
import Verif.Swiss.Alias
import Verif.Dense.Alias
import Verif.Props.Alias
import Verif.Swiss.Blocks
import Verif.Swiss.BlocksSpec
import Verif.Props.Blocks
import Verif.Swiss.Weak
import Verif.Props.Copies
import Verif.Swiss.Throw
import Verif.Props.Throw
import Verif.Props.Exact
import Verif.Dense.Throw
import Verif.Props.DenseThrow
import Verif.Dense.Access
import Verif.Props.DenseReserve
import Verif.Props.DenseAccess
import Verif.Refs
import Verif.Endian
import Verif.Props.Refs
import Verif.Props.Endian
import Verif.Swiss.Words
import Verif.Props.Words
import Verif.F32
import Verif.Props.F32
import Verif.Ordered.DenseMove
import Verif.Props.OrderedMove
import Verif.Ordered.DenseThrow
import Verif.Props.OrderedThrow
import Verif.Swiss.Equiv
import Verif.Dense.Equiv
import Verif.Props.Equiv
import Verif.Swiss.Calls
import Verif.Props.Calls
import Verif.Ordered.SwissExchange
import Verif.Swiss.Work
import Verif.Dense.Work
import Verif.Props.Work
import Verif.Ordered.SwissThrow
import Verif.Props.OrderedSwissThrow
import Verif.Dense.Local
import Verif.Props.Local
import Verif.Dense.Iter
import Verif.Props.Iter
import Verif.Ordered.Access
import Verif.Props.OrderedAccess
import Verif.Swiss.SelfOps
import Verif.Props.SelfOps
import Verif.Dense.Heap
import Verif.Dense.HeapWorld
import Verif.Props.DenseHeap
import Verif.Swiss.Mem
import Verif.Swiss.MemWorld
import Verif.Props.SparseMem
import Verif.Ordered.Exact
import Verif.Props.OrderedExact
import Verif.Dense.CallCount
import Verif.Props.Noexcept
import Verif.Swiss.Amortized
import Verif.Props.Amortized
import Verif.Dense.Amortized
import Verif.Props.DenseAmortized
import Verif.Swiss.Many
import Verif.Dense.Many
import Verif.Props.Many
import Verif.Swiss.Iters
import Verif.Dense.Iters
import Verif.Props.Iters
import Verif.Swiss.Assign
import Verif.Props.SwissRange
import Verif.Ordered.SwissIters
import Verif.Ordered.DenseIters
import Verif.Props.OrderedIters
import Verif.Ordered.SwissMany
import Verif.Ordered.DenseMany
import Verif.Props.OrderedMany
import Verif.Swiss.Write
import Verif.Dense.Write
import Verif.Props.Write
import Verif.Ordered.HintWords
import Verif.Props.HintWords
import Verif.Props.SwissLoad
import Verif.Swiss.Args
import Verif.Props.Args
import Verif.Swiss.IterWork
import Verif.Props.IterWork
import Verif.Ordered.SwissIndex
import Verif.Props.OrderedIndex
import Verif.Swiss.Huge
import Verif.Props.Huge
import Verif.Props.CapacityOf
import Verif.Swiss.Cycle
import Verif.Dense.Cycle
import Verif.Props.Cycle
import Verif.Swiss.Order
import Verif.Props.Order
import Verif.Dense.Average
import Verif.Props.Average
import Verif.Swiss.Average
import Verif.Props.SwissAverage
import Verif.Swiss.Cost
import Verif.Props.Cost
import Verif.Interchange
import Verif.Props.Interchange
import Verif.Swiss.Ghost
import Verif.Ordered.DenseCore
import Verif.Ordered.SwissCore
import Verif.Props.OrderedCore
import Verif.Swiss.Collide
import Verif.Dense.Collide
import Verif.Props.Collide
import Verif.Dense.EraseWork
import Verif.Props.EraseWork
import Verif.Arch
import Verif.Props.Arch
import Verif.Props.Buckets
import Verif.Types
import Verif.Props.Types
import Verif.Props.LinkWork
import Verif.Dense.Words
import Verif.Props.DenseWords
import Verif.Swiss.Target
import Verif.Props.Targets
import Verif.Props.OrderedTargets
import Verif.Bases
import Verif.Props.Bases
import Verif.Swiss.Consecutive
import Verif.Props.Consecutive
import Verif.Swiss.Wild
import Verif.Props.Wild
import Verif.Dense.Wild
import Verif.Props.DenseWild
import Verif.Transparent
import Verif.Props.Transparent
import Verif.Ordered.SwissWild
import Verif.Props.OrderedWild
import Verif.Ordered.DenseWild
import Verif.Props.OrderedDenseWild
import Verif.Swiss.WildMany
import Verif.Props.WildMany
import Verif.Dense.WildMany
import Verif.Props.DenseWildMany
