import Verif.Model.Basic
import Verif.Model.Node
import Verif.Proof.Bits
import Verif.Proof.WF
import Verif.Proof.With
import Verif.Proof.Filter
import Verif.Proof.Combine
import Verif.Proof.Clash
import Verif.Model.Tree
import Verif.Model.Set
import Verif.Proof.Iter
import Verif.Proof.Tree
import Verif.Spec.SetProg
import Verif.Proof.Set
import Verif.Spec.SetTrace
import Verif.Model.Cost
import Verif.Proof.SetMore
import Verif.Proof.Reduce
import Verif.Proof.SetElems
import Verif.Props.Witness
import Verif.Props.SetBasic
import Verif.Props.SetMore
import Verif.Model.Map
import Verif.Spec.MapProg
import Verif.Proof.Map
import Verif.Props.Map
import Verif.Model.Bits
import Verif.Proof.BitIter
import Verif.Props.Bits
import Verif.Model.IntSet
import Verif.Spec.IntProg
import Verif.Proof.IntSet
import Verif.Proof.IntCells
import Verif.Proof.IntOps
import Verif.Props.IntSet
import Verif.Spec.Nested
import Verif.Model.SetExtra
import Verif.Proof.Nested
import Verif.Proof.Powerset
import Verif.Props.Nested
import Verif.Spec.Order
import Verif.Model.Ordered
import Verif.Proof.Heap
import Verif.Spec.OrdTrace
import Verif.Proof.Ordered
import Verif.Props.Ordered
import Verif.Model.Format
import Verif.Spec.Format
import Verif.Proof.Format
import Verif.Props.Format
import Verif.Model.Parallel
import Verif.Spec.Parallel
import Verif.Proof.Parallel
import Verif.Proof.ParallelOps
import Verif.Props.Parallel
import Verif.Model.Memory
import Verif.Proof.Mem
import Verif.Proof.MemAdd
import Verif.Proof.MemWith
import Verif.Proof.MemRemove
import Verif.Proof.MemFilter
import Verif.Proof.MemOps
import Verif.Proof.MemCombine
import Verif.Proof.MemSafe
import Verif.Proof.MemKeeps
import Verif.Proof.MemTree
import Verif.Spec.History
import Verif.Proof.MemHistory
import Verif.Props.Persist
import Verif.Spec.MapHistory
import Verif.Props.MapPersist
import Verif.Model.Rel
import Verif.Spec.Rel
import Verif.Proof.Rel
import Verif.Proof.RelNest
import Verif.Props.Rel
import Verif.Model.Lazy
import Verif.Proof.LazyEnv
import Verif.Proof.Lazy
import Verif.Spec.Lazy
import Verif.Proof.LazyMake
import Verif.Proof.LazyOps
import Verif.Proof.LazyHist
import Verif.Proof.LazyPow
import Verif.Proof.LazyFuel
import Verif.Proof.LazyClient
import Verif.Props.Lazy
import Verif.Model.Misc
import Verif.Proof.Misc
import Verif.Spec.Misc
import Verif.Props.Misc
import Verif.Spec.Concurrent
import Verif.Proof.Concurrent
import Verif.Props.Concurrent
import Verif.Model.LazyPow
import Verif.Spec.LazyPow
import Verif.Proof.Unlawful
import Verif.Proof.PowWalk
import Verif.Proof.LazyPowMemo
import Verif.Proof.LazyPowHist
import Verif.Props.LazyPow
import Verif.Spec.Crash
import Verif.Proof.Crash
import Verif.Props.Crash
import Verif.Spec.Rehash
import Verif.Proof.Rehash
import Verif.Props.Rehash
import Verif.Spec.Work
import Verif.Proof.Work
import Verif.Props.Work
import Verif.Spec.Nan
import Verif.Proof.Nan
import Verif.Props.Nan
import Verif.Spec.NanMap
import Verif.Proof.NanMap
import Verif.Model.MemIter
import Verif.Spec.MemIter
import Verif.Proof.MemIter
import Verif.Proof.IterHist
import Verif.Props.MemIter
import Verif.Model.Calls
import Verif.Spec.Calls
import Verif.Proof.Calls
import Verif.Proof.CallsMap
import Verif.Proof.CallsMerge
import Verif.Props.Calls
import Verif.Model.CallsPar
import Verif.Spec.CallsPar
import Verif.Proof.CallsPar
import Verif.Proof.CallsParOps
import Verif.Props.CallsPar
import Verif.Model.Value
import Verif.Spec.Value
import Verif.Proof.Value
import Verif.Props.Value
import Verif.Spec.ForkJoin
import Verif.Proof.ForkJoin
import Verif.Props.ForkJoin
import Verif.Model.MemReduce
import Verif.Proof.MemReduce
import Verif.Spec.MemReduce
import Verif.Props.MemReduce
import Verif.Proof.BulkWork
import Verif.Proof.BulkOps
import Verif.Props.BulkWork
import Verif.Model.MemParallel
import Verif.Spec.MemParallel
import Verif.Proof.MemParallel
import Verif.Proof.MemParOps
import Verif.Proof.MemParHistory
import Verif.Props.MemParallel
import Verif.Spec.Goroutines
import Verif.Proof.Goroutines
import Verif.Props.Goroutines
import Verif.Spec.MapUncrowded
import Verif.Props.MapWork
import Verif.Model.LazyConc
import Verif.Proof.LazyConc
import Verif.Proof.LazyConcNext
import Verif.Proof.LazyConcMake
import Verif.Proof.LazyConcOps
import Verif.Spec.LazyConc
import Verif.Proof.LazyConcHist
import Verif.Proof.LazyConcAlone
import Verif.Proof.LazyConcAloneOps
import Verif.Props.LazyConc
import Verif.Spec.Adaptive
import Verif.Proof.Adaptive
import Verif.Props.Adaptive
import Verif.Spec.IterWork
import Verif.Proof.IterWork
import Verif.Props.IterWork
import Verif.Model.MemCompare
import Verif.Proof.MemCompare
import Verif.Spec.MapValues
import Verif.Proof.MapValues
import Verif.Props.MapValues
import Verif.Proof.CompareWork
import Verif.Props.Compare
import Verif.Spec.Races
import Verif.Proof.Races
import Verif.Model.Flip
import Verif.Proof.Flip
import Verif.Props.Races
import Verif.Spec.Footprint
import Verif.Proof.Footprint
import Verif.Props.Footprint
import Verif.Spec.MapCrash
import Verif.Props.MapCrash
import Verif.Spec.Recover
import Verif.Proof.Recover
import Verif.Props.Recover
import Verif.Props.RelLaws
import Verif.Props.MapLaws
import Verif.Spec.JoinProg
import Verif.Proof.JoinProg
import Verif.Props.JoinProg
import Verif.Props.SetLaws
import Verif.Model.CallsInt
import Verif.Proof.CallsInt
import Verif.Props.CallsInt
import Verif.Proof.IntPhantom
import Verif.Model.IntMem
import Verif.Spec.IntHistory
import Verif.Proof.IntMem
import Verif.Props.IntMem
import Verif.Spec.IntActual
import Verif.Proof.IntActual
import Verif.Props.IntActual
import Verif.Props.IntMemActual
import Verif.Props.IntLaws
import Verif.Proof.IntWork
import Verif.Props.IntWork
import Verif.Model.IntCrash
import Verif.Spec.IntCrash
import Verif.Props.IntCrash
import Verif.Props.IntFootprint
import Verif.Props.IntRehash
import Verif.Model.MapIter
import Verif.Spec.MapIter
import Verif.Proof.MapIter
import Verif.Props.MapIter
import Verif.Model.IntIter
import Verif.Spec.IntIter
import Verif.Proof.IntIter
import Verif.Props.IntIter
import Verif.Model.IntLive
import Verif.Proof.IntLive
import Verif.Props.IntLive
import Verif.Spec.IntIterCrash
import Verif.Props.IntIterCrash
import Verif.Spec.IterCrash
import Verif.Props.IterCrash
import Verif.Spec.MapIterCrash
import Verif.Props.MapIterCrash
import Verif.Model.IntLiveCut
import Verif.Proof.IntLiveCut
import Verif.Props.IntLiveCut
import Verif.Proof.NextTotal
import Verif.Props.NextTotal
