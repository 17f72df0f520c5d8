import Verif.ReturnCode
import Verif.Mapper
import Verif.MapperLemmas
import Verif.Spec
import Verif.Cell
import Verif.BaseOps
import Verif.BaseInv
import Verif.BaseStep
import Verif.SeqBase
import Verif.SeqTrace
import Verif.Props.Seq
import Verif.Lin
import Verif.Conc
import Verif.ConcSched
import Verif.ConcAny
import Verif.Props.Geometry
import Verif.Props.Conc
import Verif.SlotBits
import Verif.HeapSlot
import Verif.Props.Slots
import Verif.Props.Heap
import Verif.Config
import Verif.Props.Config
import Verif.Iter
import Verif.MigIter
import Verif.Props.Iter
import Verif.Migrate
import Verif.MigGeo
import Verif.MigHead
import Verif.MigInv
import Verif.MigStep
import Verif.MigReach
import Verif.MigCount
import Verif.MigTerm
import Verif.MigBlocks
import Verif.Props.Migrate
import Verif.Count
import Verif.Props.Count
import Verif.GrowSeq
import Verif.GrowInv
import Verif.GrowTerm
import Verif.Props.Grow
import Verif.SeqLin
import Verif.Props.SeqLin
import Verif.SeqHeap
import Verif.Props.SeqHeap
import Verif.Sync
import Verif.SyncInv
import Verif.SyncPrompt
import Verif.SyncReg
import Verif.SyncData
import Verif.SyncDataInv
import Verif.Props.Sync
import Verif.Props.SyncLin
import Verif.Async
import Verif.AsyncInv
import Verif.AsyncStep
import Verif.Props.Async
import Verif.AsyncData
import Verif.AsyncTab
import Verif.AsyncDataInv
import Verif.Props.AsyncLin
import Verif.Props.AsyncRun
import Verif.Props.AsyncTorn
import Verif.MigWeak
import Verif.AsyncMarks
import Verif.Props.AsyncMarks
import Verif.AsyncIter
import Verif.Props.AsyncIter
import Verif.Alloc
import Verif.Props.Alloc
import Verif.Pool
import Verif.PoolInv
import Verif.PoolMany
import Verif.Props.Pool
import Verif.HeapMem
import Verif.Props.HeapMem
import Verif.Props.SyncLost
import Verif.SyncTso
import Verif.Props.SyncTso
import Verif.Range
import Verif.Reclaim
import Verif.Moves
import Verif.Props.Range
import Verif.Props.Reclaim
import Verif.Props.Moves
import Verif.SyncPool
import Verif.SyncPoolInv
import Verif.SyncPoolMany
import Verif.Props.SyncPool
import Verif.Tsx
import Verif.TsxInv
import Verif.Props.Tsx
import Verif.TsxMig
import Verif.MigRace
import Verif.Props.TsxMig
import Verif.Props.MigRace
import Verif.TabMove
import Verif.TsxIter
import Verif.SeqWords
import Verif.Props.TabMove
import Verif.Props.TsxIter
import Verif.Props.SeqWords
import Verif.Publish
import Verif.Props.Publish
import Verif.AsyncHb
import Verif.Props.AsyncHb
import Verif.SyncHb
import Verif.Props.SyncHb
import Verif.Words
import Verif.Torn
import Verif.Props.Words
import Verif.HeapVal
import Verif.Props.HeapVal
import Verif.Progress
import Verif.Props.Progress
import Verif.SyncLive
import Verif.AsyncLive
import Verif.Props.SyncLive
import Verif.Props.AsyncLive
import Verif.Wrapper
import Verif.WrapperInv
import Verif.Props.Wrapper
import Verif.Agg
import Verif.Props.Agg
import Verif.Acct
import Verif.Props.Acct
import Verif.Props.Bench
import Verif.TsxProgress
import Verif.Props.TsxProgress
import Verif.Reason
import Verif.Props.Reason
import Verif.Props.Mixed
import Verif.Text
import Verif.Props.Text
import Verif.Props.RangeSum
import Verif.Props.HeapTomb
import Verif.Props.TsxRoom
import Verif.Props.SeqSize
import Verif.Props.SeqProbe
import Verif.Props.Latency
import Verif.Props.FunTest
import Verif.Props.Ins32
import Verif.Props.Ins64
import Verif.Props.Example
import Verif.Props.Reserved
