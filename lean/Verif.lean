import Verif.Model.Time
import Verif.Spec.Time
import Verif.Proofs.Time
import Verif.Props.Time
import Verif.Model.Ids
import Verif.Proofs.Ids
import Verif.Props.Ids
import Verif.Model.Range
import Verif.Spec.Range
import Verif.Proofs.Range
import Verif.Props.Range
import Verif.Model.Os
import Verif.Spec.Os
import Verif.Proofs.Os
import Verif.Props.Os
import Verif.Model.Name
import Verif.Spec.Name
import Verif.Proofs.Name
import Verif.Props.Name
import Verif.Model.LockId
import Verif.Proofs.LockId
import Verif.Props.LockId
import Verif.Model.ListMem
import Verif.Spec.ListMem
import Verif.Proofs.ListMem
import Verif.Props.ListMem
import Verif.Model.FileLock
import Verif.Proofs.FLStruct
import Verif.Proofs.FLRefs
import Verif.Proofs.FLPlan
import Verif.Proofs.FLInv
import Verif.Proofs.FLExact
import Verif.Spec.FileLock
import Verif.Proofs.FLMore
import Verif.Proofs.FLSolo
import Verif.Model.FLSweep
import Verif.Proofs.FLPaths
import Verif.Proofs.FLRefuse
import Verif.Proofs.FLSweep
import Verif.Proofs.FLConserve
import Verif.Proofs.FLProt
import Verif.Props.FLCases
import Verif.Props.FileLock
import Verif.Props.FLCalls
import Verif.Props.FLRecords
import Verif.Model.Drain
import Verif.Proofs.Drain
import Verif.Props.Drain
import Verif.Model.MutexCond
import Verif.Spec.MutexCond
import Verif.Proofs.MCInv
import Verif.Proofs.MCOwn
import Verif.Proofs.MCSolo
import Verif.Proofs.MCFail
import Verif.Props.MCCases
import Verif.Props.Mutex
import Verif.Proofs.MCRec
import Verif.Proofs.MCCond
import Verif.Proofs.MCSignal
import Verif.Props.Cond
import Verif.Model.Str
import Verif.Spec.Str
import Verif.Proofs.Str
import Verif.Model.Dbg
import Verif.Props.Str
import Verif.Model.Config
import Verif.Props.Config
import Verif.Model.IO
import Verif.Spec.IO
import Verif.Props.IO
import Verif.Model.Layout
import Verif.Props.Layout
import Verif.Model.Thread
import Verif.Props.Thread
import Verif.Model.Init
import Verif.Props.Init
import Verif.Model.Rcsv
import Verif.Spec.Rcsv
import Verif.Proofs.Rcsv
import Verif.Props.Rcsv
import Verif.Model.Api
import Verif.Props.Api
import Verif.Model.FLMem
import Verif.Spec.FLMem
import Verif.Proofs.FLMem
import Verif.Proofs.FLMemStep
import Verif.Props.FLMem
import Verif.Props.FLWord
import Verif.Proofs.MCNet
import Verif.Model.SweepMem
import Verif.Proofs.SweepMem
import Verif.Props.SweepMem
import Verif.Model.RwWord
import Verif.Spec.RwWord
import Verif.Proofs.RwWord
import Verif.Props.RwWord
import Verif.Model.RcsvConc
import Verif.Proofs.RcsvConc
import Verif.Proofs.RcsvProj
import Verif.Props.RcsvConc
import Verif.Model.MCMem
import Verif.Spec.MCMem
import Verif.Proofs.MCMem
import Verif.Proofs.MCMemStep
import Verif.Proofs.MCMemSim
import Verif.Proofs.MCMemAct
import Verif.Proofs.MCMemRun
import Verif.Props.MCMem
import Verif.Model.Segment
import Verif.Spec.Segment
import Verif.Proofs.SegTyped
import Verif.Proofs.SegStep
import Verif.Proofs.SegSame
import Verif.Proofs.SegRun
import Verif.Props.Segment
import Verif.Model.Count
import Verif.Props.Count
import Verif.Model.Reuse
import Verif.Spec.Reuse
import Verif.Proofs.Reuse
import Verif.Proofs.ReuseMutex
import Verif.Props.Reuse
import Verif.Model.Fine
import Verif.Spec.Fine
import Verif.Proofs.Fine
import Verif.Proofs.FineRun
import Verif.Props.Fine
import Verif.Spec.Forever
import Verif.Proofs.Forever
import Verif.Props.Forever
import Verif.Spec.Deadlock
import Verif.Proofs.Deadlock
import Verif.Props.Deadlock
import Verif.Model.Whole
import Verif.Spec.Whole
import Verif.Proofs.Whole
import Verif.Proofs.WholeInv
import Verif.Props.Whole
import Verif.Model.Dump
import Verif.Spec.Dump
import Verif.Proofs.Dump
import Verif.Props.Dump
import Verif.Spec.MCForever
import Verif.Proofs.MCForever
import Verif.Props.MCForever
import Verif.Spec.MCOrder
import Verif.Proofs.MCOrder
import Verif.Props.MCOrder
import Verif.Spec.FLForever
import Verif.Proofs.FLForever
import Verif.Props.FLForever
import Verif.Spec.FLOrder
import Verif.Proofs.FLOrder
import Verif.Props.FLOrder
import Verif.Model.RcsvLife
import Verif.Spec.RcsvLife
import Verif.Proofs.RcsvLife
import Verif.Props.RcsvLife
import Verif.Spec.RcsvForever
import Verif.Props.RcsvForever
import Verif.Spec.RcsvOrder
import Verif.Props.RcsvOrder
import Verif.Model.RcsvHand
import Verif.Spec.RcsvHand
import Verif.Props.RcsvHand
import Verif.Model.RcsvArith
import Verif.Spec.RcsvArith
import Verif.Props.RcsvArith
import Verif.Model.Tso
import Verif.Spec.Tso
import Verif.Props.Tso
import Verif.Model.TsoUser
import Verif.Spec.TsoUser
import Verif.Props.TsoUser
import Verif.Model.RcsvFork
import Verif.Spec.RcsvFork
import Verif.Props.RcsvFork
import Verif.Model.RcsvTso
import Verif.Spec.RcsvTso
import Verif.Props.RcsvTso
import Verif.Model.Res
import Verif.Spec.Res
import Verif.Proofs.Res
import Verif.Proofs.ResMain
import Verif.Proofs.ResStep
import Verif.Props.Res
import Verif.Props.RcsvMake
import Verif.Props.MCForeverDead
import Verif.Props.MCMemForever
import Verif.Props.MCMemSweep
import Verif.Props.SegFork
import Verif.Props.FdLife
import Verif.Props.Recover
import Verif.Props.RecoverF
import Verif.Props.RecoverFLive
import Verif.Props.TsoCond
import Verif.Props.Attach
import Verif.Props.DbgConc
import Verif.Props.DumpText
