import Verif.Codec.Props
import Verif.Codec.PropsVector
import Verif.Mvcc.Props
import Verif.Mvcc.PropsGc
import Verif.Txn.PropsRead
import Verif.Txn.PropsHistory
import Verif.Txn.PropsCommit
import Verif.Txn.PropsLock
import Verif.Txn.PropsRetry
import Verif.Txn.PropsPess
import Verif.Txn.PropsScan
import Verif.Txn.PropsGc
import Verif.Tso.Props
import Verif.TsCache.Props
import Verif.AutoInc.Props
import Verif.LogStore.Props
import Verif.Latch.Props
import Verif.Region.PropsValidate
import Verif.Region.PropsSplit
import Verif.Region.PropsMerge
import Verif.CoorKv.PropsMap
import Verif.CoorKv.PropsCrash
import Verif.CoorKv.PropsLease
import Verif.CoorKv.PropsWatch
import Verif.SafePoint.Props
import Verif.MemLock.Model
import Verif.MemLock.Inv
import Verif.MemLock.Step
import Verif.MemLock.Own
import Verif.MemLock.Seen
import Verif.MemLock.Cover
import Verif.MemLock.Props
import Verif.VecIndex.Kind
import Verif.VecIndex.Model
import Verif.VecIndex.Spec
import Verif.VecIndex.KindLemmas
import Verif.VecIndex.PropsKind
import Verif.VecIndex.Agree
import Verif.VecIndex.Inv
import Verif.VecIndex.Free
import Verif.VecIndex.Props
import Verif.Replica.Spec
import Verif.Replica.Model
import Verif.Replica.Lemmas
import Verif.Replica.Inv
import Verif.Replica.Step
import Verif.Replica.Live
import Verif.Replica.Outside
import Verif.Replica.Props
import Verif.Replica.Witness
import Verif.Scan.Model
import Verif.Scan.Spec
import Verif.Scan.Lemmas
import Verif.Scan.Inv
import Verif.Scan.Step
import Verif.Scan.Good
import Verif.Scan.Own
import Verif.Scan.Life
import Verif.Scan.Hist
import Verif.Scan.Props
import Verif.Scan.PropsLife
import Verif.Scan.Witness
import Verif.Meta.Model
import Verif.Meta.Claim
import Verif.Meta.Lemmas
import Verif.Meta.Spec
import Verif.Meta.Prepare
import Verif.Meta.Refuse
import Verif.Meta.Moves
import Verif.Meta.Base
import Verif.Meta.Cond
import Verif.Meta.Inv
import Verif.Meta.Steps
import Verif.Meta.Ids
import Verif.Meta.Trace
import Verif.Meta.PropsIds
import Verif.Meta.PropsNames
import Verif.Meta.WitnessNames
import Verif.Meta.PropsApply
import Verif.Meta.WitnessApply
import Verif.Meta.Parts
import Verif.Meta.PropsDrop
import Verif.Meta.Pend
import Verif.Meta.Owned
import Verif.Meta.OwnedRun
import Verif.Meta.PropsOwned
import Verif.Meta.PropsSchemas
import Verif.Meta.WitnessDrops
import Verif.Meta.PropsCrash
import Verif.VecQuery.Model
import Verif.VecQuery.Spec
import Verif.VecQuery.Rows
import Verif.VecQuery.Hist
import Verif.VecQuery.Iter
import Verif.VecQuery.Loop
import Verif.VecQuery.Scan
import Verif.VecQuery.Fast
import Verif.VecQuery.PropsQuery
import Verif.VecQuery.PropsScan
import Verif.VecQuery.PropsFilter
import Verif.VecQuery.Search
import Verif.VecQuery.SpecSearch
import Verif.VecQuery.TopK
import Verif.VecQuery.Flat
import Verif.VecQuery.Brute
import Verif.VecQuery.PropsSearch
import Verif.VecQuery.Find
import Verif.VecQuery.PropsFind
import Verif.RegMap.Model
import Verif.RegMap.Spec
import Verif.RegMap.Scan
import Verif.RegMap.Index
import Verif.RegMap.Inv
import Verif.RegMap.Handover
import Verif.RegMap.PropsLookup
import Verif.RegMap.PropsReport
import Verif.RegMap.PropsCreate
import Verif.Job.Model
import Verif.Job.Spec
import Verif.Job.Like
import Verif.Job.Inv
import Verif.Job.Plan
import Verif.Job.Pass
import Verif.Job.Progress
import Verif.Job.Advance
import Verif.Job.PropsOrder
import Verif.Job.Shape
import Verif.Job.PropsGuard
import Verif.Job.PropsFail
import Verif.Job.PropsExclusive
import Verif.Coproc.Model
import Verif.Coproc.Spec
import Verif.Coproc.Fold
import Verif.Coproc.Plan
import Verif.Coproc.Group
import Verif.Coproc.Pages
import Verif.Coproc.Select
import Verif.Coproc.PropsAgg
import Verif.Coproc.PropsSelect
import Verif.Coproc.Schema
import Verif.Coproc.Answers
import Verif.Coproc.Progress
import Verif.Coproc.PropsReq
import Verif.AutoSplit.PropsSplit
import Verif.AutoSplit.PropsMerge
import Verif.AutoSplit.PropsCheck
import Verif.Ctl.PropsDelete
import Verif.Ctl.PropsStuck
import Verif.Ctl.WitnessDelete
import Verif.Ctl.PropsCreate
import Verif.Ctl.WitnessCreate
import Verif.Ctl.Once
import Verif.Ctl.PropsCmd
import Verif.Balance.Props
import Verif.Balance.Witness
import Verif.BalRegion.Props
import Verif.BalRegion.Witness
import Verif.Pool.Model
import Verif.Pool.Spec
import Verif.Pool.Inv
import Verif.Pool.Order
import Verif.Pool.Props
import Verif.Pool.Apply
import Verif.Pool.PropsApply
import Verif.Pool.Witness
import Verif.Backup.Model
import Verif.Backup.Spec
import Verif.Backup.BackupLemmas
import Verif.Backup.RestoreLemmas
import Verif.Backup.Props
import Verif.Backup.Witness
import Verif.RawBackup.Model
import Verif.RawBackup.Lemmas
import Verif.RawBackup.Props
import Verif.RawBackup.Witness
import Verif.RawBackup.Vector
import Verif.RawBackup.VectorLemmas
import Verif.RawBackup.PropsVector
import Verif.RawBackup.WitnessVector
import Verif.DocSearch.Model
import Verif.DocSearch.Lemmas
import Verif.DocSearch.Props
import Verif.DocSearch.Witness
import Verif.Stream.Model
import Verif.Stream.Props
import Verif.Stream.Witness
import Verif.BrTool.Model
import Verif.BrTool.Props
import Verif.BrTool.Witness
import Verif.RwLock.Model
import Verif.RwLock.Props
import Verif.RwLock.Witness
import Verif.Balance.Hours
import Verif.Balance.HoursProps
import Verif.ReadOnly.Model
import Verif.ReadOnly.Props
import Verif.Threads.Model
import Verif.Threads.Lemmas
import Verif.Threads.Props
import Verif.Threads.Witness
import Verif.Cron.Model
import Verif.Cron.Props
import Verif.MetaWatch.Model
import Verif.MetaWatch.Spec
import Verif.MetaWatch.Lemmas
import Verif.MetaWatch.Trim
import Verif.MetaWatch.Props
import Verif.VecSnap.Model
import Verif.VecSnap.Props
import Verif.FindLeader.Model
import Verif.FindLeader.Props
import Verif.FindLeader.Br
import Verif.FindLeader.BrProps
