import Verif.Transactional.Props
import Verif.PeerCount.Props
import Verif.ProofLeader.Props
import Verif.Stats.Props
import Verif.Median.Props
import Verif.Dedup.Props
import Verif.BlockMeta.Props
import Verif.BlockProof.Props
import Verif.QueueKey.Props
import Verif.QueueDiffTl.Props
import Verif.Queue.Examples
import Verif.QueueIter.Props
import Verif.Commit.Model
import Verif.Commit.Spec
import Verif.Commit.Lemmas
import Verif.Commit.History
import Verif.Commit.Chain
import Verif.Commit.Run
import Verif.Commit.Schedule
import Verif.Commit.Agree
import Verif.Commit.Links
import Verif.Commit.Task
import Verif.Commit.Outputs
import Verif.Commit.OneChain
import Verif.Commit.Props
import Verif.Commit.Executable
import Verif.Commit.Examples
import Verif.Signing.Model
import Verif.Signing.Inv
import Verif.Signing.Restart
import Verif.Signing.Props
import Verif.Signing.Examples
import Verif.Semaphore.Model
import Verif.Semaphore.Inv
import Verif.Semaphore.Steps
import Verif.Semaphore.Props
import Verif.Semaphore.Examples
import Verif.Dht.Model
import Verif.Dht.Distance
import Verif.Dht.Props
import Verif.Dht.Examples
import Verif.Subs.ForwardSet
import Verif.Subs.Model
import Verif.Subs.AddrInv
import Verif.Subs.RegInv
import Verif.Subs.ClientInv
import Verif.Subs.SubInv
import Verif.Subs.SubStep
import Verif.Subs.OpInv
import Verif.Subs.Props
import Verif.Subs.Examples
import Verif.Counters.Model
import Verif.Counters.Spec
import Verif.Counters.Lemmas
import Verif.Counters.Props
import Verif.Counters.Examples
import Verif.CellStore.Model
import Verif.CellStore.Spec
import Verif.CellStore.Base
import Verif.CellStore.StoreWalk
import Verif.CellStore.StoreCommit
import Verif.CellStore.RemoveWalk
import Verif.CellStore.RemoveCommit
import Verif.CellStore.Flush
import Verif.CellStore.Import
import Verif.CellStore.Ops
import Verif.CellStore.Props
import Verif.CellStore.Examples
import Verif.NurseryWal.Model
import Verif.NurseryWal.Spec
import Verif.NurseryWal.Format
import Verif.NurseryWal.Nur
import Verif.NurseryWal.Inv
import Verif.NurseryWal.Step
import Verif.NurseryWal.Props
import Verif.NurseryWal.Examples
import Verif.Merge.Spec
import Verif.Merge.Refcount
import Verif.Merge.Status
import Verif.Merge.StatusProps
import Verif.Merge.StatusMerge
import Verif.Merge.StatusApi
import Verif.Merge.JournalPoint
import Verif.Merge.Examples
import Verif.Journal.Model
import Verif.Journal.Spec
import Verif.Journal.Batch
import Verif.Journal.Store
import Verif.Journal.Props
import Verif.Journal.Examples
import Verif.IntrusiveList.Model
import Verif.IntrusiveList.Spec
import Verif.IntrusiveList.Props
import Verif.IntrusiveList.Examples
import Verif.MsgBuffer.Model
import Verif.MsgBuffer.Spec
import Verif.MsgBuffer.Lemmas
import Verif.MsgBuffer.Inv
import Verif.MsgBuffer.SlotInv
import Verif.MsgBuffer.Visit
import Verif.MsgBuffer.Loops
import Verif.MsgBuffer.Index
import Verif.MsgBuffer.Props
import Verif.MsgBuffer.History
import Verif.MsgBuffer.Examples
import Verif.Validator.Model
import Verif.Validator.Spec
import Verif.Validator.Inv
import Verif.Validator.Steps
import Verif.Validator.Run
import Verif.Validator.Cancel
import Verif.Validator.Keep
import Verif.Validator.Props
import Verif.Validator.Examples
import Verif.Verifier.Model
import Verif.Verifier.Spec
import Verif.Verifier.Lemmas
import Verif.Verifier.Struct
import Verif.Verifier.Facts
import Verif.Verifier.Props
import Verif.Verifier.Verdict
import Verif.Verifier.Skip
import Verif.Verifier.Examples
import Verif.Producer.Model
import Verif.Producer.Spec
import Verif.Producer.Lemmas
import Verif.Producer.Made
import Verif.Producer.Roles
import Verif.Producer.Verified
import Verif.Producer.Valid
import Verif.Producer.Props
import Verif.Producer.Examples
import Verif.Threshold.Model
import Verif.Threshold.Spec
import Verif.Threshold.Inv
import Verif.Threshold.Step
import Verif.Threshold.Props
import Verif.Threshold.Examples
import Verif.Anchors.Model
import Verif.Anchors.Props
import Verif.Anchors.Examples
import Verif.CumulStats.Model
import Verif.CumulStats.Spec
import Verif.CumulStats.QLemmas
import Verif.CumulStats.Lemmas
import Verif.CumulStats.Inv
import Verif.CumulStats.Steps
import Verif.CumulStats.Steps2
import Verif.CumulStats.Props
import Verif.CumulStats.Examples
import Verif.QueueStateFile.Model
import Verif.QueueStateFile.Spec
import Verif.QueueStateFile.Lemmas
import Verif.QueueStateFile.Props
import Verif.QueueStateFile.Examples
import Verif.QueueFill.Model
import Verif.QueueFill.Spec
import Verif.QueueFill.Lemmas
import Verif.QueueFill.Sort
import Verif.QueueFill.Fill
import Verif.QueueFill.Props
import Verif.QueueFill.Reset
import Verif.QueueFill.Examples
import Verif.Strider.Model
import Verif.Strider.Spec
import Verif.Strider.Inv
import Verif.Strider.Steps
import Verif.Strider.Props
import Verif.Strider.Once
import Verif.Strider.Handles
import Verif.Strider.Progress
import Verif.Strider.Fixed
import Verif.Strider.Examples
import Verif.Providers.Model
import Verif.Providers.Props
import Verif.Providers.Select
import Verif.Providers.Examples
import Verif.BlocksGc.Model
import Verif.BlocksGc.Inv
import Verif.BlocksGc.Props
import Verif.BlocksGc.TailModel
import Verif.BlocksGc.TailProps
import Verif.BlocksGc.SaveModel
import Verif.BlocksGc.SaveProps
import Verif.BlocksGc.Examples
import Verif.ShardStates.Model
import Verif.ShardStates.Inv
import Verif.ShardStates.Props
import Verif.ShardStates.Examples
import Verif.McTracker.Model
import Verif.McTracker.Props
import Verif.McTracker.Examples
import Verif.Rpc.TxModel
import Verif.Rpc.TxInv
import Verif.Rpc.TxProps
import Verif.Rpc.TxDb
import Verif.Rpc.TxSys
import Verif.Rpc.TxSysProps
import Verif.Rpc.TxMain
import Verif.Rpc.TxRerun
import Verif.Rpc.CodeModel
import Verif.Rpc.CodeProps
import Verif.Rpc.ShardReset
import Verif.Rpc.CodeMain
import Verif.Rpc.Codec
import Verif.Rpc.BlockTxs
import Verif.Rpc.Examples
import Verif.Archives.Examples
import Verif.ArchiveFile.Examples
import Verif.ExtReader.Examples
import Verif.StateFile.Examples
import Verif.PeerSchedule.Examples
import Verif.AnchorCache.Examples
import Verif.ActivePeers.Examples
import Verif.Dialing.Examples
import Verif.KnownPeers.Examples
import Verif.BlocksCache.Examples
import Verif.Cert.Examples
import Verif.BcastFilter.Examples
import Verif.Limiter.Examples
import Verif.InputBuffer.Examples
import Verif.Bans.Examples
import Verif.Slasher.Examples
import Verif.SplitMerge.Examples
import Verif.PersistentSave.Examples
import Verif.CollationStep.Examples
import Verif.Broadcaster.Examples
import Verif.Downloader.Examples
import Verif.OrderedMap.Examples
import Verif.Neighbours.Examples
import Verif.RateLimit.Examples
import Verif.Lookup.Examples
import Verif.SharedFut.Examples
import Verif.QueryCache.Props
import Verif.Reclaim.Props
import Verif.Slicer.Examples
import Verif.RoundWatch.Props
