import Verif.Spec.Basic
import Verif.Spec.Tree
import Verif.Model.Types
import Verif.Model.AMap
import Verif.Model.NodeType
import Verif.Model.TreeCache
import Verif.Model.Tree
import Verif.Model.Mock
import Verif.Model.System
import Verif.Proofs.Bits
import Verif.Proofs.NodeHash
import Verif.Proofs.Canon
import Verif.Proofs.Siblings
import Verif.Proofs.Put
import Verif.Proofs.Insert
import Verif.Proofs.InsertAt
import Verif.Proofs.InsertMain
import Verif.Proofs.PutAll
import Verif.Proofs.Freeze
import Verif.Proofs.Commit
import Verif.Proofs.Run
import Verif.Proofs.History
import Verif.Proofs.Values
import Verif.Proofs.Store
import Verif.Proofs.Sys
import Verif.Spec.History
import Verif.Model.Bytes
import Verif.Model.Proof
import Verif.Spec.Hashing
import Verif.Proofs.GetProof
import Verif.Proofs.Verify
import Verif.Spec.Reads
import Verif.Proofs.Reach
import Verif.Props.Sample
import Verif.Props.Core
import Verif.Props.Sound
import Verif.Proofs.Stats
import Verif.Props.Stale
import Verif.Spec.Node
import Verif.Props.Local
import Verif.Proofs.Update
import Verif.Proofs.ProofSim
import Verif.Proofs.UpdateSound
import Verif.Proofs.UpdateRelease
import Verif.Proofs.UpdateStep
import Verif.Props.Update
import Verif.Model.Iterator
import Verif.Spec.Iterate
import Verif.Proofs.Order
import Verif.Proofs.Iterate
import Verif.Proofs.IterNew
import Verif.Proofs.Sorted
import Verif.Props.Iterate
import Verif.Model.NibblePath
import Verif.Spec.NibblePath
import Verif.Proofs.NibblePath
import Verif.Proofs.BytesView
import Verif.Proofs.NibbleRange
import Verif.Proofs.Nib
import Verif.Props.Bytes
import Verif.Spec.Neighbour
import Verif.Model.Exclusion
import Verif.Proofs.Exclusion
import Verif.Props.Exclusion
import Verif.Spec.Range
import Verif.Proofs.Range
import Verif.Props.Range
import Verif.Model.Restore
import Verif.Proofs.RestoreBase
import Verif.Proofs.RestoreStep
import Verif.Proofs.RestoreAdd
import Verif.Proofs.RestoreNodes
import Verif.Spec.Restore
import Verif.Proofs.RestoreVerify
import Verif.Proofs.RestoreChunk
import Verif.Proofs.RestoreCommit
import Verif.Spec.RestoreRun
import Verif.Spec.RestoreCrash
import Verif.Proofs.RestoreRecover
import Verif.Proofs.RestoreFinish
import Verif.Proofs.RestoreRun
import Verif.Proofs.RestoreHonest
import Verif.Props.Restore
import Verif.Props.RestoreFinish
import Verif.Props.RestoreSample
import Verif.Proofs.RestoreCut
import Verif.Props.RestoreCrash
import Verif.Props.RestoreCrashSample
import Verif.Model.Batch
import Verif.Proofs.LastWrite
import Verif.Proofs.BatchGroups
import Verif.Proofs.BatchTree
import Verif.Proofs.BatchInsert
import Verif.Proofs.BatchSet
import Verif.Spec.Batch
import Verif.Proofs.BatchSame
import Verif.Props.Batch
import Verif.Props.BatchHashes
import Verif.Props.Writes
import Verif.Spec.Ics23
import Verif.Model.Ics23
import Verif.Proofs.Ics23Ops
import Verif.Proofs.Ics23Verify
import Verif.Proofs.Ics23Tree
import Verif.Proofs.Ics23Adjacent
import Verif.Props.Ics23
import Verif.Props.Ics23Unique
import Verif.Spec.Faults
import Verif.Proofs.Faults
import Verif.Proofs.FaultsPut
import Verif.Props.Faults
import Verif.Spec.Overwrite
import Verif.Proofs.Overwrite
import Verif.Proofs.OverwriteStep
import Verif.Props.Overwrite
import Verif.Props.OverwriteFails
import Verif.Spec.Crash
import Verif.Spec.Queries
import Verif.Proofs.Crash
import Verif.Proofs.CrashRead
import Verif.Props.Queries
import Verif.Props.Crash
import Verif.Spec.Continue
import Verif.Proofs.Continue
import Verif.Props.Continue
import Verif.Props.Strong
import Verif.Spec.PreGenesis
import Verif.Proofs.PreGenesis
import Verif.Proofs.PreHistory
import Verif.Props.PreGenesis
import Verif.Props.PreStale
import Verif.Spec.NoPanic
import Verif.Props.NoPanic
import Verif.Spec.Backend
import Verif.Proofs.Backend
import Verif.Props.Backend
import Verif.Model.Writer
import Verif.Spec.Update
import Verif.Proofs.UpdateBatch
import Verif.Props.UpdateBatch
import Verif.Spec.Borsh
import Verif.Model.Borsh
import Verif.Proofs.Borsh
import Verif.Spec.ByteStore
import Verif.Proofs.ByteStore
import Verif.Props.Borsh
import Verif.Spec.UpdateBytes
import Verif.Proofs.SortedBytes
import Verif.Props.UpdateBytes
import Verif.Props.Small
import Verif.Spec.Rollback
import Verif.Proofs.Rollback
import Verif.Proofs.Fork
import Verif.Proofs.Gap
import Verif.Props.Fork
import Verif.Props.WrongVersion
import Verif.Props.Unique
import Verif.Spec.RootRetire
import Verif.Props.RootRetire
import Verif.Spec.IterResume
import Verif.Proofs.IterResume
import Verif.Props.IterResume
import Verif.Spec.PrunedReads
import Verif.Proofs.PrunedReads
import Verif.Props.PrunedReads
import Verif.Props.IterDuring
import Verif.Spec.ProofShape
import Verif.Props.ProofShape
import Verif.Spec.Work
import Verif.Proofs.ReadWork
import Verif.Proofs.WriteWork
import Verif.Props.Work
import Verif.Spec.LightClient
import Verif.Props.LightClient
import Verif.Spec.Layout
import Verif.Proofs.Layout
import Verif.Props.Layout
import Verif.Spec.StateSync
import Verif.Props.StateSync
import Verif.Spec.UserMap
import Verif.Proofs.UserMap
import Verif.Props.UserMap
import Verif.Model.Print
import Verif.Spec.Print
import Verif.Props.Print
import Verif.Props.Space
import Verif.Spec.Sha256
import Verif.Props.Vectors
import Verif.Props.Conformance
import Verif.Model.MockFail
import Verif.Spec.Writers
import Verif.Proofs.Writers
import Verif.Proofs.MockFail
import Verif.Props.Writers
import Verif.Props.WriteFail
import Verif.Model.Shuffle
import Verif.Spec.Shuffle
import Verif.Proofs.Shuffle
import Verif.Proofs.ShuffleCalls
import Verif.Proofs.ShuffleStore
import Verif.Proofs.Lookups
import Verif.Props.Shuffle
import Verif.Model.RestoreBackend
import Verif.Spec.RestoreBackend
import Verif.Proofs.RestoreBackend
import Verif.Props.RestoreBackend
import Verif.Spec.Json
import Verif.Spec.Serde
import Verif.Model.Serde
import Verif.Proofs.Json
import Verif.Proofs.Serde
import Verif.Props.Serde
import Verif.Spec.SerdeText
import Verif.Props.SerdeText
import Verif.Spec.BorshBytes
import Verif.Spec.KeyOrder
import Verif.Model.PurgeScan
import Verif.Props.KeyOrder
import Verif.Props.BorshBytes
import Verif.Spec.BackendLife
import Verif.Proofs.BackendLife
import Verif.Props.BackendLife
import Verif.Spec.RestoreOver
import Verif.Proofs.RestoreOver
import Verif.Props.RestoreOver
import Verif.Props.RestoreNew
import Verif.Props.RestoreWorks
import Verif.Props.RestoreLife
import Verif.Props.WitnessA
import Verif.Props.WitnessB
import Verif.Props.WitnessC
