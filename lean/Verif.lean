import Verif.Model.AnyStorage
import Verif.Model.Basic
import Verif.Model.Binary
import Verif.Model.InMemory
import Verif.Model.Linked
import Verif.Model.Metered
import Verif.Model.Msb
import Verif.Model.PathIter
import Verif.Model.PathUser
import Verif.Model.Position
import Verif.Model.Prefix
import Verif.Model.Print
import Verif.Model.Reference
import Verif.Model.Sparse
import Verif.Model.Storage
import Verif.Model.Sum
import Verif.Model.TestData
import Verif.Model.Verify
import Verif.Proofs.AnyStorage
import Verif.Proofs.AnyStorageAppend
import Verif.Proofs.AnyStorageStale
import Verif.Proofs.AnyStorageWild
import Verif.Proofs.Binary
import Verif.Proofs.BinaryDesk
import Verif.Proofs.BinaryLoaded
import Verif.Proofs.BinaryMachine
import Verif.Proofs.BinaryRetry
import Verif.Proofs.BinaryRoot
import Verif.Proofs.BinaryRun
import Verif.Proofs.BinaryTops
import Verif.Proofs.BinaryWhole
import Verif.Proofs.CachedProof
import Verif.Proofs.Concurrent
import Verif.Proofs.ConcurrentBinary
import Verif.Proofs.ConcurrentLive
import Verif.Proofs.ConcurrentSparse
import Verif.Proofs.ConcurrentSparseLive
import Verif.Proofs.ConcurrentSum
import Verif.Proofs.ConcurrentUsers
import Verif.Proofs.ConcurrentUsersTrees
import Verif.Proofs.Corrupt
import Verif.Proofs.Counts
import Verif.Proofs.Exec
import Verif.Proofs.Faults
import Verif.Proofs.LastLeaf
import Verif.Proofs.Linked
import Verif.Proofs.Memory
import Verif.Proofs.Metered
import Verif.Proofs.Msb
import Verif.Proofs.Path
import Verif.Proofs.PathAny
import Verif.Proofs.PathEnds
import Verif.Proofs.Pointers
import Verif.Proofs.Position
import Verif.Proofs.Print
import Verif.Proofs.Profiles
import Verif.Proofs.Progress
import Verif.Proofs.ProofSize
import Verif.Proofs.Pruned
import Verif.Proofs.Reference
import Verif.Proofs.Replay
import Verif.Proofs.ReplayBinary
import Verif.Proofs.ReplaySparse
import Verif.Proofs.Rfc6962
import Verif.Proofs.SparseAny
import Verif.Proofs.SparseCanon
import Verif.Proofs.SparseCommit
import Verif.Proofs.SparseContents
import Verif.Proofs.SparseCorrupt
import Verif.Proofs.SparseCounts
import Verif.Proofs.SparseDelete
import Verif.Proofs.SparseErrors
import Verif.Proofs.SparseGraft
import Verif.Proofs.SparseInner
import Verif.Proofs.SparseInnerDelete
import Verif.Proofs.SparseInv
import Verif.Proofs.SparseLinked
import Verif.Proofs.SparseMachine
import Verif.Proofs.SparseMany
import Verif.Proofs.SparseNode
import Verif.Proofs.SparsePath
import Verif.Proofs.SparseRebuild
import Verif.Proofs.SparseRecover
import Verif.Proofs.SparseRun
import Verif.Proofs.SparseSessions
import Verif.Proofs.SparseShared
import Verif.Proofs.SparseSim
import Verif.Proofs.SparseTree
import Verif.Proofs.SparseUnsteady
import Verif.Proofs.SparseUpdate
import Verif.Proofs.Stretches
import Verif.Proofs.Sum
import Verif.Proofs.SumDesk
import Verif.Proofs.SumMachine
import Verif.Proofs.SumWhole
import Verif.Proofs.Tables
import Verif.Proofs.TablesMoment
import Verif.Proofs.TapeLive
import Verif.Proofs.Text
import Verif.Proofs.UnknownRoot
import Verif.Proofs.Verify
import Verif.Proofs.VerifySound
import Verif.Proofs.WrongCount
import Verif.Props.AnyStorage
import Verif.Props.AnyStorageAppend
import Verif.Props.AnyStorageStale
import Verif.Props.AnyStorageWild
import Verif.Props.Binary
import Verif.Props.BinaryDesk
import Verif.Props.BinaryLoaded
import Verif.Props.BinaryMachine
import Verif.Props.BinaryRetry
import Verif.Props.BinaryTops
import Verif.Props.BinaryWhole
import Verif.Props.CachedProof
import Verif.Props.Concurrent
import Verif.Props.ConcurrentBinary
import Verif.Props.ConcurrentLive
import Verif.Props.ConcurrentSparse
import Verif.Props.ConcurrentSparseLive
import Verif.Props.ConcurrentSum
import Verif.Props.ConcurrentUsers
import Verif.Props.Corrupt
import Verif.Props.Faults
import Verif.Props.FewRecords
import Verif.Props.InMemory
import Verif.Props.Kinds
import Verif.Props.LastLeaf
import Verif.Props.Linked
import Verif.Props.LoadCount
import Verif.Props.Memory
import Verif.Props.Metered
import Verif.Props.PathUser
import Verif.Props.Pointers
import Verif.Props.Position
import Verif.Props.PositionPath
import Verif.Props.Print
import Verif.Props.Profiles
import Verif.Props.Progress
import Verif.Props.ProofSize
import Verif.Props.Pruned
import Verif.Props.Reference
import Verif.Props.Shared
import Verif.Props.SparseContents
import Verif.Props.SparseCorrupt
import Verif.Props.SparseCounts
import Verif.Props.SparseErrors
import Verif.Props.SparseInner
import Verif.Props.SparseInnerDelete
import Verif.Props.SparseLinked
import Verif.Props.SparseMachine
import Verif.Props.SparseMany
import Verif.Props.SparseRebuild
import Verif.Props.SparseRoot
import Verif.Props.SparseSessions
import Verif.Props.SparseShared
import Verif.Props.SparseStore
import Verif.Props.SparseUnsteady
import Verif.Props.Storage
import Verif.Props.Sum
import Verif.Props.SumCommit
import Verif.Props.SumDesk
import Verif.Props.SumMachine
import Verif.Props.SumWhole
import Verif.Props.Tables
import Verif.Props.TablesMoment
import Verif.Props.TestData
import Verif.Props.UnknownRoot
import Verif.Props.Verify
import Verif.Props.VerifyCount
import Verif.Props.VerifyTotal
import Verif.Spec.AnyStorage
import Verif.Spec.AnyStorageAppend
import Verif.Spec.AnyStorageStale
import Verif.Spec.BinaryApi
import Verif.Spec.BinaryDesk
import Verif.Spec.BinaryLoaded
import Verif.Spec.BinaryMachine
import Verif.Spec.BinaryTops
import Verif.Spec.BinaryWhole
import Verif.Spec.Bits
import Verif.Spec.BlockPath
import Verif.Spec.Concurrent
import Verif.Spec.ConcurrentBinary
import Verif.Spec.ConcurrentLive
import Verif.Spec.ConcurrentSparse
import Verif.Spec.ConcurrentSparseLive
import Verif.Spec.ConcurrentSum
import Verif.Spec.ConcurrentUsers
import Verif.Spec.Corrupt
import Verif.Spec.Faults
import Verif.Spec.InMemoryApi
import Verif.Spec.Kinds
import Verif.Spec.Limits
import Verif.Spec.LinkedApi
import Verif.Spec.LinkedNodes
import Verif.Spec.MapApi
import Verif.Spec.Metered
import Verif.Spec.PathUser
import Verif.Spec.Profiles
import Verif.Spec.Progress
import Verif.Spec.ProofSize
import Verif.Spec.Pruned
import Verif.Spec.ReferenceApi
import Verif.Spec.Rfc6962
import Verif.Spec.Sha256
import Verif.Spec.Shared
import Verif.Spec.SparseApi
import Verif.Spec.SparseBranch
import Verif.Spec.SparseContents
import Verif.Spec.SparseCorrupt
import Verif.Spec.SparseCounts
import Verif.Spec.SparseErrors
import Verif.Spec.SparseGraft
import Verif.Spec.SparseLinked
import Verif.Spec.SparseMachine
import Verif.Spec.SparseMany
import Verif.Spec.SparseShared
import Verif.Spec.SparseStorage
import Verif.Spec.SparseTree
import Verif.Spec.SparseUnsteady
import Verif.Spec.Stretches
import Verif.Spec.SumApi
import Verif.Spec.SumDesk
import Verif.Spec.SumMachine
import Verif.Spec.SumTree
import Verif.Spec.SumWhole
import Verif.Spec.Tables
import Verif.Spec.TestData
import Verif.Spec.Text
import Verif.Spec.Verifier
import Verif.Tests.BinaryFixtures
import Verif.Tests.SparseFixtures
import Verif.Tests.TestData
import Verif.Tests.ToyHash
import Verif.Tests.Unit
import Verif.Tests.UnitBinary
import Verif.Tests.UnitCommon
import Verif.Tests.UnitSparse
import Verif.Tests.Util
