import Verif.Basic
import Verif.Model.Decode
import Verif.Model.Encode
import Verif.Proofs.Num
import Verif.Proofs.Hex
import Verif.Proofs.Stream
import Verif.Proofs.Person
import Verif.Proofs.Loops
import Verif.Proofs.Clean
import Verif.Proofs.RoundTrip
import Verif.Proofs.Parse
import Verif.Props.Blob
import Verif.Props.Tree
import Verif.Props.Tag
import Verif.Props.Commit
import Verif.Props.Failing
import Verif.Props.Headers
import Verif.Props.Links
import Verif.Props.Person
import Verif.Props.Robust
import Verif.Props.Encode
import Verif.Proofs.Sim
import Verif.Props.Chunks
import Verif.Props.Delivery
import Verif.Props.Long
import Verif.Model.Node
import Verif.Model.Iter
import Verif.Model.Assemble
import Verif.Model.EncodeNode
import Verif.Model.Writer
import Verif.Props.Iter
import Verif.Props.Writer
import Verif.Props.Build
import Verif.Props.View
import Verif.Props.Dispatch
import Verif.Model.TreeHeap
import Verif.Props.TreeHeap
import Verif.Model.Builders
import Verif.Props.Mismatch
import Verif.Spec.Settle
import Verif.Proofs.Lines
import Verif.Props.Settle
import Verif.Model.Calls
import Verif.Spec.Calls
import Verif.Proofs.Calls
import Verif.Props.Calls
import Verif.Model.Lookup
import Verif.Spec.Lookup
import Verif.Proofs.Lookup
import Verif.Props.Lookup
import Verif.Spec.Accept
import Verif.Proofs.Accept
import Verif.Proofs.AcceptTag
import Verif.Proofs.AcceptCommit
import Verif.Props.Accept
import Verif.Model.Alias
import Verif.Spec.Alias
import Verif.Proofs.Alias
import Verif.Proofs.MemBuf
import Verif.Props.Alias
import Verif.Model.Sharing
import Verif.Proofs.Sharing
import Verif.Props.Sharing
import Verif.Model.Typed
import Verif.Props.Typed
import Verif.Model.Stdout
import Verif.Spec.Stdout
import Verif.Props.Stdout
import Verif.Spec.Cut
import Verif.Proofs.Cut
import Verif.Props.Cut
import Verif.Spec.Order
import Verif.Proofs.Items
import Verif.Props.Order
import Verif.Spec.Survive
import Verif.Proofs.Survive
import Verif.Proofs.SurviveCommit
import Verif.Props.Survive
import Verif.Model.Kinds
import Verif.Spec.Kinds
import Verif.Spec.Gen
import Verif.Proofs.Gen
import Verif.Props.Kinds
import Verif.Props.Gen
import Verif.Model.Graph
import Verif.Spec.Graph
import Verif.Proofs.Graph
import Verif.Props.Graph
import Verif.Props.Store
import Verif.Model.Faces
import Verif.Spec.Faces
import Verif.Props.Faces
import Verif.Spec.Fold
import Verif.Proofs.LineSim
import Verif.Proofs.Fold
import Verif.Props.Fold
import Verif.Spec.Feed
import Verif.Proofs.Feed
import Verif.Proofs.FeedTypes
import Verif.Props.Feed
import Verif.Model.TreeCalls
import Verif.Spec.TreeFeed
import Verif.Props.TreeFeed
import Verif.Proofs.Lapse
import Verif.Props.Lapse
import Verif.Props.SettleExact
import Verif.Model.Handles
import Verif.Spec.Handles
import Verif.Proofs.Mem
import Verif.Proofs.Handles
import Verif.Proofs.HandlesReady
import Verif.Proofs.HandlesStep
import Verif.Proofs.HandlesCall
import Verif.Proofs.HandlesLift
import Verif.Proofs.HandlesRun
import Verif.Proofs.HandlesFlat
import Verif.Props.Handles
import Verif.Proofs.HandlesAfter
import Verif.Proofs.HandlesNeat
import Verif.Proofs.HandlesView
import Verif.Props.HandlesBuilt
import Verif.Spec.TreePlay
import Verif.Props.TreePlay
import Verif.Model.TreeHandles
import Verif.Spec.TreeHandles
import Verif.Proofs.TreeHandles
import Verif.Props.TreeHandles
import Verif.Model.Reset
import Verif.Spec.Reset
import Verif.Proofs.Reset
import Verif.Proofs.ResetActs
import Verif.Props.Reset
import Verif.Model.TreeReset
import Verif.Spec.TreeReset
import Verif.Proofs.TreeReset
import Verif.Props.TreeReset
import Verif.Model.Foreign
import Verif.Spec.Foreign
import Verif.Proofs.Foreign
import Verif.Props.Foreign
import Verif.Model.TreeForeign
import Verif.Spec.TreeForeign
import Verif.Proofs.TreeForeign
import Verif.Props.TreeForeign
import Verif.Model.Rest
import Verif.Props.Rest
import Verif.Spec.Taken
import Verif.Proofs.Taken
import Verif.Spec.Shown
import Verif.Proofs.Shown
import Verif.Proofs.ShownAll
import Verif.Props.Taken
import Verif.Spec.TakenTree
import Verif.Props.TakenTree
import Verif.Model.Details
import Verif.Spec.Details
import Verif.Proofs.Details
import Verif.Props.Details
import Verif.Model.Reserve
import Verif.Spec.Reserve
import Verif.Proofs.Reserve
import Verif.Props.Reserve
import Verif.Model.Blobs
import Verif.Spec.Blobs
import Verif.Proofs.Blobs
import Verif.Props.Blobs
import Verif.Props.DeepEqual
import Verif.Props.Basicnode
import Verif.Model.Depth
import Verif.Spec.Depth
import Verif.Proofs.Depth
import Verif.Props.Depth
import Verif.Proofs.Growth
import Verif.Props.Growth
import Verif.Proofs.Zlib
import Verif.Props.Zlib
import Verif.Proofs.Faults
import Verif.Props.Faults
import Verif.Props.Signed
import Verif.Props.Select
import Verif.Props.Multi
import Verif.Props.Sorted
import Verif.Props.GitRead
import Verif.Spec.Fsck
import Verif.Props.Fsck
import Verif.Model.Transform
import Verif.Spec.Transform
import Verif.Proofs.Transform
import Verif.Props.Transform
import Verif.Props.TransformUse
import Verif.Model.Work
import Verif.Spec.Work
import Verif.Proofs.Work
import Verif.Proofs.WorkBound
import Verif.Props.Work
import Verif.Spec.GitWrite
import Verif.Props.GitWrite
import Verif.Model.Word
import Verif.Spec.Word
import Verif.Props.Word
import Verif.Props.EncWork
import Verif.Props.Verify
import Verif.Spec.Built
import Verif.Props.Built
import Verif.Spec.Wide
import Verif.Props.Wide
import Verif.Spec.Same
import Verif.Props.Same
import Verif.Props.Sign
import Verif.Spec.TagSign
import Verif.Props.TagSign
import Verif.Spec.Outcome
import Verif.Props.Outcome
import Verif.Props.BlobMade
import Verif.Spec.Taking
import Verif.Props.Taking
import Verif.Spec.Merge
import Verif.Props.Merge
import Verif.Spec.MergeVerify
import Verif.Props.MergeVerify
import Verif.Spec.Readme
import Verif.Props.Readme
import Verif.Props.Message
import Verif.Spec.Fits
import Verif.Proofs.Pieces
import Verif.Proofs.PiecesCommit
import Verif.Props.Fits
import Verif.Spec.Again
import Verif.Proofs.Again
import Verif.Props.Again
import Verif.Spec.AgainTree
import Verif.Proofs.AgainTree
import Verif.Props.AgainTree
import Verif.Props.Given
import Verif.Props.StoreAny
import Verif.Props.TagVerify
import Verif.Props.VerifyAny
import Verif.Spec.EntryStream
import Verif.Props.EntryStream
import Verif.Spec.TypeWord
import Verif.Props.TypeWord
import Verif.Props.Behind
import Verif.Tests
