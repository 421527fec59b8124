import Verif.Basic
import Verif.Path
import Verif.Props.Path
import Verif.Json
import Verif.JsonText
import Verif.Props.Json
import Verif.Uuid
import Verif.Reference
import Verif.Metadata
import Verif.Source
import Verif.Props.Serial
import Verif.Props.MetadataMap
import Verif.Asking
import Verif.Props.Asking
import Verif.Props.Compare
import Verif.Names
import Verif.Props.Names
import Verif.Monad
import Verif.Git
import Verif.Heap
import Verif.Mapper
import Verif.Content
import Verif.Store
import Verif.Quiet
import Verif.AnyOutcome
import Verif.Clean
import Verif.WriteOk
import Verif.WriteFail
import Verif.Read
import Verif.Frame
import Verif.Session
import Verif.Example
import Verif.Within
import Verif.History
import Verif.Props.Session
import Verif.Purge
import Verif.Props.Saved
import Verif.Props.Writes
import Verif.Classes
import Verif.Walk
import Verif.Built
import Verif.TreeOps
import Verif.TreeAdd
import Verif.TreeRemove
import Verif.Props.Tree
import Verif.Visit
import Verif.Listing
import Verif.Props.Listing
import Verif.Edit
import Verif.Props.FileTree
import Verif.WriteFrame
import Verif.Parts
import Verif.Props.Maps
import Verif.Copy
import Verif.CopyLoop
import Verif.CopyDone
import Verif.Props.Copy
import Verif.TreeUpdater
import Verif.Props.Updater
import Verif.ObjRef
import Verif.FlushOps
import Verif.Props.References
import Verif.Lock
import Verif.Props.Lock
import Verif.Concurrent
import Verif.Interleave
import Verif.System
import Verif.Props.Concurrent
import Verif.Common
import Verif.CommonOps
import Verif.CommonRun
import Verif.CommonWhole
import Verif.Desk
import Verif.DeskSteps
import Verif.Props.Common
import Verif.Blocked
import Verif.Props.Failures
import Verif.WriteTotal
import Verif.Props.Success
import Verif.Props.Retry
import Verif.Crash
import Verif.Props.Crash
import Verif.Batch
import Verif.Props.Batch
import Verif.Canon
import Verif.Neat
import Verif.Check
import Verif.Props.Canon
import Verif.Protect
import Verif.Lifetime
import Verif.Props.Protect
import Verif.Props.Isolation
import Verif.Props.Remote
import Verif.Props.Stored
import Verif.Props.Unget
import Verif.Props.Subtree
import Verif.Props.Runs
import Verif.SourceOps
import Verif.Props.Sources
import Verif.Props.Hollow
import Verif.Local
import Verif.Repos
import Verif.Props.Repos
import Verif.Props.Publish
import Verif.TwinOps
import Verif.DeskSave
import Verif.Work
import Verif.Meanwhile
import Verif.Halfway
import Verif.Crew
import Verif.Props.Whole
import Verif.Props.Sessions
import Verif.Props.Overlap
import Verif.Props.Locked
import Verif.Kempt
import Verif.Answers
import Verif.Lively
import Verif.Props.Lively
import Verif.Hashes
import Verif.Props.Again
import Verif.Props.Together
import Verif.Props.Rough
import Verif.Props.EndToEnd
import Verif.Props.Process
import Verif.Props.Tended
