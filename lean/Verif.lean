import Verif.Spec
import Verif.SpecPos
import Verif.SpecSorted
import Verif.ForestLemmas
import Verif.Common
import Verif.NumConv
import Verif.NumConvLemmas
import Verif.Lex
import Verif.Path
import Verif.PathDesc
import Verif.Sorted
import Verif.MP.Model
import Verif.MP.Steps
import Verif.MP.Inv
import Verif.MP.Rename
import Verif.MP.Reorder
import Verif.MP.Count
import Verif.MP.Add
import Verif.MP.Move
import Verif.MP.Delete
import Verif.MP.Query
import Verif.MP.Check
import Verif.MP.SortedTree
import Verif.MP.Example
import Verif.Props.NumConv
import Verif.Props.MPAdd
import Verif.Props.MPMove
import Verif.SpecNav
import Verif.Props.MPDelete
import Verif.Props.MPQuery
import Verif.Props.MPCheck
import Verif.Props.Pos
import Verif.SpecHistory
import Verif.PosLemmas
import Verif.MP.History
import Verif.Props.MPHistory
import Verif.NS.Model
import Verif.NS.Nest
import Verif.NS.Shift
import Verif.NS.Jump
import Verif.NS.Place
import Verif.NS.Query
import Verif.NS.Resolve
import Verif.NS.Add
import Verif.NS.Move
import Verif.NS.Delete
import Verif.SortedHead
import Verif.NS.Example
import Verif.Props.NSTree
import Verif.Nav
import Verif.TreeLemmas
import Verif.SpecSortedHistory
import Verif.NS.Nav
import Verif.NS.Check
import Verif.NS.History
import Verif.Props.NSQuery
import Verif.Props.NSCheck
import Verif.Props.NSHistory
import Verif.Props.MPHistorySorted
import Verif.DFS
import Verif.AL.Model
import Verif.AL.Base
import Verif.AL.Query
import Verif.AL.Place
import Verif.AL.Add
import Verif.AL.Move
import Verif.AL.Delete
import Verif.AL.Sorted
import Verif.AL.Example
import Verif.AL.History
import Verif.Props.ALTree
import Verif.Props.ALQuery
import Verif.Props.ALHistory
import Verif.PathMap
import Verif.SpecShuffle
import Verif.Shuffle
import Verif.LT.Model
import Verif.LT.Labels
import Verif.LT.Inv
import Verif.LT.Shift
import Verif.LT.NewPath
import Verif.LT.Objects
import Verif.LT.Place
import Verif.LT.Add
import Verif.LT.Move
import Verif.LT.Delete
import Verif.LT.Query
import Verif.LT.Example
import Verif.Props.LTLabel
import Verif.Props.LTTree
import Verif.Props.LTQuery
import Verif.NearForest
import Verif.LT.History
import Verif.Props.LTHistory
import Verif.Props.Agree
import Verif.SpecMirror
import Verif.MP.Mirror
import Verif.NS.Mirror
import Verif.Props.MPMirror
import Verif.Props.NSMirror
import Verif.LT.Mirror
import Verif.Props.LTMirror
import Verif.SpecRender
import Verif.Annotated
import Verif.AnnotatedModel
import Verif.Props.Annotated
import Verif.Props.GroupCount
import Verif.MP.FixModel
import Verif.MP.FixGroup
import Verif.MP.FixLoop
import Verif.MP.FixRound
import Verif.MP.FixQueue
import Verif.Props.MPFix
import Verif.SpecDump
import Verif.DumpModel
import Verif.DumpLemmas
import Verif.DumpForest
import Verif.RoundTrip
import Verif.MP.DumpModel
import Verif.MP.Load
import Verif.MP.LoadForest
import Verif.MP.Dump
import Verif.Props.MPDump
import Verif.MP.LoadExact
import Verif.MP.LoadCreate
import Verif.Props.MPBulk
import Verif.LoadGeneric
import Verif.NS.DumpModel
import Verif.NS.Dump
import Verif.Props.NSDump
import Verif.AL.DumpModel
import Verif.AL.Dump
import Verif.Props.ALDump
import Verif.LT.DumpModel
import Verif.LT.Dump
import Verif.Props.LTDump
import Verif.CreateArgs
import Verif.Props.CreateArgs
import Verif.Props.LoadKeys
import Verif.Props.Fresh
import Verif.SpecForm
import Verif.FormModel
import Verif.FormLemmas
import Verif.Props.MPForm
import Verif.NS.Stale
import Verif.Props.NSForm
import Verif.Props.ALForm
import Verif.Props.LTForm
import Verif.Props.FormSubmit
import Verif.Props.AdminList
import Verif.SpecBehind
import Verif.MP.SortedAny
import Verif.Props.SortedAny
import Verif.Txn
import Verif.TxnLemmas
import Verif.TxnGrow
import Verif.TxnPick
import Verif.MP.Concurrent
import Verif.Props.MPConcurrent
import Verif.Props.Concurrent
import Verif.Props.ConcurrentRoot
import Verif.Props.ConcurrentExample
import Verif.SpecHeight
import Verif.Height
import Verif.Props.MPLength
import Verif.SpecLoop
import Verif.Loop
import Verif.Props.Loop
import Verif.Props.TreeFields
import Verif.LT.PathText
import Verif.Props.LTText
import Verif.MP.Engine
import Verif.MP.Like
import Verif.Props.MPLike
import Verif.MP.Rowwise
import Verif.Props.MPRowwise
import Verif.MP.SortedMoveAny
import Verif.Props.SortedMoveAny
import Verif.Props.Save
import Verif.SpecApi
import Verif.ApiModel
import Verif.ApiLemmas
import Verif.Props.NSApi
import Verif.Props.MPApi
import Verif.Props.ALApi
import Verif.Props.LTApi
import Verif.SpecVeto
import Verif.VetoModel
import Verif.Props.Veto
import Verif.SibLoop
import Verif.MP.SibObject
import Verif.NS.Objects
import Verif.Props.SibLoop
import Verif.SpecCached
import Verif.AL.Objects
import Verif.Props.Cached
import Verif.AL.Zero
import Verif.Props.KeyZero
import Verif.Classes
import Verif.AL.Classes
import Verif.LT.Classes
import Verif.NS.Classes
import Verif.MP.Classes
import Verif.Props.Classes
import Verif.NS.Range
import Verif.AL.Range
import Verif.Props.Range
import Verif.TxnParts
import Verif.SpecParts
import Verif.NS.Concurrent
import Verif.AL.Concurrent
import Verif.Props.ConcurrentMove
import Verif.RowParts
import Verif.MP.ConcurrentMove
import Verif.Props.ConcurrentMoveMP
import Verif.LT.Concurrent
import Verif.Props.ConcurrentMoveLT
import Verif.Props.Deleted
import Verif.LT.Growth
import Verif.Props.LabelGrowth
import Verif.MP.Growth
import Verif.Props.PathRoom
import Verif.SpecPage
import Verif.AdminPage
import Verif.PageLemmas
import Verif.PageInv
import Verif.PageFlags
import Verif.Props.AdminPage
import Verif.SpecLimit
import Verif.LT.Limit
import Verif.Props.LTLimit
import Verif.Props.RootLimit
import Verif.SpecAnswer
import Verif.AdminForm
import Verif.Props.AdminForm
import Verif.SpecSearch
import Verif.AdminSearch
import Verif.Props.AdminSearch
import Verif.SpecInherited
import Verif.AdminInherited
import Verif.Props.AdminInherited
import Verif.Auto
import Verif.SpecTogether
import Verif.MP.ConcurrentDelete
import Verif.NS.ConcurrentDelete
import Verif.AL.ConcurrentDelete
import Verif.LT.ConcurrentDelete
import Verif.Props.ConcurrentDelete
import Verif.SpecMoveLoop
import Verif.MP.MoveLoop
import Verif.NS.MoveLoop
import Verif.AL.MoveLoop
import Verif.LT.MoveLoop
import Verif.Props.MoveLoop
import Verif.SpecDeleteLoop
import Verif.DeleteLoopModel
import Verif.Props.DeleteLoop
import Verif.SpecCopy
import Verif.CopyModel
import Verif.CopyLemmas
import Verif.Props.Copy
import Verif.MigrateModel
import Verif.MigrateLemmas
import Verif.Props.Migrate
import Verif.SpecArrange
import Verif.ArrangeLemmas
import Verif.ArrangeModel
import Verif.NS.Arrange
import Verif.Props.Arrange
import Verif.SpecUndo
import Verif.UndoLemmas
import Verif.Props.Undo
import Verif.CutModel
import Verif.CutLemmas
import Verif.Props.Cut
import Verif.SpecDissolve
import Verif.DissolveLemmas
import Verif.DissolveModel
import Verif.NS.Dissolve
import Verif.MP.Dissolve
import Verif.LT.Dissolve
import Verif.Props.Dissolve
import Verif.SpecLinks
import Verif.LinksModel
import Verif.LinksLemmas
import Verif.Props.Links
import Verif.SpecResort
import Verif.ResortModel
import Verif.ResortLemmas
import Verif.Props.Resort
import Verif.SpecOutline
import Verif.OutlineModel
import Verif.OutlineLemmas
import Verif.Props.Outline
import Verif.SpecLoadSorted
import Verif.LoadSortedLemmas
import Verif.Props.LoadSorted
import Verif.SpecUnsorted
import Verif.UnsortedLemmas
import Verif.Props.Unsorted
import Verif.SpecMergeSorted
import Verif.MergeSortedLemmas
import Verif.Props.MergeSorted
import Verif.DispatchModel
import Verif.Props.Dispatch
import Verif.SpecCopySorted
import Verif.Props.CopySorted
import Verif.SpecLoadRoom
import Verif.LoadRoomLemmas
import Verif.Props.LoadRoom
import Verif.RefreshModel
import Verif.SpecRefresh
import Verif.Props.Refresh
import Verif.SpecCutSorted
import Verif.Props.CutSorted
import Verif.WanderModel
import Verif.Props.Wander
import Verif.Props.WanderDelete
import Verif.SpecGuests
import Verif.GuestLemmas
import Verif.Props.Guests
import Verif.SpecTwin
import Verif.TwinLemmas
import Verif.Props.Twins
import Verif.SpecRename
import Verif.RekeyLemmas
import Verif.Props.Rekey
