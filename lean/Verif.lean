import Verif.Model.Accumulator
import Verif.Model.Base
import Verif.Model.Clone
import Verif.Model.CloneLive
import Verif.Model.CopyF
import Verif.Model.Dot
import Verif.Model.EdgeHeap
import Verif.Model.EncodeTo
import Verif.Model.Filter
import Verif.Model.Graph
import Verif.Model.Index
import Verif.Model.Iso
import Verif.Model.Iter
import Verif.Model.Json
import Verif.Model.LabelHeap
import Verif.Model.Lists
import Verif.Model.Live
import Verif.Model.LiveMany
import Verif.Model.LiveProps
import Verif.Model.Lookup
import Verif.Model.NodeMapAlone
import Verif.Model.Path
import Verif.Model.PathHeap
import Verif.Model.Pattern
import Verif.Model.PlanRuns
import Verif.Model.PropHeap
import Verif.Model.Queries
import Verif.Model.Recover
import Verif.Model.RecoverCopy
import Verif.Model.RecoverDecode
import Verif.Model.RecoverNil
import Verif.Model.RecoverWorld
import Verif.Model.SetJson
import Verif.Model.Sets
import Verif.Model.Show
import Verif.Model.StringSet
import Verif.Model.StringTable
import Verif.Model.VPath
import Verif.Model.Value
import Verif.Model.World
import Verif.Spec.Alone
import Verif.Spec.AloneCalls
import Verif.Spec.Clone
import Verif.Spec.Conditions
import Verif.Spec.CopyF
import Verif.Spec.Dot
import Verif.Spec.EdgeTrack
import Verif.Spec.Feed
import Verif.Spec.Filed
import Verif.Spec.Graph
import Verif.Spec.IndexConditions
import Verif.Spec.IndexExact
import Verif.Spec.IndexTrack
import Verif.Spec.IndexValues
import Verif.Spec.Iso
import Verif.Spec.Iter
import Verif.Spec.Json
import Verif.Spec.JsonGraph
import Verif.Spec.JsonShape
import Verif.Spec.LabelConditions
import Verif.Spec.LabelLeft
import Verif.Spec.ListOk
import Verif.Spec.Listing
import Verif.Spec.Live
import Verif.Spec.LiveEdges
import Verif.Spec.LiveLabels
import Verif.Spec.LiveMany
import Verif.Spec.LiveProps
import Verif.Spec.Lookup
import Verif.Spec.Match
import Verif.Spec.NodeMapAlone
import Verif.Spec.OrderedSet
import Verif.Spec.Ordinary
import Verif.Spec.Path
import Verif.Spec.PathHeap
import Verif.Spec.Pattern
import Verif.Spec.Recover
import Verif.Spec.RecoverDecode
import Verif.Spec.RecoverNil
import Verif.Spec.RecoverWorld
import Verif.Spec.Same
import Verif.Spec.Show
import Verif.Spec.Stale
import Verif.Spec.StringSet
import Verif.Spec.StringTable
import Verif.Spec.VPath
import Verif.Spec.World
import Verif.Proofs.Adj
import Verif.Proofs.AllEdges
import Verif.Proofs.BTree
import Verif.Proofs.Base
import Verif.Proofs.Clone
import Verif.Proofs.CloneLive
import Verif.Proofs.CloneLoops
import Verif.Proofs.Closed
import Verif.Proofs.Core
import Verif.Proofs.Detach
import Verif.Proofs.Dot
import Verif.Proofs.EdgeHeap
import Verif.Proofs.EdgeHeapGraph
import Verif.Proofs.EdgeIter
import Verif.Proofs.EdgeMap
import Verif.Proofs.EdgeMapSizes
import Verif.Proofs.EdgeMono
import Verif.Proofs.EdgeTrack
import Verif.Proofs.FiledEdges
import Verif.Proofs.Filter
import Verif.Proofs.Find
import Verif.Proofs.Gone
import Verif.Proofs.IndexAlways
import Verif.Proofs.IndexExact
import Verif.Proofs.IndexKind
import Verif.Proofs.IndexTrack
import Verif.Proofs.Indexes
import Verif.Proofs.Iso
import Verif.Proofs.Iter
import Verif.Proofs.JsonAccept
import Verif.Proofs.JsonDecode
import Verif.Proofs.JsonEncode
import Verif.Proofs.JsonLoad
import Verif.Proofs.JsonOdd
import Verif.Proofs.JsonRead
import Verif.Proofs.JsonRound
import Verif.Proofs.JsonShape
import Verif.Proofs.JsonText
import Verif.Proofs.Kept
import Verif.Proofs.LabelHeap
import Verif.Proofs.LabelIndex
import Verif.Proofs.LabelLeft
import Verif.Proofs.Listing
import Verif.Proofs.Lists
import Verif.Proofs.LiveAny
import Verif.Proofs.LiveAnyLoop
import Verif.Proofs.LiveBoth
import Verif.Proofs.LiveEach
import Verif.Proofs.LiveEdges
import Verif.Proofs.LiveEdgesRun
import Verif.Proofs.LiveLabels
import Verif.Proofs.LiveMany
import Verif.Proofs.LiveNodes
import Verif.Proofs.LiveProps
import Verif.Proofs.LivePropsEdges
import Verif.Proofs.LivePropsLoop
import Verif.Proofs.LivePropsScan
import Verif.Proofs.LivePropsScanEdges
import Verif.Proofs.LivePropsTotal
import Verif.Proofs.LiveReturns
import Verif.Proofs.MapInv
import Verif.Proofs.Misfiled
import Verif.Proofs.Mono
import Verif.Proofs.NodeList
import Verif.Proofs.NodeListExact
import Verif.Proofs.Ordinary
import Verif.Proofs.Path
import Verif.Proofs.PathHeap
import Verif.Proofs.PatternAnswer
import Verif.Proofs.PatternGlue
import Verif.Proofs.PatternMatch
import Verif.Proofs.PatternPath
import Verif.Proofs.PatternPlan
import Verif.Proofs.PatternReport
import Verif.Proofs.PatternRun
import Verif.Proofs.PatternStart
import Verif.Proofs.PatternTrail
import Verif.Proofs.PatternTwice
import Verif.Proofs.PlanRuns
import Verif.Proofs.PropIndex
import Verif.Proofs.Recover
import Verif.Proofs.RecoverCopy
import Verif.Proofs.RecoverDecode
import Verif.Proofs.RecoverEdge
import Verif.Proofs.RecoverIx
import Verif.Proofs.RecoverStuck
import Verif.Proofs.RecoverSub
import Verif.Proofs.RecoverWorld
import Verif.Proofs.RecoverWorldIx
import Verif.Proofs.Rename
import Verif.Proofs.RenameState
import Verif.Proofs.RenameWorld
import Verif.Proofs.Same
import Verif.Proofs.Sets
import Verif.Proofs.Show
import Verif.Proofs.SpecAlone
import Verif.Proofs.Stale
import Verif.Proofs.Times
import Verif.Proofs.Total
import Verif.Proofs.VPath
import Verif.Proofs.Value
import Verif.Proofs.ValueOrder
import Verif.Proofs.World
import Verif.Proofs.WorldAlone
import Verif.Proofs.WorldCore
import Verif.Proofs.WorldListing
import Verif.Proofs.WorldTotal
import Verif.Props.C01C04
import Verif.Props.C01Exact
import Verif.Props.C01Listing
import Verif.Props.C04Always
import Verif.Props.C05C09
import Verif.Props.C07Exact
import Verif.Props.C10C11
import Verif.Props.C12C16
import Verif.Props.C13Always
import Verif.Props.C13Exact
import Verif.Props.C16Always
import Verif.Props.C17C18
import Verif.Props.C19
import Verif.Props.C20C21C46
import Verif.Props.C22
import Verif.Props.C23
import Verif.Props.C24C27
import Verif.Props.C28
import Verif.Props.C29Bound
import Verif.Props.C29C33
import Verif.Props.C30Listed
import Verif.Props.C30Starts
import Verif.Props.C31
import Verif.Props.C32Exact
import Verif.Props.C33Repeated
import Verif.Props.C35C36
import Verif.Props.C36Listed
import Verif.Props.C37C38
import Verif.Props.C38Several
import Verif.Props.C39C41
import Verif.Props.C39Listed
import Verif.Props.C41Odd
import Verif.Props.C42
import Verif.Props.C43
import Verif.Props.C44
import Verif.Props.C45
import Verif.Props.C46Left
import Verif.Props.C47
import Verif.Props.C49C50
import Verif.Props.C49Exact
import Verif.Props.C50All
import Verif.Props.C51
import Verif.Props.C51C64False
import Verif.Props.C51Exact
import Verif.Props.C52
import Verif.Props.C53
import Verif.Props.C53Exact
import Verif.Props.C54C55
import Verif.Props.C56
import Verif.Props.C56Explicit
import Verif.Props.C57
import Verif.Props.C58
import Verif.Props.C59
import Verif.Props.C60
import Verif.Props.C61
import Verif.Props.C61Each
import Verif.Props.C61Scan
import Verif.Props.C62
import Verif.Props.C63
import Verif.Props.C64
import Verif.Props.C65
import Verif.Props.C65Returns
import Verif.Props.C66
import Verif.Props.C67
import Verif.Props.C67Symbols
import Verif.Props.C68
import Verif.Props.C69
import Verif.Props.C70
import Verif.Props.C71
import Verif.Props.C72
import Verif.Props.C73
import Verif.Props.C74
import Verif.Props.C75
import Verif.Props.C76
import Verif.Props.C77
import Verif.Props.C78
import Verif.Props.C79
import Verif.Props.C80
import Verif.Props.C80Indexes
import Verif.Props.C80Labels
import Verif.Props.C81
import Verif.Props.C81GoesOn
import Verif.Props.CopyLive
import Verif.Props.Listed
