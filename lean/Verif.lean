import Verif.Common.Ord
import Verif.Common.History
import Verif.Common.Tac
import Verif.Compare.Model
import Verif.Compare.Props
import Verif.Stack.Model
import Verif.Stack.Lemmas
import Verif.Stack.Props
import Verif.Common.DLL
import Verif.Queue.ListModel
import Verif.Queue.ListLemmas
import Verif.Queue.ListProps
import Verif.Queue.RingModel
import Verif.Queue.RingLemmas
import Verif.Queue.RingProps
import Verif.Heap.Model
import Verif.Heap.Lemmas
import Verif.Heap.Props
import Verif.Common.GoMap
import Verif.Map.HashModel
import Verif.Map.HashProps
import Verif.Map.LinkedModel
import Verif.Map.LinkedLemmas
import Verif.Map.LinkedProps
import Verif.Bloom.Model
import Verif.Bloom.Lemmas
import Verif.Bloom.Props
import Verif.Bloom.Value
import Verif.Bloom.ValueProps
import Verif.List.ArrayModel
import Verif.List.ArrayLemmas
import Verif.List.ArrayProps
import Verif.List.ArraySweep
import Verif.List.LinkedModel
import Verif.List.LinkedLemmas
import Verif.List.LinkedWalk
import Verif.List.LinkedProps
import Verif.List.LinkedSweep
import Verif.Common.Guard
import Verif.Tree.Base
import Verif.Tree.AvlModel
import Verif.Tree.AvlLemmas
import Verif.Tree.AvlSpec
import Verif.Tree.AvlIter
import Verif.Tree.AvlReach
import Verif.Tree.AvlScan
import Verif.Tree.AvlProps
import Verif.Tree.AvlHeap
import Verif.Tree.AvlHeapLemmas
import Verif.Tree.AvlHeapSim
import Verif.Tree.AvlHeapMap
import Verif.Tree.AvlHeapProps
import Verif.Tree.AvlHeapIter
import Verif.Tree.AvlHeapIterLemmas
import Verif.Tree.AvlHeapIterRun
import Verif.Tree.AvlHeapIterProps
import Verif.Tree.IndexHeap
import Verif.Tree.IndexHeapLemmas
import Verif.Tree.IndexHeapPut
import Verif.Tree.IndexHeapRemove
import Verif.Tree.IndexHeapRange
import Verif.Tree.IndexHeapTrim
import Verif.Tree.IndexHeapSplit
import Verif.Tree.IndexHeapRun
import Verif.Tree.IndexHeapForest
import Verif.Tree.IndexHeapProps
import Verif.Tree.IndexHeapIter
import Verif.Tree.IndexHeapIterLemmas
import Verif.Tree.IndexHeapIterRun
import Verif.Tree.IndexHeapIterProps
import Verif.Tree.TreeSetModel
import Verif.Tree.TreeSetProps
import Verif.Tree.AvlsModel
import Verif.Tree.AvlsLemmas
import Verif.Tree.AvlsProps
import Verif.Tree.SizeModel
import Verif.Tree.SizeLemmas
import Verif.Tree.SizeRank
import Verif.Tree.SizeTrim
import Verif.Tree.IndexModel
import Verif.Tree.IndexLemmas
import Verif.Tree.IndexIter
import Verif.Tree.IndexProps
import Verif.Tree.IndexDeep
import Verif.Tree.IndexThan
import Verif.Heap.Cost
import Verif.Tree.CostModel
import Verif.Tree.CostProps
import Verif.Map.OrderedModel
import Verif.Map.OrderedProps
import Verif.Utils.Model
import Verif.Utils.Props
import Verif.Queue.PriorityModel
import Verif.Queue.PriorityLemmas
import Verif.Queue.PriorityIter
import Verif.Queue.PriorityProps
import Verif.Tree.TreeListModel
import Verif.Tree.TreeListThread
import Verif.Tree.TreeListPut
import Verif.Tree.TreeListRange
import Verif.Tree.TreeListLemmas
import Verif.Tree.TreeListIter
import Verif.Tree.TreeListSet
import Verif.Tree.TreeListPanic
import Verif.Tree.TreeListProps
import Verif.Skip.Model
import Verif.Skip.Heap
import Verif.Skip.Core
import Verif.Skip.Ops
import Verif.Skip.Refine
import Verif.Skip.Iter
import Verif.Skip.Sets
import Verif.Skip.Props
import Verif.Conc.Machine
import Verif.Conc.Lin
import Verif.Conc.Progress
import Verif.Conc.Skip
import Verif.Conc.Props
import Verif.Conc.Head
import Verif.Conc.HeadProps
import Verif.Heap.Weak
import Verif.Heap.Prefix
import Verif.Graph.Model
import Verif.Graph.Spec
import Verif.Graph.Search
import Verif.Graph.Inv
import Verif.Graph.Back
import Verif.Graph.Run
import Verif.Graph.Reach
import Verif.Graph.Short
import Verif.Graph.Repeat
import Verif.Graph.Props
import Verif.Graph.Life
import Verif.Graph.Text
import Verif.Graph.TextSpec
import Verif.Graph.TextLemmas
import Verif.Graph.TextProps
import Verif.Tree.ExperModel
import Verif.Tree.ExperLemmas
import Verif.Tree.ExperProps
import Verif.Conc.Ends
import Verif.Conc.Callback
import Verif.Skip.Live
import Verif.Skip.LiveProps
import Verif.Tree.TreeListLive
import Verif.Tree.ListHeap
import Verif.Tree.ListHeapGhost
import Verif.Tree.ListHeapLemmas
import Verif.Tree.ListHeapRange
import Verif.Tree.ListHeapRun
import Verif.Tree.ListHeapPanic
import Verif.Tree.ListHeapBuild
import Verif.Tree.ListHeapForest
import Verif.Tree.ListHeapProps
import Verif.Queue.PriorityHeap
import Verif.Queue.PriorityHeapRot
import Verif.Queue.PriorityHeapSim
import Verif.Queue.PriorityHeapRun
import Verif.Queue.PriorityHeapProps
import Verif.Queue.PriorityHeapIter
import Verif.Queue.PriorityHeapIterRun
import Verif.Queue.PriorityHeapIterProps
import Verif.Tree.AvlsHeap
import Verif.Tree.AvlsHeapSim
import Verif.Tree.AvlsHeapProps
import Verif.Tree.AvlsHeapIter
import Verif.Tree.AvlsHeapIterRun
import Verif.Tree.AvlsHeapIterProps
import Verif.Print.Model
import Verif.Print.Props
import Verif.Print.Picture
import Verif.Conc.Race
import Verif.Tree.ListHeapRef
import Verif.Tree.ListHeapRefProps
import Verif.Tree.ExperIterProps
import Verif.Common.Amort
import Verif.Queue.RingAlloc
import Verif.Heap.Alloc
import Verif.Stack.Alloc
import Verif.Alloc.Props
import Verif.Compare.Float
import Verif.Compare.FloatProps
import Verif.Common.Callback
import Verif.Tree.AvlCallback
import Verif.Tree.AvlCallbackLemmas
import Verif.Tree.AvlCallbackProps
import Verif.List.Callback
import Verif.List.CallbackProps
import Verif.Tree.TraverseWith
import Verif.Tree.TraverseWithLemmas
import Verif.Tree.TraverseWithTrees
import Verif.Tree.TraverseWithProps
import Verif.Tree.TraverseWithListProps
import Verif.Tree.TraverseWithSeen
import Verif.Common.Stop
import Verif.Tree.AvlStop
import Verif.Tree.AvlStopProps
import Verif.Tree.StopProps
import Verif.Tree.IndexStop
import Verif.Tree.IndexStopProps
import Verif.Tree.ListStop
import Verif.Tree.ListStopProps
import Verif.Heap.Stop
import Verif.Heap.StopProps
import Verif.Tree.Threshold
import Verif.Tree.ThresholdProps
import Verif.Skip.StopProps
import Verif.Tree.AvlDeep
import Verif.Tree.AvlDeepMap
import Verif.Tree.AvlDeepProps
import Verif.Map.NanModel
import Verif.Map.NanLemmas
import Verif.Map.NanProps
import Verif.Bloom.Ratio
import Verif.Bloom.Empty
import Verif.Tree.AvlShallow
import Verif.List.LinkedMove
import Verif.Tree.ShallowMore
