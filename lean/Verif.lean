import Verif.Base
import Verif.RBTree.Model
import Verif.RBTree.Rep
import Verif.RBTree.Rotate
import Verif.RBTree.Insert
import Verif.RBTree.Iter
import Verif.RBTree.InsertOps
import Verif.RBTree.Search
import Verif.RBTree.Bounds
import Verif.RBTree.EraseFix
import Verif.RBTree.EraseUnlink
import Verif.RBTree.Erase
import Verif.RBTree.Move
import Verif.RBTree.ModelExtra
import Verif.RBTree.Copy
import Verif.RBTree.CopyOp
import Verif.Set.Client
import Verif.Set.Inv
import Verif.Set.Steps
import Verif.Set.Refine
import Verif.Set.PropLemmas
import Verif.Set.Props
import Verif.LinkedList.Model
import Verif.LinkedList.Heap
import Verif.LinkedList.State
import Verif.LinkedList.Ops
import Verif.LinkedList.Ops2
import Verif.LinkedList.Ops3
import Verif.LinkedList.Compose
import Verif.LinkedList.Merge
import Verif.LinkedList.SortSpec
import Verif.LinkedList.Sort
import Verif.LinkedList.Client
import Verif.LinkedList.Sim
import Verif.LinkedList.Quiet
import Verif.LinkedList.PropLemmas
import Verif.LinkedList.Demo
import Verif.LinkedList.Props
import Verif.LinkedList.Props2
import Verif.LinkedList.Props3
import Verif.Nested.Model
import Verif.Nested.Ops
import Verif.Nested.Copy
import Verif.Nested.Client
import Verif.Nested.Sim
import Verif.Nested.PropLemmas
import Verif.Nested.Demo
import Verif.Nested.Props
import Verif.Vector.Sim
import Verif.Vector.Demo
import Verif.Vector.Props
import Verif.Vector.Props2
import Verif.Vector.Props3
import Verif.Vector.Props4
import Verif.Vector.Props5
import Verif.StaleError
import Verif.SharedPtr.Model
import Verif.SharedPtr.State
import Verif.SharedPtr.Release
import Verif.SharedPtr.Calc
import Verif.SharedPtr.Ops
import Verif.SharedPtr.Weak
import Verif.SharedPtr.Make
import Verif.SharedPtr.Client
import Verif.SharedPtr.Count
import Verif.SharedPtr.Demo
import Verif.SharedPtr.Props
import Verif.SharedPtr.Props2
import Verif.SharedPtr.Props3
import Verif.SharedPtr.Any
import Verif.SharedPtr.AnyUse
import Verif.SharedPtr.AnyOps
import Verif.SharedPtr.AnyCalls
import Verif.SharedPtr.AnyExec
import Verif.SharedPtr.Props4
import Verif.SharedPtr.ModelDepth
import Verif.SharedPtr.Depth
import Verif.SharedPtr.DepthProps
import Verif.Threads.Model
import Verif.Threads.Inv
import Verif.Threads.Props
import Verif.Threads.Seq
import Verif.Algorithm.Model
import Verif.Algorithm.Spec
import Verif.Algorithm.Props
import Verif.Helpers.UninitCopy
import Verif.Helpers.Construct
import Verif.Exceptions.Basic
import Verif.Exceptions.VectorModel
import Verif.Exceptions.Vector
import Verif.Exceptions.ListModel
import Verif.Exceptions.List
import Verif.RBTree.NoCmp
import Verif.RBTree.Hint
import Verif.RBTree.HintAny
import Verif.RBTree.HintOps
import Verif.Set.Hint
import Verif.RBTree.ModelEqual
import Verif.RBTree.EqualOps
import Verif.RBTree.EqualIns
import Verif.Multi.Client
import Verif.Multi.Steps
import Verif.Multi.Props
import Verif.RBTree.ModelSwap
import Verif.RBTree.SwapOps
import Verif.RBTree.CompareOps
import Verif.RBTree.VerifyOps
import Verif.Full.Client
import Verif.Full.Steps
import Verif.Full.Props
import Verif.RBTree.HintBad
import Verif.Full.HintProps
import Verif.Quiet
import Verif.Told
import Verif.RBTree.Quiet
import Verif.RBTree.Told
import Verif.LinkedList.Told
import Verif.Vector.Told
import Verif.Report
import Verif.Stack
import Verif.RBTree.ModelDepth
import Verif.RBTree.Depth
import Verif.RBTree.DepthOps
import Verif.Full.DepthClient
import Verif.Full.Depth
import Verif.ReadOnly
import Verif.RBTree.Readers
import Verif.Full.Query
import Verif.LinkedList.Readers
import Verif.LinkedList.Query
import Verif.Vector.Readers
import Verif.Vector.Query
import Verif.Own.Model
import Verif.Own.Client
import Verif.Own.Steps
import Verif.Own.Props
import Verif.Alias.Base
import Verif.LinkedList.Alias
import Verif.LinkedList.AliasProps
import Verif.RBTree.Alias
import Verif.Full.Alias
import Verif.Own.Any
import Verif.Local
import Verif.Fixed
import Verif.RBTree.Local
import Verif.LinkedList.Local
import Verif.LinkedList.Fixed
import Verif.LinkedList.Separate
import Verif.Vector.Local
import Verif.Vector.Separate
import Verif.Full.Local
import Verif.VectorOf.Model
import Verif.VectorOf.Rel
import Verif.VectorOf.Leaf
import Verif.VectorOf.Elems
import Verif.VectorOf.Funs
import Verif.VectorOf.Client
import Verif.VectorOf.Inv
import Verif.VectorOf.Step
import Verif.VectorOf.PropLemmas
import Verif.VectorOf.Demo
import Verif.VectorOf.Props
import Verif.VectorOf.Nest
import Verif.VectorOf.Lists
import Verif.VectorOf.Shared
import Verif.VectorOf.NestDemo
import Verif.VectorOf.NestProps
import Verif.NodeOf.Base
import Verif.NodeOf.Rel
import Verif.NodeOf.Elems
import Verif.ListOf.Model
import Verif.ListOf.Links
import Verif.ListOf.Funs
import Verif.ListOf.Client
import Verif.ListOf.Inv
import Verif.ListOf.Step
import Verif.ListOf.PropLemmas
import Verif.ListOf.Demo
import Verif.ListOf.Props
import Verif.ListOf.Nest
import Verif.ListOf.NestProps
import Verif.NodeOf.More
import Verif.TreeOf.Model
import Verif.TreeOf.Links
import Verif.TreeOf.Funs
import Verif.TreeOf.Build
import Verif.TreeOf.Client
import Verif.TreeOf.Abs
import Verif.TreeOf.Inv
import Verif.TreeOf.Step
import Verif.TreeOf.PropLemmas
import Verif.TreeOf.Demo
import Verif.TreeOf.Props
import Verif.TreeOf.Nest
import Verif.TreeOf.NestOrder
import Verif.TreeOf.NestDemo
import Verif.TreeOf.NestProps
import Verif.NodeOf.Does
import Verif.ListOf.Refs
import Verif.ListOf.RefProps
import Verif.TreeOf.Refs
import Verif.TreeOf.RefProps
import Verif.VectorOf.Runs
import Verif.VectorOf.Asks
import Verif.VectorOf.Foot
import Verif.VectorOf.Sums
import Verif.VectorOf.RefDemo
import Verif.VectorOf.RefProps
import Verif.Vector.Sized
import Verif.Vector.SizedProps
import Verif.Vector.Anywhere
import Verif.VectorOf.Insert
import Verif.VectorOf.InsertRuns
import Verif.VectorOf.InsertLemmas
import Verif.VectorOf.InsertDemo
import Verif.VectorOf.InsertProps
import Verif.VectorOf.Range
import Verif.VectorOf.RangeDemo
import Verif.VectorOf.RangeProps
import Verif.VectorOf.ThrowsProps
import Verif.VectorOf.ThrowsModel
import Verif.VectorOf.Throws
import Verif.ListOf.ThrowsModel
import Verif.ListOf.Throws
import Verif.ListOf.ThrowsProps
import Verif.ListOf.ThrowsWrong
import Verif.Errors.Model
import Verif.Errors.Props
import Verif.VectorOf.Weak
import Verif.TreeOf.WeakProps
import Verif.TreeOf.SharedProps
import Verif.VectorOf.Equal
import Verif.TreeOf.EqProps
import Verif.TreeOf.OrderProps
import Verif.Own.Assign
import Verif.Grows
import Verif.LinkedList.Asks
import Verif.RBTree.Keep
import Verif.RBTree.Asks
import Verif.RBTree.AsksCopy
import Verif.Full.Asks
import Verif.ListOf.Asks
import Verif.TreeOf.Asks
import Verif.ListOf.Costs
import Verif.TreeOf.Costs
import Verif.Vector.Asks
import Verif.Vector.AsksProps
import Verif.Mute
import Verif.RBTree.Mute
import Verif.LinkedList.Mute
import Verif.Full.Costs
import Verif.LinkedList.Costs
import Verif.RBTree.ModelMove
import Verif.Full.MoveAlloc
import Verif.Own.SetProgram
import Verif.TreeOf.Range
import Verif.Multi.Value
import Verif.RBTree.ModelSteps
import Verif.RBTree.Steps
import Verif.Full.IterCost
import Verif.RBTree.ModelRot
import Verif.RBTree.Rot
import Verif.RBTree.RotOps
import Verif.Full.RotCost
import Verif.RBTree.Phi
import Verif.Full.RotAmort
import Verif.TreeOf.Verify
import Verif.TreeOf.WalkCost
import Verif.RBTree.ModelRotAll
import Verif.RBTree.RotAll
import Verif.Full.RotAll
import Verif.RBTree.Bulk
import Verif.Full.Bulk
import Verif.RBTree.RotErase
import Verif.Full.RotErase
import Verif.TreeOf.ModelDepth
import Verif.TreeOf.DepthSim
import Verif.TreeOf.Depth
import Verif.VectorOf.Growth
import Verif.VectorOf.Constructs
import Verif.VectorOf.RangeCost
import Verif.NodeOf.Within
import Verif.ListOf.Constructs
import Verif.TreeOf.Constructs
import Verif.TreeOf.RangeMakes
