import Verif.Selection.Props
import Verif.Event.Props
import Verif.ListModel.FilteredProps
import Verif.ListModel.Filters
import Verif.Registry.Props
import Verif.Small.RefCount
import Verif.Small.Promise
import Verif.Py.Dict
import Verif.Small.Tasks
import Verif.Small.Validator
import Verif.Pool.Props
import Verif.Pool.Close
import Verif.Pool.Dispatcher
import Verif.Stream.NetProps
import Verif.Stream.Timed
import Verif.Stream.Follow
import Verif.Binding.PropertyModel
import Verif.Binding.Binding
import Verif.Binding.Attribute
import Verif.Binding.ListBinding
import Verif.Binding.TwoWay
import Verif.Binding.Reentrant
import Verif.Structured.Model
import Verif.Structured.Values
import Verif.Structured.CopyFrom
import Verif.Structured.Changed
import Verif.Persist.Dict
import Verif.Persist.Context
import Verif.Persist.Modified
import Verif.Persist.ModifiedExact
import Verif.Persist.Storage
import Verif.Persist.StorageExact
import Verif.Persist.Recorder
import Verif.Geometry.Rect
import Verif.Geometry.Pretty
import Verif.Geometry.Range
import Verif.Geometry.Labels
import Verif.Geometry.LabelsExact
import Verif.Geometry.Rotate
import Verif.Geometry.Mixed
import Verif.Geometry.LogTicker
import Verif.Converter.Integer
import Verif.Converter.Scaled
import Verif.Converter.Uuid
import Verif.Converter.Datetime
import Verif.Converter.Fuzzy
import Verif.Event.Threads
import Verif.Structured.Sequence
import Verif.Structured.Attributes
import Verif.Persist.Copy
import Verif.Persist.Lookup
import Verif.Persist.Accessor
import Verif.Small.QueueThreads
import Verif.Small.PromiseThreads
import Verif.Stream.Reentrant
import Verif.Small.RefThreads
import Verif.Geometry.SizeArith
import Verif.ListModel.Chained
import Verif.Persist.RecorderTree
import Verif.Small.SetThreads
import Verif.ListModel.FilteredThreads
import Verif.Registry.Iterate
import Verif.Small.EventLoop
import Verif.ListModel.SelectionShift
import Verif.Stream.CombineThreads
import Verif.ListModel.Reentrant
import Verif.Persist.Reread
import Verif.Persist.Attributes
import Verif.ListModel.Resort
import Verif.Persist.Isolation
import Verif.Persist.RoundTrip
import Verif.ListModel.ChangeBlocks
import Verif.Binding.TupleIndex
import Verif.Structured.Once
import Verif.Structured.Own
import Verif.Structured.Exactly
import Verif.Structured.CopyExactly
import Verif.Geometry.TickCount
import Verif.ListModel.FilterRaises
import Verif.ListModel.FlattenedThreads
import Verif.Persist.Custom
import Verif.Registry.Reentrant
import Verif.Pool.Interval
import Verif.Converter.General
import Verif.Persist.Reading
import Verif.Geometry.Doubles
import Verif.Geometry.PrettyDoubles
import Verif.Geometry.LabelDoubles
import Verif.Persist.ModifiedTime
import Verif.ListModel.KeyRaises
import Verif.Geometry.LogOverflow
import Verif.Geometry.PointRect
import Verif.Geometry.MapDoubles
import Verif.Geometry.LogDoubles
import Verif.Binding.Threads
import Verif.Structured.Exact
import Verif.ListModel.FlattenedExact
import Verif.Registry.Exact
import Verif.ListModel.FilteredExact
import Verif.ListModel.OrderExact
import Verif.Selection.Extend
import Verif.Selection.Alias
import Verif.Geometry.RotateDoubles
import Verif.Geometry.DistanceDoubles
import Verif.Geometry.LogInside
import Verif.Converter.Path
import Verif.Converter.Strict
import Verif.Stream.Raising
import Verif.Binding.RaisingCmp
import Verif.Converter.Fixed
import Verif.Structured.ArrayEvents
import Verif.ListModel.MapRaises
import Verif.ListModel.MappedThreads
import Verif.Converter.Whole
import Verif.Stream.ValueThreads
import Verif.Stream.ConcatAgain
import Verif.Registry.Threads
import Verif.Structured.Closing
import Verif.Selection.Reentrant
import Verif.Selection.Restyle
import Verif.Binding.Closing
import Verif.ListModel.MappedReplace
import Verif.Geometry.FromFloat
import Verif.Stream.Clock
import Verif.ListModel.FilteredReplace
import Verif.Persist.RecorderClose
import Verif.Persist.RecorderLate
import Verif.Stream.CombineRaising
import Verif.ListModel.FlattenedReplace
import Verif.Converter.Limits
import Verif.Geometry.RangeOverflow
import Verif.ListModel.AnyKeys
import Verif.Stream.PropReentrant
import Verif.Persist.Callbacks
import Verif.Persist.Subscribers
import Verif.ListModel.MappedReentrant
import Verif.ListModel.FilteredReentrant
import Verif.ListModel.FlattenedReentrant
import Verif.Stream.NetReentrant
import Verif.ListModel.BlocksReentrant
import Verif.Structured.Reentrant
import Verif.Stream.ConcatReentrant
import Verif.Registry.Single
import Verif.Binding.Targets
import Verif.Stream.Giving
import Verif.Persist.RecorderReentrant
import Verif.ListModel.Kept
import Verif.ListModel.KeptMapped
import Verif.Geometry.Text
import Verif.Binding.CloseThreads
import Verif.ListModel.MappedContainers
import Verif.ListModel.SortThreads
import Verif.Persist.Registered
import Verif.Stream.FnReentrant
import Verif.Stream.FalseSource
import Verif.Structured.AnyValue
import Verif.ListModel.Containers
import Verif.ListModel.FlattenedContainers
import Verif.Persist.Redefine
import Verif.Binding.ListClose
import Verif.Binding.UpdateClose
import Verif.Persist.RedefineItems
import Verif.Structured.BuildAny
import Verif.Structured.Restore
import Verif.Geometry.EqAny
