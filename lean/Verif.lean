import Verif.Model.Machine
import Verif.Model.Util
import Verif.Model.Builder
import Verif.Model.Sequence
import Verif.Model.Decode
import Verif.Model.Uncompress
import Verif.Model.Enumerator
import Verif.Model.Contains
import Verif.Model.Select
import Verif.Model.NextGeq
import Verif.Model.NextGeqEnumerator
import Verif.Model.Intersection
import Verif.Model.Union
import Verif.Model.IntersectionMany
import Verif.Model.UnionMany
import Verif.Model.Index
import Verif.Spec
import Verif.Proof.Basic
import Verif.Proof.Bitmap
import Verif.Proof.Repr
import Verif.Proof.Decode
import Verif.Proof.Iter
import Verif.Proof.Contains
import Verif.Proof.Select
import Verif.Proof.NextGeq
import Verif.Proof.Uncompress
import Verif.Proof.Layout
import Verif.Proof.Encode
import Verif.Proof.EncodeSeq
import Verif.Props.Stored
import Verif.Proof.StatsDelta
import Verif.Props.Queries
import Verif.Props.Size
import Verif.Props.Build
import Verif.Proof.IterPos
import Verif.Props.Histogram
import Verif.Props.Iterator
import Verif.Props.Enumerator
import Verif.Proof.GeqEnum
import Verif.Proof.GeqSkip
import Verif.Props.GeqEnumerator
import Verif.Props.GeqAligned
import Verif.Proof.SetLists
import Verif.Proof.IntersectBlock
import Verif.Proof.Intersection
import Verif.Proof.UnionBlock
import Verif.Proof.Union
import Verif.Proof.UnionMany
import Verif.Proof.IntersectionMany
import Verif.Props.StoredMany
import Verif.Props.SetOps
import Verif.Props.ManyWay
import Verif.Props.Bounds
import Verif.SpecIndex
import Verif.Proof.Index
import Verif.Props.Index
import Verif.Proof.Erase
import Verif.Props.Assertions
import Verif.Model.Concurrent
import Verif.Proof.Concurrent
import Verif.Props.Concurrency
import Verif.Props.Overlap
import Verif.Proof.Ends
import Verif.Props.Termination
import Verif.Proof.Unsorted
import Verif.Props.Unsorted
import Verif.Model.Tools
import Verif.Proof.Tools
import Verif.Props.Tools
import Verif.Proof.Room
import Verif.Props.Room
import Verif.Props.ToolsRoom
import Verif.Props.Print
import Verif.Model.Generators
import Verif.Props.Generators
import Verif.Model.Tests
import Verif.Proof.Tests
import Verif.Props.Tests
import Verif.Props.TestsNextGeq
import Verif.Props.TestsSets
import Verif.Props.TestsSound
import Verif.Model.Main
import Verif.Props.Options
import Verif.Props.Programs
import Verif.Props.ExampleProgram
import Verif.Props.TestsPrefix
import Verif.Props.Threads
import Verif.Props.ThreadsMany
import Verif.Props.Locality
import Verif.Proof.Reads
import Verif.Props.Cost
import Verif.Proof.Tail
import Verif.Props.Tail
import Verif.Props.Counters
import Verif.Props.Files
import Verif.Model.Aligned
import Verif.Proof.Aligned
import Verif.Props.Aligned
import Verif.Model.Float
import Verif.Model.Events
import Verif.Proof.Float
import Verif.Props.Float
import Verif.Model.Text
import Verif.Proof.Text
import Verif.Props.Text
import Verif.Proof.Corrupt
import Verif.Proof.CorruptOps
import Verif.Proof.CorruptSets
import Verif.Proof.CorruptUnion
import Verif.Proof.CorruptGeq
import Verif.Proof.CorruptMany
import Verif.Proof.CorruptInter
import Verif.Props.Corrupt
import Verif.Model.AlignedQueries
import Verif.Proof.AlignedQueries
import Verif.Proof.AlignedGeq
import Verif.Props.AlignedQueries
import Verif.Proof.Space
import Verif.Props.Space
import Verif.Proof.TailIntersect
import Verif.Proof.TailUnion
import Verif.Props.TailOps
import Verif.Proof.RoomIntersect
import Verif.Proof.RoomUnion
import Verif.Props.RoomOps
import Verif.Model.AlignedSets
import Verif.Proof.AlignedIntersect
import Verif.Proof.AlignedUnion
import Verif.Proof.AlignedMany
import Verif.Props.AlignedSets
import Verif.Model.AlignedInter
import Verif.Proof.AlignedInter
import Verif.Props.AlignedInter
import Verif.Props.Algebra
import Verif.Props.TailEnum
import Verif.Proof.Buffer
import Verif.Props.Buffer
import Verif.Proof.Filled
import Verif.Props.Filled
import Verif.Model.Default
import Verif.Props.Default
import Verif.Proof.Rounds
import Verif.Props.Rounds
import Verif.Model.Session
import Verif.Props.Session
import Verif.Model.Scripts
import Verif.Props.Scripts
import Verif.Model.TestMains
import Verif.Props.TestMains
import Verif.Props.TestMainsRoom
import Verif.Proof.GeqBack
import Verif.Props.GeqBack
import Verif.Props.EnumeratorEnd
import Verif.Proof.GeqCount
import Verif.Proof.GeqReads
import Verif.Props.GeqCount
import Verif.Props.GeqReads
import Verif.Props.Helpers
import Verif.Props.Order
import Verif.Props.AlgebraMany
import Verif.Props.CostBelow
import Verif.Props.CorruptIndex
import Verif.Props.SkipPointers
import Verif.Props.LocalBlock
import Verif.Props.GeqBackLong
