import Verif.Bytes
import Verif.Ieee
import Verif.Codec
import Verif.CodecSer
import Verif.Stats
import Verif.ColInt
import Verif.ColReal
import Verif.ColStr
import Verif.Header
import Verif.Frame
import Verif.FrameRef
import Verif.EncRef
import Verif.Encode
import Verif.Table
import Verif.TableRef
import Verif.RoundTrip
import Verif.TripAny
import Verif.ApiCol
import Verif.Reader
import Verif.ReaderRef
import Verif.FileRef
import Verif.UserTable
import Verif.Workers
import Verif.Shared
import Verif.FrameApi
import Verif.FrameRef2
import Verif.DecLocal
import Verif.ReadAll
import Verif.UserFile
import Verif.Threads
import Verif.Spec
import Verif.UserTop
import Verif.PropValues
import Verif.AnyFile
import Verif.FrameInfo
import Verif.Project
import Verif.PropFrames
import Verif.PropRead
import Verif.PropAgg
import Verif.PropTile
import Verif.SampleFile
import Verif.PropHeader
import Verif.HeaderSer
import Verif.Chunks
import Verif.PropStats
import Verif.Names
import Verif.Span
import Verif.SpanTop
import Verif.PropSpan
import Verif.CApi
import Verif.CDecode
import Verif.PropCApi
import Verif.CEncode
import Verif.PropC22
import Verif.CFrames
import Verif.RowWriter
import Verif.RowReader
import Verif.RowRef
import Verif.RowCol
import Verif.RowFrame
import Verif.RowWrite
import Verif.RowOut
import Verif.PropRows
import Verif.PropRowsApi
import Verif.Split
import Verif.Proxy
import Verif.Tolerance
import Verif.Compare
import Verif.PropCompare
import Verif.Fill
import Verif.Index
import Verif.Merge
import Verif.PropMerge
import Verif.PropDup
import Verif.Safe
import Verif.SafeLocal
import Verif.PropSafe
import Verif.Dispatch
import Verif.DispatchInv
import Verif.DispatchRows
import Verif.DispatchName
import Verif.PropDispatch
import Verif.Pass1
import Verif.Runs
import Verif.PropPass1
import Verif.Csv
import Verif.CsvText
import Verif.CsvHead
import Verif.CsvRows
import Verif.CsvSegs
import Verif.PropCsv
import Verif.Arbitrary
import Verif.PropAny
import Verif.PropAny2
import Verif.RowAny
import Verif.Agree
import Verif.RowFile
import Verif.PropAgree
import Verif.RowBack
import Verif.PropBack
import Verif.Count
import Verif.COwn
import Verif.CDecOwn
import Verif.CThreads
import Verif.HeaderAny
import Verif.MdSet
import Verif.PropMdSet
import Verif.PropMdVal
import Verif.PropMdBad
import Verif.MdSamples
import Verif.PropRowsAny
import Verif.SetTool
import Verif.PropSet
import Verif.SetSamples
import Verif.SqlFilter
import Verif.PropSql
import Verif.PropSqlEnc
import Verif.SqlSamples
import Verif.PropDone
import Verif.SqlOut
import Verif.SqlWriter
import Verif.PropSqlOut
import Verif.PropSqlFile
import Verif.PropSqlTop
import Verif.SplitTool
import Verif.SplitRows
import Verif.PropSplit
import Verif.SplitSamples
import Verif.OldC
import Verif.OldRead
import Verif.OldWrite
import Verif.PropOldC
import Verif.PropOldFile
import Verif.OldSamples
import Verif.TabThreads
import Verif.MergeAny
import Verif.CSession
import Verif.PropCSession
import Verif.CsvAny
import Verif.DocSpec
import Verif.DocCodec
import Verif.DocFrame
import Verif.DocEnc
import Verif.PropDoc
import Verif.PropDocRows
import Verif.PropDocWriter
import Verif.FrameFilter
import Verif.PropFrameFilter
import Verif.FrameFilterSamples
import Verif.CDecSession
import Verif.CDecLaid
import Verif.PropCDecSession
import Verif.CDecSamples
import Verif.OldSelect
import Verif.PropSelect
import Verif.SelectSamples
import Verif.RowTold
import Verif.Compact
import Verif.CompactCompare
import Verif.CommandLine
import Verif.PropCommandLine
import Verif.SelectDone
import Verif.Listing
import Verif.PropListing
import Verif.HeaderTool
import Verif.PropHeaderTool
import Verif.ToolPlans
import Verif.PropToolPlans
import Verif.SqlTool
import Verif.PropSqlTool
import Verif.Xyv
import Verif.PropXyv
