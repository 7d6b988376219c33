import Verif.Props.Arguments
import Verif.Props.Attributes
import Verif.Props.AttributesLoad
import Verif.Props.Batches
import Verif.Props.Chunks
import Verif.Props.Collection
import Verif.Props.Compressed
import Verif.Props.Config
import Verif.Props.ConfigText
import Verif.Props.ConfigTextCases
import Verif.Props.Copy
import Verif.Props.DataExpression
import Verif.Props.Dataset
import Verif.Props.DatasetEffects
import Verif.Props.Date
import Verif.Props.Directory
import Verif.Props.DirectoryCases
import Verif.Props.Evaluate
import Verif.Props.Expression
import Verif.Props.Frame
import Verif.Props.FrameCases
import Verif.Props.Immutable
import Verif.Props.Index
import Verif.Props.IndexFile
import Verif.Props.IndexFileCases
import Verif.Props.IndexLoad
import Verif.Props.IndexLoadCases
import Verif.Props.IndexQuery
import Verif.Props.Item
import Verif.Props.Listing
import Verif.Props.Load
import Verif.Props.Lock
import Verif.Props.MapListing
import Verif.Props.MergeDataset
import Verif.Props.MergeDatasetCases
import Verif.Props.MergeTolerance
import Verif.Props.Meta
import Verif.Props.NumpyAttr
import Verif.Props.Open
import Verif.Props.OpenView
import Verif.Props.Overlap
import Verif.Props.Path
import Verif.Props.Pathname
import Verif.Props.Period
import Verif.Props.Pipeline
import Verif.Props.PipelineCases
import Verif.Props.ReadOnly
import Verif.Props.Reader
import Verif.Props.ReaderCases
import Verif.Props.Reduce
import Verif.Props.Schema
import Verif.Props.SchemaCases
import Verif.Props.SchemaHistory
import Verif.Props.Selection
import Verif.Props.Sharing
import Verif.Props.SharingCases
import Verif.Props.SharingProgram
import Verif.Props.SharingValues
import Verif.Props.SharingVars
import Verif.Props.Split
import Verif.Props.Storage
import Verif.Props.TimeLine
import Verif.Props.TimeLineCases
import Verif.Props.TimeLineDate
import Verif.Props.TimeSeries
import Verif.Props.Tree
import Verif.Props.Update
import Verif.Props.UpdateAccepted
import Verif.Props.UpdateEnd
import Verif.Props.UpdateHistory
import Verif.Props.UpdateLoad
import Verif.Props.Validate
import Verif.Props.Variable
import Verif.Props.View
import Verif.Props.ViewFile
import Verif.Props.ViewHistory
import Verif.Props.ViewLoad
import Verif.Props.ViewMap
import Verif.Props.ViewOps
import Verif.Props.ViewReference
import Verif.Props.ViewSchema
import Verif.Props.ViewSynced
import Verif.Props.ViewUpdate
import Verif.Props.ViewUpdateDelayed
import Verif.Props.ViewUpdateEnd
import Verif.Props.ViewUpdateLoad
import Verif.Props.Workers
import Verif.Props.WorkersCases
import Verif.Props.WorkersStore
import Verif.Props.Xarray
