import Verif.Model.Base
import Verif.Model.Util
import Verif.Proofs.Util
import Verif.Model.Layout
import Verif.Proofs.Layout
import Verif.Props.Layout
import Verif.Props.Buddy
import Verif.Props.KvAlloc
import Verif.Props.Journal
import Verif.Props.LiteObject
import Verif.Props.ReadWrite
import Verif.Props.DirectTuples
import Verif.Props.Regions
import Verif.Props.MetaPage
import Verif.Props.Exporter
import Verif.Props.Http
import Verif.Props.Batch
import Verif.Props.HttpRead
import Verif.Props.Url
import Verif.Props.KvObject
import Verif.Props.KvLog
import Verif.Props.KvStore
import Verif.Props.KvDiscipline
import Verif.Props.DirectStore
import Verif.Props.DirectCrash
import Verif.Proofs.DirectPages
import Verif.Props.DirectDurable
import Verif.Props.LiteStore
import Verif.Props.JsClient
import Verif.Props.RustClient
import Verif.Props.Cli
import Verif.Props.DirectSpace
import Verif.Props.DirectDiscipline
import Verif.Props.DirectCluster
import Verif.Props.Capacity
import Verif.Props.StoreAdapters
import Verif.Props.DirectUpload
import Verif.Props.HttpMethods
import Verif.Props.LiteReopen
import Verif.Props.KvSpace
import Verif.Props.LiteSpace
import Verif.Props.KvProgress
import Verif.Props.DirectProgress
import Verif.Props.DeviceIo
import Verif.Props.LiteIo
import Verif.Props.LiteProgress
import Verif.Props.Server
import Verif.Props.Stresser
import Verif.Props.Device
import Verif.Props.DirectMetrics
import Verif.Props.LiteMetrics
import Verif.Props.KvMetrics
import Verif.Props.Benchmark
import Verif.Props.StoreBlobd
import Verif.Props.DirectIo
import Verif.Props.KvIo
import Verif.Props.DirectRoom
import Verif.Props.LiteRoom
import Verif.Props.Wire
import Verif.Props.WireRequest
import Verif.Props.LiteUpload
import Verif.Props.Tokens
import Verif.Props.LiteLoad
import Verif.Props.LiteApart
import Verif.Props.LiteCrash
import Verif.Props.Plotter
import Verif.Props.CliGet
import Verif.Props.PlotChart
import Verif.Props.LiteVersions
import Verif.Props.PlotText
import Verif.Props.KvFlushMetrics
import Verif.Props.KvEntryMetrics
import Verif.Props.KvCommitMetrics
