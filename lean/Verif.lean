import Verif.Props.Varint
import Verif.Props.Name
import Verif.Props.Label
import Verif.Props.LabelGroup
import Verif.Props.MetricVec
import Verif.Props.Histogram
import Verif.Props.Text
import Verif.Props.Group
import Verif.Props.Proto
import Verif.Props.Atomic
import Verif.Props.HistConc
import Verif.Props.SparseConc
import Verif.Props.DenseConc
import Verif.Props.Calls
import Verif.Props.Process
import Verif.Props.ProcessWide
import Verif.Props.Tokio
import Verif.Props.TokioWide
import Verif.Props.LookupPanic
import Verif.Props.Types
import Verif.Props.Api
import Verif.Props.ConcScrape
import Verif.Model.Registry
import Verif.Spec.Registry
import Verif.Props.Registry
import Verif.Props.Series
import Verif.Model.Derive
import Verif.Spec.Derive
import Verif.Proof.Derive
import Verif.Props.Derive
import Verif.Model.DeriveInput
import Verif.Model.DeriveNames
import Verif.Spec.DeriveInput
import Verif.Props.DeriveInput
import Verif.Model.TestVisitor
import Verif.Props.TestVisitor
import Verif.Props.ProtoCalls
import Verif.Props.Agree
import Verif.Props.Live
import Verif.Props.EncodeConc
import Verif.Props.VecLive
import Verif.Spec.Rounding
import Verif.Proof.Rounding
import Verif.Proof.Accuracy
import Verif.Props.Accuracy
import Verif.Props.Conform
import Verif.Spec.Collectors
import Verif.Props.Collectors
import Verif.Props.RtSeries
import Verif.Model.LabelledVec
import Verif.Spec.LabelledVec
import Verif.Props.LabelledVec
import Verif.Spec.Scrapes
import Verif.Props.Scrapes
import Verif.Model.SharedInterners
import Verif.Props.SharedInterners
import Verif.Spec.TextExact
import Verif.Spec.CallsExact
import Verif.Spec.Case
import Verif.Props.TextExact
import Verif.Spec.TextLoss
import Verif.Proof.TextLoss
import Verif.Props.TextLoss
import Verif.Props.Exact
import Verif.Props.Exponential
import Verif.Props.ProtoExact
import Verif.Props.AgreeExact
import Verif.Props.ExactSeries
import Verif.Model.TokioConc
import Verif.Proof.TokioConc
import Verif.Props.TokioConc
import Verif.Model.Server
import Verif.Spec.Server
import Verif.Proof.Server
import Verif.Proof.ServerRun
import Verif.Proof.ServerServe
import Verif.Props.Server
import Verif.Spec.Decimal
import Verif.Model.Ryu
import Verif.Proof.Quarters
import Verif.Proof.Ryu
import Verif.Proof.RyuSearch
import Verif.Proof.RyuText
import Verif.Proof.RyuFormat
import Verif.Proof.RyuNear
import Verif.Props.Ryu
import Verif.Props.HelpLines
import Verif.Props.Heck
import Verif.Model.Routes
import Verif.Spec.Routes
import Verif.Props.Routes
import Verif.Model.HistVec
import Verif.Spec.HistVec
import Verif.Proof.HistVec
import Verif.Props.HistVec
import Verif.Spec.HistVecLive
import Verif.Proof.HistVecLive
import Verif.Props.HistVecLive
import Verif.Model.HistDense
import Verif.Spec.HistDense
import Verif.Props.HistDense
import Verif.Spec.HistDenseLive
import Verif.Proof.HistDenseLive
import Verif.Props.HistDenseLive
import Verif.Proof.HistTwice
import Verif.Props.ScrapesHist
import Verif.Spec.ServerOrder
import Verif.Proof.ServerOrder
import Verif.Props.ServerOrder
import Verif.Model.Export
import Verif.Spec.Export
import Verif.Proof.Export
import Verif.Props.Export
import Verif.Proof.ExportRoles
import Verif.Proof.ExportPlace
import Verif.Proof.ExportWork
import Verif.Proof.ExportLive
import Verif.Proof.ExportProgress
import Verif.Proof.ExportFree
import Verif.Props.ExportLive
import Verif.Model.ExportHist
import Verif.Spec.ExportHist
import Verif.Proof.ExportHist
import Verif.Proof.ExportRefine
import Verif.Props.ExportHist
import Verif.Spec.ExportHistLive
import Verif.Proof.ExportHistFree
import Verif.Proof.ExportHistWork
import Verif.Props.ExportHistLive
import Verif.Spec.DeriveNames
import Verif.Proof.DeriveNames
import Verif.Proof.DeriveNamesTypes
import Verif.Props.DeriveNames
import Verif.Proof.ProtoSink
import Verif.Spec.ProtoWriter
import Verif.Proof.ProtoWriter
import Verif.Proof.ProtoLife
import Verif.Props.ProtoWriter
import Verif.Spec.TextFail
import Verif.Proof.TextFail
import Verif.Props.TextFail
import Verif.Model.Flush
import Verif.Spec.Flush
import Verif.Proof.Flush
import Verif.Props.Flush
import Verif.Props.BufferedText
import Verif.Props.HistWeak
import Verif.Props.ForeignIds
import Verif.Props.SparseWeak
