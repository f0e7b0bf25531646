import Verif.Props.Codec
import Verif.Props.Metadata
import Verif.Props.Encoders
import Verif.Props.File
import Verif.Props.Delivery
import Verif.Props.Query
import Verif.Props.Robust
import Verif.Props.Truncate
import Verif.Props.Output
import Verif.Spec.Rounding
import Verif.Proof.Round
import Verif.Proof.Quant
import Verif.Proof.Angle
import Verif.Props.Single
import Verif.Props.Quantise
import Verif.Proof.Drift
import Verif.Proof.TimeError
import Verif.Proof.OctError
import Verif.Proof.FloatError
import Verif.Props.Times
import Verif.Props.Positions
import Verif.Props.Floats
import Verif.Model.Str
import Verif.Model.Summary
import Verif.Model.Cli
import Verif.Model.Benchmark
import Verif.Spec.Text
import Verif.Spec.V1
import Verif.Props.Summary
import Verif.Props.Duration
import Verif.Props.V1
import Verif.Model.Json
import Verif.Spec.Json
import Verif.Proof.Json
import Verif.Props.JsonMetadata
import Verif.Props.Json
import Verif.Model.Csv
import Verif.Model.Commands
import Verif.Spec.Csv
import Verif.Props.Csv
import Verif.Props.Commands
import Verif.Props.Success
import Verif.Props.SummaryText
import Verif.Props.JsonText
import Verif.Spec.JsonExact
import Verif.Props.JsonExact
import Verif.Props.Marshal
import Verif.Props.ToJson
import Verif.Props.V1File
import Verif.Props.V1Times
import Verif.Model.Unmarshal
import Verif.Spec.Unmarshal
import Verif.Props.Unmarshal
import Verif.Props.Cut
import Verif.Proof.Loaded
import Verif.Props.Again
import Verif.Props.Benchmark
import Verif.Spec.Layout
import Verif.Proof.LayoutBasic
import Verif.Proof.LayoutWrite
import Verif.Proof.LayoutRead
import Verif.Props.Layout
import Verif.Spec.IoReader
import Verif.Proof.IoReader
import Verif.Props.AnyReader
import Verif.Model.Describe
import Verif.Spec.Describe
import Verif.Proof.Describe
import Verif.Props.Describe
import Verif.Proof.Stable
import Verif.Props.Stable
import Verif.Props.Upgrade
import Verif.Spec.Size
import Verif.Proof.Size
import Verif.Props.Size
import Verif.Model.Accessors
import Verif.Spec.Accessors
import Verif.Props.Accessors
import Verif.Spec.Cost
import Verif.Proof.Cost
import Verif.Props.Cost
import Verif.Model.Fixed
import Verif.Spec.Fixed
import Verif.Spec.CaptureText
import Verif.Proof.Fixed
import Verif.Props.Fixed
import Verif.Spec.JsonNumber
import Verif.Proof.JsonNumber
import Verif.Model.GoJson
import Verif.Proof.Shortest
import Verif.Proof.ShortSingle
import Verif.Proof.GoNumbers
import Verif.Proof.GoAtoi
import Verif.Proof.GoQuote
import Verif.Proof.GoLaws
import Verif.Spec.Rfc3339
import Verif.Model.GoTime
import Verif.Proof.Calendar
import Verif.Proof.GoTime
import Verif.Props.GoJson
import Verif.Spec.Ieee
import Verif.Proof.Ieee
import Verif.Props.Ieee
import Verif.Spec.Short
import Verif.Proof.Short
import Verif.Proof.ShortCut
import Verif.Proof.ShortTimes
import Verif.Props.Short
import Verif.Model.Proto
import Verif.Spec.Proto
import Verif.Proof.Proto
import Verif.Proof.ProtoMsg
import Verif.Props.Proto
import Verif.Model.ParseFloat
import Verif.Spec.ParseFloat
import Verif.Proof.ParseFloat
import Verif.Proof.ParseFloatSound
import Verif.Proof.ParseFloatRound
import Verif.Proof.TrimSpace
import Verif.Props.ParseFloat
import Verif.Model.JsonDecode
import Verif.Spec.JsonDecode
import Verif.Proof.JsonScan
import Verif.Proof.JsonCoerce
import Verif.Proof.JsonAlike
import Verif.Proof.JsonNumberGo
import Verif.Proof.JsonMaps
import Verif.Props.JsonDecode
import Verif.Model.JsonEncode
import Verif.Spec.JsonEncode
import Verif.Proof.Utf8
import Verif.Proof.JsonEncode
import Verif.Props.JsonEncode
import Verif.Model.JsonOwn
import Verif.Spec.JsonOwn
import Verif.Proof.JsonOwn
import Verif.Props.JsonOwn
import Verif.Spec.Default
import Verif.Props.Default
import Verif.Model.UnmarshalProperty
import Verif.Proof.UnmarshalProperty
import Verif.Props.UnmarshalProperty
import Verif.Model.Bson
import Verif.Spec.Bson
import Verif.Proof.Bson
import Verif.Props.Bson
import Verif.Spec.Program
import Verif.Props.Program
