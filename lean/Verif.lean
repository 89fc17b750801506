import Verif.Basic
import Verif.Float
import Verif.Duration
import Verif.DurationLemmas
import Verif.DurationSpec
import Verif.DurationForm
import Verif.DurationParse
import Verif.DurationProps
import Verif.DurationCycle
import Verif.Period
import Verif.PeriodSpec
import Verif.PeriodProps
import Verif.ParentsProps
import Verif.Strconv
import Verif.Misc
import Verif.MiscProps
import Verif.DateTime
import Verif.DateTimeSpec
import Verif.DateTimeProps
import Verif.DateTimeProps2
import Verif.Utf8
import Verif.XmlText
import Verif.XmlTextProps
import Verif.XmlToken
import Verif.XmlTokenProps
import Verif.XmlNsProps
import Verif.XmlPrint
import Verif.XmlLex
import Verif.XmlPrintProps
import Verif.XmlResolve
import Verif.XmlResolveProps
import Verif.Schema
import Verif.MpdSchema
import Verif.Marshal
import Verif.Unmarshal
import Verif.Tree
import Verif.TreeProps
import Verif.KRfl
import Verif.Typed
import Verif.ReadProps
import Verif.SchemaProps
import Verif.Leaf
import Verif.Sees
import Verif.Updates
import Verif.RtSpec
import Verif.RtAttrs
import Verif.RoundTrip
import Verif.MarshalOk
import Verif.NsSpec
import Verif.NsProps
import Verif.NsKept
import Verif.MpdRoundTrip
import Verif.RtCheck
import Verif.SctePass
import Verif.WriteIO
import Verif.WriteIOProps
import Verif.WriteWalk
import Verif.WriteProps
import Verif.Local
import Verif.Truncate
import Verif.ReadIO
import Verif.Intern
import Verif.TypeCache
import Verif.FloatBits
import Verif.FloatText
import Verif.FloatProps
import Verif.RtLeaf
import Verif.DecText
import Verif.Came
import Verif.ReadWrite
import Verif.EncodeOk
import Verif.WriteOk
import Verif.Once
import Verif.Chunk
import Verif.ExtPass
import Verif.TypeInfoProps
import Verif.Layout
import Verif.Grammar
import Verif.GrammarLex
import Verif.GrammarDecl
import Verif.GrammarProps
import Verif.Spelling
import Verif.Prefix
import Verif.DurFloat
import Verif.Exact
import Verif.Build
import Verif.PeriodName
import Verif.Scte
import Verif.Written
import Verif.WrittenProps
import Verif.EncTok
import Verif.EncTokProps
import Verif.EncTokStream
import Verif.Machine
import Verif.MachineSim
import Verif.MachineProps
import Verif.Direct
import Verif.DirectSim
import Verif.DirectProps
import Verif.ReadErr
import Verif.ReadErrProps
import Verif.Steps
import Verif.Says
import Verif.SaysProps
import Verif.Timeline
import Verif.DateTimeRead
import Verif.Paths
import Verif.PathsProps
import Verif.Cdata
import Verif.Sandbox
import Verif.SandboxProps
import Verif.Loose
import Verif.Guard
import Verif.GuardProps
import Verif.Piped
import Verif.PipedProps
import Verif.TextMethods
import Verif.TextMethodsProps
import Verif.Tidy
import Verif.TidyProps
import Verif.NotEof
import Verif.Lenient
import Verif.LenientProps
import Verif.BoolProps
import Verif.DateCycle
import Verif.DurText
import Verif.DurRead
import Verif.Readable
import Verif.Frame
import Verif.Alone
import Verif.Splice
import Verif.Indented
import Verif.Carried
import Verif.ElementTypes
import Verif.Elements
import Verif.DefaultSpace
import Verif.Charset
import Verif.EncodeElement
import Verif.Edited
import Verif.Settle
import Verif.Shared
import Verif.SharedRaw
import Verif.SharedInner
import Verif.Slices
import Verif.Reused
import Verif.ReusedOnly
import Verif.Several
import Verif.SeveralWritten
import Verif.SeveralOnly
import Verif.Moved
import Verif.MovedRep
