import Verif.Basic
import Verif.Base64
import Verif.Base64Spec
import Verif.Base64Lemmas
import Verif.Base64Dec
import Verif.Props.Base64
import Verif.BitSet
import Verif.PerfectHash
import Verif.PerfectHashLemmas
import Verif.PerfectHashTerm
import Verif.Props.PerfectHash
import Verif.PolyStack
import Verif.Props.PolyStack
import Verif.EnumConv
import Verif.Props.EnumConv
import Verif.Numeric
import Verif.NumericLemmas
import Verif.Props.Numeric
import Verif.Rounding
import Verif.Props.Rounding
import Verif.Decimal
import Verif.DateTime
import Verif.DateTimeLemmas
import Verif.Props.DateTime
import Verif.Core
import Verif.Path
import Verif.Leaf
import Verif.Serialize
import Verif.Write
import Verif.Typing
import Verif.WriteLemmas
import Verif.Render
import Verif.RenderLemmas
import Verif.WriteTotal
import Verif.Demo
import Verif.Props.Write
import Verif.Deserialize
import Verif.RoundTrip
import Verif.Props.RoundTrip
import Verif.Containers
import Verif.Props.Containers
import Verif.ReadPure
import Verif.ReadSpec
import Verif.ReadLemmas
import Verif.ReadMore
import Verif.Props.Read
import Verif.ReadShared
import Verif.Props.ReadShared
import Verif.ReadExact
import Verif.Props.ReadExact
import Verif.Parse
import Verif.ParsePure
import Verif.ParseLemmas
import Verif.ParseSpec
import Verif.ParseMeaning
import Verif.ParseFacts
import Verif.Props.Parse
import Verif.ParseMore
import Verif.Props.ParseMore
import Verif.ParseBack
import Verif.Props.ParseBack
import Verif.Agree
import Verif.Props.Agree
import Verif.Schema
import Verif.SchemaSpec
import Verif.SchemaLemmas
import Verif.SchemaTerm
import Verif.SchemaSound
import Verif.SchemaValid
import Verif.Props.Schema
import Verif.SchemaInv
import Verif.SchemaAccepts
import Verif.Props.SchemaReads
import Verif.Safe
import Verif.ParseSafe
import Verif.Props.Safe
import Verif.Props.Alternatives
import Verif.ReadTyped
import Verif.Props.ReadWrite
import Verif.Conveys
import Verif.ConveysTyped
import Verif.ConveysPlain
import Verif.Breaks
import Verif.Rejects
import Verif.Refuses
import Verif.Props.References
import Verif.Evolve
import Verif.EvolveMore
import Verif.Props.Evolve
import Verif.Narrow
import Verif.Props.Narrow
import Verif.Cost
import Verif.Props.Cost
import Verif.Derived
import Verif.DerivedWrite
import Verif.Props.Derived
import Verif.SchemaWrite
import Verif.Props.SchemaWrite
import Verif.Widen
import Verif.WidenBack
import Verif.Props.Widen
import Verif.Describe
import Verif.Props.Describe
import Verif.Compact
import Verif.Props.Compact
import Verif.Graph
import Verif.Props.Graph
import Verif.Text
import Verif.TextLemmas
import Verif.TextIO
import Verif.Props.Text
import Verif.ParseError
import Verif.Props.ParseError
import Verif.ParseLeft
import Verif.ParseLeftLemmas
import Verif.ParseLeftTotal
import Verif.Props.ParseLeft
import Verif.FirstBad
import Verif.Message
import Verif.Props.Message
import Verif.Utf8
import Verif.Props.Utf8
import Verif.NumberText
import Verif.Strtod
import Verif.Props.NumberText
import Verif.Reader
import Verif.Conformance
import Verif.Conformance.Read
import Verif.Conformance.Write
import Verif.Conformance.Detail
import Verif.Rename
import Verif.Props.Rename
import Verif.Unshare
import Verif.UnshareOwn
import Verif.Props.Unshare
import Verif.UnshareWrite
import Verif.Props.UnshareMore
import Verif.Props.Wreck
import Verif.Props.Injective
import Verif.Lend
import Verif.Props.Lend
import Verif.Rfc6901
import Verif.Props.Rfc6901
import Verif.Props.Annotations
import Verif.Props.ParseMem
import Verif.Props.Size
import Verif.Props.SizeShared
import Verif.Props.Survive
import Verif.Props.Order
import Verif.Props.Depth
import Verif.Props.Edit
import Verif.Props.ParseViable
import Verif.Props.SerLeft
import Verif.Props.ReadLeft
import Verif.Props.Uninit
import Verif.Props.Leak
import Verif.Props.UninitShared
import Verif.Props.Threads
import Verif.Props.StaticInit
import Verif.Props.RefKey
import Verif.Props.OneAddress
import Verif.Props.Dispatch
import Verif.Props.Replace
import Verif.Props.Effort
import Verif.Props.GenWork
import Verif.Props.SchemaConverse
import Verif.Props.SchemaExact
import Verif.Props.SchemaSize
import Verif.Props.Relocate
import Verif.Props.ReplaceRead
import Verif.Props.SchemaSame
import Verif.Props.ReadParts
import Verif.Props.ParseAppend
import Verif.Props.Truncate
import Verif.Props.SameNumber
import Verif.Props.Shuffle
import Verif.Props.Exchange
import Verif.Props.Retable
import Verif.Props.Listed
import Verif.Props.ListedParse
import Verif.Props.ListedSchema
import Verif.Props.ReorderSchema
import Verif.Props.NumberSchema
import Verif.Props.ExchangeSchema
