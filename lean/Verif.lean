import Verif.Props.ByteSet
import Verif.Props.Bounds
import Verif.Props.Read
import Verif.Props.Record
import Verif.Props.Search
import Verif.Props.SeqKind
import Verif.Props.WithErr
import Verif.Props.Prelude
import Verif.Props.Huffman
import Verif.Props.HuffmanDecode
import Verif.Props.NumCore
import Verif.Props.NumEval
import Verif.Props.NumCodegen
import Verif.Props.EndToEnd
import Verif.Props.Scope
import Verif.Props.Pattern
import Verif.Props.Shadow
import Verif.Props.ExprBounds
import Verif.Props.Decode
import Verif.Props.Sound
import Verif.Props.Combinators
import Verif.Props.Consume
import Verif.Props.Terminate
import Verif.Props.Lookahead
import Verif.Props.Complete
import Verif.Props.Parser
import Verif.Props.Moves
import Verif.Props.ValueType
import Verif.Props.TypeSound
import Verif.Props.Progress
import Verif.Props.FormatSound
import Verif.Props.Printer
import Verif.Props.BaseSet
import Verif.Props.Name
import Verif.Props.Loc
import Verif.Props.Alias
import Verif.Props.Inference
import Verif.Props.Gen
import Verif.Props.Helper
import Verif.Props.Conditions
import Verif.Props.Munch
import Verif.Props.Safe
import Verif.Props.Text
import Verif.Props.Unify
import Verif.Props.TypeCheck
import Verif.Props.TypeCheckFormat
import Verif.Props.TypedCompile
import Verif.Props.Formats
import Verif.Props.Predictive
import Verif.Props.ByteSetPrint
import Verif.Props.Repetition
import Verif.Props.ExprMeaning
import Verif.Props.TypeAnalysis
import Verif.Props.TreeExpr
import Verif.Props.Fragment
import Verif.Props.TreeLayout
import Verif.Props.Flat
import Verif.Props.ReadWidth
import Verif.Props.Riff
import Verif.Props.Gzip
import Verif.Props.Tiff
import Verif.Props.GzipHeader
import Verif.Props.GzipName
import Verif.Props.GzipMember
