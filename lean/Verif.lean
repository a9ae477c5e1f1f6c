import Verif.Basic
import Verif.Model.Util
import Verif.Model.Num
import Verif.Model.Valid
import Verif.Model.Scan
import Verif.Model.Value
import Verif.Model.Path
import Verif.Model.Pretty
import Verif.Model.Search
import Verif.Model.Modifiers
import Verif.Model.Get
import Verif.Tests
import Verif.Spec
import Verif.SpecStr
import Verif.Lemmas.At
import Verif.Lemmas.Valid
import Verif.Lemmas.Grammar
import Verif.Props.Valid
import Verif.Lemmas.Scan
import Verif.Lemmas.Unescape
import Verif.Lemmas.Strings
import Verif.Lemmas.Shown
import Verif.Lemmas.Leaf
import Verif.Lemmas.JsonVal
import Verif.Lemmas.ForEach
import Verif.Lemmas.Enum
import Verif.Props.Strings
import Verif.Lemmas.Num
import Verif.Lemmas.Order
import Verif.Lemmas.Same
import Verif.Lemmas.Path
import Verif.Lemmas.PMatch
import Verif.Lemmas.Query
import Verif.Lemmas.Search
import Verif.Lemmas.Stable
import Verif.Lemmas.Lookup
import Verif.Lemmas.Prov
import Verif.Lemmas.Miss
import Verif.Lemmas.Pipe
import Verif.Lemmas.Blank
import Verif.Props.Values
import Verif.Props.Enumerate
import Verif.Lemmas.Wild
import Verif.Lemmas.Piece
import Verif.Lemmas.Pad
import Verif.Lemmas.Dot
import Verif.Props.Lookup
import Verif.Lemmas.Ugly
import Verif.Lemmas.PrettyOk
import Verif.Lemmas.Usable
import Verif.Lemmas.Total
import Verif.Props.Total
import Verif.Lemmas.Group
import Verif.Lemmas.Balanced
import Verif.Lemmas.QueryPath
import Verif.Lemmas.QueryCut
import Verif.Lemmas.GroupCut
import Verif.SpecSeek
import Verif.Lemmas.Seek
import Verif.Lemmas.SeekTotal
import Verif.Lemmas.Float
import Verif.Lemmas.Mod
import Verif.Props.Query
import Verif.Props.Compare
import Verif.SpecDoc
import Verif.Lemmas.Tokens
import Verif.Lemmas.Listed
import Verif.Lemmas.UglyDoc
import Verif.Lemmas.PrettyDoc
import Verif.Lemmas.PrettyLoop
import Verif.Lemmas.PrettyAll
import Verif.Lemmas.PrettyDeep
import Verif.Props.Format
import Verif.SpecMods
import Verif.Lemmas.Mods
import Verif.Lemmas.Examples
import Verif.Props.Modifiers
import Verif.SpecMulti
import Verif.Lemmas.Multi
import Verif.Props.Multi
import Verif.Lemmas.Handed
import Verif.Lemmas.Flow
import Verif.Lemmas.Cut
import Verif.Lemmas.Inside
import Verif.Lemmas.Inv
import Verif.SpecResults
import Verif.Lemmas.Coherent
import Verif.Lemmas.Utf8
import Verif.Lemmas.Keep
import Verif.Lemmas.Kept
import Verif.Props.Results
import Verif.Lemmas.NotJson
import Verif.SpecNum
import Verif.Lemmas.Round
import Verif.Lemmas.Nearest
import Verif.Props.Numbers
import Verif.SpecSearch
import Verif.SpecOpen
import Verif.SpecQuery
import Verif.SpecPath
import Verif.Lemmas.Find
import Verif.Props.Search
import Verif.Lemmas.Place
import Verif.Lemmas.Prefix
import Verif.Lemmas.Parts
import Verif.Lemmas.PipeAny
import Verif.Props.Prefix
import Verif.Props.Truth
import Verif.Props.Convert
import Verif.SpecLayout
import Verif.Lemmas.Layout
import Verif.Lemmas.LayoutLim
import Verif.Lemmas.Resort
import Verif.Props.Layout
import Verif.Uses
import Verif.SpecLim
import Verif.SpecWords
import Verif.Lemmas.PrettyHead
import Verif.Lemmas.CutChar
import Verif.Lemmas.FloatText
import Verif.Lemmas.ModsText
import Verif.Lemmas.Rules
import Verif.Lemmas.Reads
import Verif.Lemmas.RulesMods
import Verif.Lemmas.Means
import Verif.Props.Path
import Verif.Lemmas.Peer
import Verif.Props.Space
import Verif.SpecRoute
import Verif.SpecOrder
import Verif.Lemmas.Reorder
import Verif.Props.Order
import Verif.Lemmas.Sized
import Verif.Lemmas.Route
import Verif.Lemmas.MeansUtf8
import Verif.Model.Depth
import Verif.SpecDepth
import Verif.Lemmas.Depth
import Verif.Lemmas.Within
import Verif.Lemmas.Room
import Verif.Props.Depth
import Verif.SpecInk
import Verif.Lemmas.Closed
import Verif.Lemmas.Ink
import Verif.Props.Ink
import Verif.Model.Work
import Verif.SpecWork
import Verif.Lemmas.Work
import Verif.Props.Work
import Verif.Lemmas.Open
import Verif.Props.Open
import Verif.Lemmas.Size
import Verif.Lemmas.SizeMods
import Verif.Lemmas.SizePretty
import Verif.Props.Size
import Verif.Lemmas.LeadPretty
import Verif.Lemmas.Lead
import Verif.Lemmas.LeadText
import Verif.Props.Lead
import Verif.SpecTokens
import Verif.Lemmas.Lexed
import Verif.Lemmas.LexedGet
import Verif.Lemmas.LexedMods
import Verif.Lemmas.LexedPretty
import Verif.Lemmas.LexedClosed
import Verif.Props.Tokens
import Verif.Props.Listed
import Verif.SpecEdit
import Verif.Lemmas.Edit
import Verif.Props.Edit
import Verif.Lemmas.OwnText
import Verif.Lemmas.Void
import Verif.Props.OwnText
import Verif.Props.Pairs
import Verif.SpecCut
import Verif.Lemmas.CutUp
import Verif.Props.Parts
import Verif.Props.QueryParts
import Verif.Props.ArrayPaths
import Verif.Props.EveryPath
import Verif.Props.EveryCall
import Verif.SpecAny
import Verif.Lemmas.Any
import Verif.Props.Any
import Verif.SpecWhole
import Verif.Lemmas.Whole
import Verif.Lemmas.WholeTotal
import Verif.Lemmas.WholeTidy
import Verif.Lemmas.LaidTidy
import Verif.Props.Whole
import Verif.SpecText
import Verif.Lemmas.Text
import Verif.Lemmas.Hunt
import Verif.Lemmas.Reading
import Verif.Lemmas.TextMods
import Verif.Lemmas.Yield
import Verif.Props.EveryText
import Verif.Props.Harmless
import Verif.Props.EndToEnd
import Verif.Props.AnyOrder
