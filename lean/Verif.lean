import Verif.Basic
import Verif.Props.Utf8
import Verif.Props.Parser
import Verif.Props.Delimiters
import Verif.Props.Stack
import Verif.Props.Containers
import Verif.Props.Sort
import Verif.Props.HashMap
import Verif.Props.Trim
import Verif.Props.Reads
import Verif.Props.Document
import Verif.Props.Escape
import Verif.Props.Detect
import Verif.Props.JsonKeys
import Verif.Props.Numbers
import Verif.Props.LineCol
import Verif.Props.Charset
import Verif.Props.Collapse
import Verif.Props.TrimNode
import Verif.Props.JsonStrings
import Verif.Props.JsonNumbers
import Verif.Props.JsonParser
import Verif.Props.JsonRoundTrip
import Verif.Props.Pretty
import Verif.Props.Crlf
import Verif.Props.CharRef
import Verif.Props.Ixml
import Verif.Props.Yaep
import Verif.Props.Earley
import Verif.Props.IxmlParse
import Verif.Spec.Syntax
import Verif.Spec.Namespaces
import Verif.Spec.NsTree
import Verif.Model.NsBuild
import Verif.Model.NsPrint
import Verif.Lemmas.SyntaxDoc
import Verif.Lemmas.NsJoin
import Verif.Lemmas.NsRun
import Verif.Lemmas.NsKnown
import Verif.Lemmas.NsAttrs
import Verif.Lemmas.NsAttrRun
import Verif.Lemmas.NsElem
import Verif.Lemmas.NsDoc
import Verif.Lemmas.NsTop
import Verif.Lemmas.SyntaxEval
import Verif.Lemmas.SyntaxUnique
import Verif.Lemmas.SyntaxRead
import Verif.Props.Namespaces
import Verif.Spec.NsSafe
import Verif.Lemmas.NsFlat
import Verif.Lemmas.NsUnflat
import Verif.Lemmas.NsEmit
import Verif.Lemmas.NsEmitTree
import Verif.Lemmas.NsGuard
import Verif.Lemmas.NsBound
import Verif.Props.NsRoundTrip
import Verif.Model.LinePrintf
import Verif.Lemmas.LinePrintf
import Verif.Props.LinePrintf
import Verif.Model.Clines
import Verif.Spec.Clines
import Verif.Props.Clines
import Verif.Props.TextOut
import Verif.Model.EarleyTables
import Verif.Lemmas.EarleyTables
import Verif.Props.EarleyTables
import Verif.Model.DocTrim
import Verif.Spec.DocTrim
import Verif.Lemmas.DocTrim
import Verif.Props.DocTrim
import Verif.Model.Fixup
import Verif.Spec.Fixup
import Verif.Props.Fixup
import Verif.Model.Colour
import Verif.Spec.Colour
import Verif.Lemmas.ColourWalk
import Verif.Lemmas.Colour
import Verif.Lemmas.ColourRead
import Verif.Lemmas.ColourNest
import Verif.Props.Colour
import Verif.Props.ColourTags
import Verif.Model.Highlight
import Verif.Spec.Highlight
import Verif.Props.Highlight
import Verif.Model.Listing
import Verif.Spec.Listing
import Verif.Props.Listing
import Verif.Spec.JsonDoc
import Verif.Lemmas.JsonDoc
import Verif.Props.JsonDoc
import Verif.Model.Root
import Verif.Spec.Root
import Verif.Lemmas.Root
import Verif.Lemmas.RootRun
import Verif.Props.Root
import Verif.Model.JsonSides
import Verif.Lemmas.JsonSides
import Verif.Props.JsonSides
import Verif.Props.TokenEnds
import Verif.Model.ColourDef
import Verif.Spec.ColourDef
import Verif.Props.ColourDef
import Verif.Model.Shell
import Verif.Spec.Shell
import Verif.Props.Shell
import Verif.Model.EntityCmds
import Verif.Spec.EntityCmds
import Verif.Props.EntityCmds
import Verif.Props.Load
import Verif.Props.Statistics
import Verif.Props.Pager
import Verif.Model.ErrorMessage
import Verif.Spec.ErrorMessage
import Verif.Lemmas.ErrorPlace
import Verif.Props.ErrorMessage
import Verif.Model.CmdLine
import Verif.Spec.CmdLine
import Verif.Lemmas.CmdLine
import Verif.Lemmas.CmdArgs
import Verif.Lemmas.CmdUnderstood
import Verif.Lemmas.CmdParse
import Verif.Lemmas.CmdAccepts
import Verif.Props.CmdLine
import Verif.Model.EditDoc
import Verif.Spec.EditDoc
import Verif.Lemmas.EditDoc
import Verif.Props.EditDoc
import Verif.Model.NoMerge
import Verif.Spec.NoMerge
import Verif.Lemmas.NoMerge
import Verif.Props.NoMerge
import Verif.Model.Lookup
import Verif.Spec.Lookup
import Verif.Props.Lookup
import Verif.Props.Exact
import Verif.Props.JsonNumberExact
import Verif.Props.NumberExact
import Verif.Props.EscapeExact
import Verif.Props.JsonKeysExact
import Verif.Model.YaepHash
import Verif.Spec.YaepHash
import Verif.Lemmas.YaepHash
import Verif.Props.YaepHash
import Verif.Model.YaepCodes
import Verif.Props.YaepCodes
import Verif.Model.YaepBits
import Verif.Spec.YaepBits
import Verif.Props.YaepBits
import Verif.Model.TermTheme
import Verif.Spec.TermTheme
import Verif.Props.TermTheme
import Verif.Model.HtmlNames
import Verif.Spec.HtmlNames
import Verif.Props.HtmlNames
import Verif.Model.JsonFixup
import Verif.Props.JsonFixup
import Verif.Model.Deliver
import Verif.Props.Deliver
import Verif.Model.YaepStack
import Verif.Spec.YaepStack
import Verif.Props.YaepStack
import Verif.Model.FreeTree
import Verif.Props.FreeTree
import Verif.Model.Forest
import Verif.Spec.Forest
import Verif.Props.Forest
import Verif.Model.TrimOptions
import Verif.Spec.TrimOptions
import Verif.Props.TrimOptions
import Verif.Model.Keys
import Verif.Spec.Keys
import Verif.Props.Keys
import Verif.Model.QuoteCmd
import Verif.Props.QuoteCmd
