import Verif.Model.DocTrim
/-!
# Whether a document is trimmed when it is read (xmq-cli.c 1578-1601, xmq.c 3922-3933, 3961-3971, 4098-4131)

What libxml2 does with `XML_PARSE_NOBLANKS` is not modelled; it may leave out texts of white space only, see Spec/TrimOptions.
-/
namespace Xmq.TrimOptions

/-- `XMQContentType` after detection, xmq.h. -/
inductive Content
  | xmq | htmq | xml | html | json | ixml | text | clines
deriving DecidableEq, Repr

/-- `XMQ_FLAG_TRIM_NONE`, `XMQ_FLAG_TRIM_HEURISTIC` and `XMQ_FLAG_TRIM_EXACT`, xmq.h 158-160. -/
structure Flags where
  none : Bool := false
  heuristic : Bool := false
  exact : Bool := false
deriving DecidableEq, Repr

/-- `handle_global_option` for `--trim=v`, xmq-cli.c 1578-1601.  `none`: the program ends. -/
def option (f : Flags) (v : List Byte) : Option Flags :=
  if v = b#"none" then some { f with none := true }
  else if v = b#"heuristic" then some { f with heuristic := true }
  else Option.none

/-- All options `--trim=` of a command, in order; the flags are 0 at first, xmq-cli.c 1440-1601. -/
def options (vs : List (List Byte)) : Option Flags := vs.foldlM option {}

/-- Whether libxml2 is told to leave out blanks: `xmq_parse_buffer_xml`, xmq.c 3928-3933, and `xmq_parse_buffer_html`, 3966-3971.  The
    other parsers have no such option. -/
def noBlanks (k : Content) (f : Flags) : Bool :=
  if k = .xml ∨ k = .html then
    let b := f.heuristic || f.exact
    let b := if f.none then false else b
    b
  else false

/-- `should_trim` of `xmqParseBufferWithType`, xmq.c 4115-4128. -/
def shouldTrim (k : Content) (f : Flags) : Bool :=
  let b := f.heuristic || f.exact
  if !f.none && (k = .xml ∨ k = .html) then true else b

/-- The end of `xmqParseBufferWithType`, xmq.c 4113-4133, for a document that was parsed. -/
def afterParse (k : Content) (f : Flags) (doc : List Node) : Option (List Node) :=
  if shouldTrim k f then trimDoc doc else some doc

end Xmq.TrimOptions
