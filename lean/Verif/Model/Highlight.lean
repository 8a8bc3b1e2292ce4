import Verif.Model.Colour
import Verif.Model.Escape
import Verif.Model.Detect
import Verif.Model.Parser
/-!
# Colourising the tokens of a source text (xmq.c 248-598, 626-644, 765-848, 911-986, 1658-1667)

`xmqSetupParseCallbacksColorizeTokens` and `xmqTokenizeBuffer`: the tokens are written with the strings of the theme around them.
-/
namespace Xmq

/-- The colour of a token, xmq.c 258-315 (terminal), 410-468 (HTML) and 548-597 (TeX), which agree.  `none`: `NOCOLOR` in a
    terminal, NULL otherwise. -/
def Kind.colorName : Kind → Option ColorName
  | .comment | .comment_continuation => some .C
  | .quote => some .Q
  | .entity | .element_value_entity | .element_value_compound_entity | .attr_value_entity | .attr_value_compound_entity => some .E
  | .element_ns | .attr_ns => some .NS
  | .element_name => some .EN
  | .element_key => some .EK
  | .element_value_text | .element_value_quote | .element_value_compound_quote => some .EKV
  | .attr_key => some .AK
  | .attr_value_text | .attr_value_quote | .attr_value_compound_quote => some .AKV
  | .cpar_left | .cpar_right => some .CP
  | .ns_declaration => some .NSD
  | .whitespace | .equals | .brace_left | .brace_right | .apar_left | .apar_right | .ns_colon => none

/-- The settings: `render_to`, the colours of the theme (`none`: `use_color` is false), whether the output goes to
    `write_print_stdout` (otherwise to memory) and `theme->content`. -/
structure HighlightCfg where
  render : Render
  colors : Option (ColorName → ColorDef)
  stdout : Bool
  front : List Byte
  back : List Byte

/-- `theme->TYPE.pre`, xmq.c 248-598.  Only `setup_terminal_coloring` looks at `use_color`. -/
def HighlightCfg.pre (h : HighlightCfg) (k : Kind) : List Byte :=
  match h.render with
  | .plain => []
  | .terminal =>
    match h.colors with
    | none => []
    | some colors => match k.colorName with | some n => ansiColor (colors n) | none => noColor
  | .html => match k.colorName with | some n => b#'<' :: (n.tag ++ b#">") | none => []
  | .tex => match k.colorName with | some n => b#'\\' :: (n.tag ++ b#"{") | none => []

/-- `theme->TYPE.post`, xmq.c 248-598. -/
def HighlightCfg.post (h : HighlightCfg) (k : Kind) : List Byte :=
  match h.render with
  | .plain | .terminal => []
  | .html => match k.colorName with | some n => b#"</" ++ n.tag ++ b#">" | none => []
  | .tex => match k.colorName with | some _ => b#"}" | none => []

/-- The text of a token between the strings, xmq.c 632-640.  `none`: the assertion of `write_print_stdout` (xmq.c 800) fails
    for an empty token. -/
def HighlightCfg.body (h : HighlightCfg) (s : List Byte) : Option (List Byte) :=
  match h.render with
  | .plain => some []
  | .terminal => if h.stdout && s.isEmpty then none else some s
  | .html => some (writeSafeHtml s)
  | .tex => some (writeSafeTex s)

/-- `tokenize_TYPE`, xmq.c 626-644. -/
def HighlightCfg.token (h : HighlightCfg) (t : Tok) : Option (List Byte) :=
  (h.body t.text).map fun b => h.pre t.kind ++ b ++ h.post t.kind

/-- The callbacks of a parse, in order. -/
def HighlightCfg.tokens (h : HighlightCfg) : List Tok → Option (List Byte)
  | [] => some []
  | t :: ts => (h.token t).bind fun a => (h.tokens ts).map fun b => a ++ b

/-- `xmqTokenizeBuffer`, xmq.c 911-986, when the source is accepted: what has been written. -/
def Highlights (h : HighlightCfg) (input out : List Byte) : Prop :=
  detect input = some .xmq ∧ ∃ toks, Tokenizes input toks ∧ (h.tokens toks).map (fun w => h.front ++ w ++ h.back) = some out

/-- Rendering for a terminal: `theme->content` has no strings. -/
def terminalHighlight (colors : Option (ColorName → ColorDef)) (stdout : Bool) : HighlightCfg := ⟨.terminal, colors, stdout, [], []⟩

/-- Rendering as HTML, xmq.c 377-402. -/
def htmlHighlight (id clazz : Option (List Byte)) (dark stdout : Bool) : HighlightCfg :=
  ⟨.html, none, stdout, htmlPre id clazz dark, b#"</pre>"⟩

/-- Rendering as TeX, xmq.c 545-546. -/
def texHighlight (stdout : Bool) : HighlightCfg := ⟨.tex, none, stdout, b#"\\texttt{\\flushleft\\noindent ", b#"\n}\n"⟩

end Xmq
