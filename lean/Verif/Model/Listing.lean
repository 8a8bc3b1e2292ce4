import Verif.Model.CQuote
import Verif.Model.Parser
import Verif.Model.Detect
import Verif.Model.Printer
/-!
# The listing of the tokens of a source text (xmq.c 911-986, 1565-1591)

`xmqSetupParseCallbacksDebugTokens` and `xmqTokenizeBuffer`.
-/
namespace Xmq

/-- `#TYPE`, xmq.c 1566, for the tokens of `LIST_OF_XMQ_TOKENS` (parts/xmq_internals.h 80-109). -/
def kindName : Kind → List Byte
  | .whitespace => b#"whitespace" | .equals => b#"equals" | .brace_left => b#"brace_left" | .brace_right => b#"brace_right"
  | .apar_left => b#"apar_left" | .apar_right => b#"apar_right" | .cpar_left => b#"cpar_left" | .cpar_right => b#"cpar_right"
  | .quote => b#"quote" | .entity => b#"entity" | .comment => b#"comment" | .comment_continuation => b#"comment_continuation"
  | .element_ns => b#"element_ns" | .element_name => b#"element_name" | .element_key => b#"element_key"
  | .element_value_text => b#"element_value_text" | .element_value_quote => b#"element_value_quote"
  | .element_value_entity => b#"element_value_entity" | .element_value_compound_quote => b#"element_value_compound_quote"
  | .element_value_compound_entity => b#"element_value_compound_entity"
  | .attr_ns => b#"attr_ns" | .attr_key => b#"attr_key" | .attr_value_text => b#"attr_value_text"
  | .attr_value_quote => b#"attr_value_quote" | .attr_value_entity => b#"attr_value_entity"
  | .attr_value_compound_quote => b#"attr_value_compound_quote" | .attr_value_compound_entity => b#"attr_value_compound_entity"
  | .ns_declaration => b#"ns_declaration" | .ns_colon => b#"ns_colon"

/-- `snprintf(buf, 32, " %zu:%zu]", line, col)`, xmq.c 1574-1576. -/
def placeText (line col : Nat) : List Byte :=
  (b#" " ++ decDigits (line + 1) line ++ b#":" ++ decDigits (col + 1) col ++ b#"]").take 31

/-- `debug_token_TYPE`, xmq.c 1565-1578, for a token that is not simulated.  The quoted text is written as a C string.  (`quoteAsC`
    takes the byte behind the token to be NUL; this only matters for a token that ends within a UTF-8 sequence.) -/
def debugToken (t : Tok) : Option (List Byte) :=
  (quoteAsC t.text false).map fun q =>
    b#"[" ++ kindName t.kind ++ b#" \"" ++ q.takeWhile (· != 0) ++ b#"\"" ++ placeText t.line t.col

/-- The callbacks of a parse, in order, and `add_nl` (xmq.c 1588) at the end. -/
def debugTokens : List Tok → Option (List Byte)
  | [] => some b#"\n"
  | t :: ts => (debugToken t).bind fun a => (debugTokens ts).map fun b => a ++ b

/-- `xmqTokenizeBuffer`, xmq.c 911-986, when the source is accepted: what has been written. -/
def Lists (input out : List Byte) : Prop := detect input = some .xmq ∧ ∃ toks, Tokenizes input toks ∧ debugTokens toks = some out

end Xmq
