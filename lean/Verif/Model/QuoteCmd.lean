import Verif.Model.CQuote
import Verif.Model.Tree
/-!
# The commands quote-c and unquote-c (xmq-cli.c 2093-2147)
-/
namespace Xmq

/-- `xmlNodeListGetString(doc, doc->children, 1)` of libxml2 for the nodes at the top: the texts one after the other.  References to
    entities that are not declared and all other nodes add nothing.  `none`: the null pointer, if there is no text. -/
def topText : List Node → Option (List Byte)
  | [] => none
  | .text s :: t => some (s ++ (topText t).getD [])
  | _ :: t => topText t

/-- `cmd_quote_unquote` for quote-c, xmq-cli.c 2099-2125; `addNl` is `command->add_nl`.  `none`: the null pointer or memory outside of
    the text is read. -/
def quoteCmd (addNl : Bool) (doc : List Node) : Option (List Node) :=
  match topText doc with
  | none => none
  | some v => (quoteAsC v true).map fun q => [.text (if addNl then q ++ b#"\n" else q)]

/-- `cmd_quote_unquote` for unquote-c, xmq-cli.c 2127-2144. -/
def unquoteCmd (doc : List Node) : Option (List Node) :=
  match topText doc with
  | none => none
  | some v => some [.text (unquoteAsC v true)]

end Xmq
