import Verif.Model.JsonPrint
/-!
# Output as lines of paths and C strings, and as text (xmq.c 2762-2923, 4003-4025)

Namespaces are not modelled here (the path of an element has no prefixes, an attribute has one).
-/
namespace Xmq

/-- `cline_print_xpath`, xmq.c 2808-2821.  The document itself is the topmost parent, its name is NULL, which prints nothing. -/
def clinePath : List (List Byte) → List Byte
  | [] => []
  | n :: t => b#'/' :: (n ++ clinePath t)

/-- `cline_print_attr`, xmq.c 2881-2911.  An attribute with entity references is outside of the model (`attrString`). -/
def clineAttr (path : List (List Byte)) (a : Attr) : Option (List Byte) :=
  let key := clinePath path ++ b#"/@" ++ a.name ++ b#"="
  if a.value.isEmpty then some (key ++ b#"\"\"\n")
  else
    match attrString a with
    | none => none
    | some v =>
      match quoteAsC v true with
      | none => none
      | some q => some (key ++ q ++ b#"\n")

/-- `cline_print_attributes`, xmq.c 2870-2879. -/
def clineAttrs (path : List (List Byte)) : List Attr → Option (List Byte)
  | [] => some []
  | a :: t =>
    match clineAttr path a, clineAttrs path t with
    | some x, some y => some (x ++ y)
    | _, _ => none

mutual
/-- `cline_print_node`, xmq.c 2823-2857.  Entity references have no children (they are not declared). -/
def clineNode (path : List (List Byte)) : Node → Option (List Byte)
  | .text s =>
    match quoteAsC s false with
    | none => none
    | some q => some (clinePath path ++ b#"=" ++ b#"\"" ++ q ++ b#"\"" ++ b#"\n")
  | .element name attrs kids =>
    match clineAttrs (path ++ [name]) attrs with
    | none => none
    | some as =>
      if kids.isEmpty then some (as ++ (clinePath (path ++ [name]) ++ b#"=\"\"\n"))
      else
        match clineNodes (path ++ [name]) kids with
        | none => none
        | some ks => some (as ++ ks)
  | .entity _ => some []
  | .comment _ => some []
/-- `cline_print_nodes`, xmq.c 2859-2868. -/
def clineNodes (path : List (List Byte)) : List Node → Option (List Byte)
  | [] => some []
  | n :: t =>
    match clineNode path n, clineNodes path t with
    | some x, some y => some (x ++ y)
    | _, _ => none
end

/-- `xmq_print_clines`, xmq.c 2913-2923. -/
def printClines (doc : List Node) : Option (List Byte) := clineNodes [] doc

mutual
/-- `text_print_node`, xmq.c 2762-2783. -/
def textNode : Node → List Byte
  | .text s => s
  | .entity n => b#"<ENTITY>" ++ n
  | .element _ _ kids => textNodes kids
  | .comment _ => []
/-- `text_print_nodes`, xmq.c 2785-2794. -/
def textNodes : List Node → List Byte
  | [] => []
  | n :: t => textNode n ++ textNodes t
end

/-- `xmq_print_text`, xmq.c 2796-2806. -/
def printText (doc : List Node) : List Byte := textNodes doc

/-- `xmq_parse_buffer_text`, xmq.c 4003-4025: `strndup` stops at a NUL byte. -/
def parseText (s : List Byte) (implicitRoot : Option (List Byte)) : List Node :=
  let text := Node.text (s.takeWhile (· != 0))
  match implicitRoot with
  | some r => if r.isEmpty then [text] else [.element r [] [text]]
  | none => [text]

end Xmq
