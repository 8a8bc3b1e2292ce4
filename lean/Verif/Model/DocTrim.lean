import Verif.Model.TrimNode
import Verif.Model.Tree
/-!
# Trimming of a whole document (xmq.c 3044-3082)

The document type definition is not modelled: a comment inside it is trimmed as well, and an entity reference whose entity is declared leads
`trim_node` to the declarations behind that one.
-/
namespace Xmq

mutual
/-- `trim_node`, xmq.c 3044-3070: what stands in the place of the node.  A text node that is not removed gets the trimmed text
    (`xmlNodeSetContent` stores it unchanged for texts and comments).  `none`: `trim_text_node` leaves the memory of the text. -/
def trimNode : Node → Option (List Node)
  | .text s =>
    match trimTextNode s with
    | .removed => some []
    | .content t => some [.text t]
    | .outside => none
  | .comment s =>
    match trimTextNode s with
    | .removed => some []
    | .content t => some [.comment t]
    | .outside => none
  | .entity name => some [.entity name]
  | .element name attrs kids =>
    match trimNodes kids with
    | some ks => some [.element name attrs ks]
    | none => none
/-- The loops of `trim_node`, xmq.c 3063-3069, and `xmqTrimWhitespace`, xmq.c 3072-3082. -/
def trimNodes : List Node → Option (List Node)
  | [] => some []
  | n :: t =>
    match trimNode n, trimNodes t with
    | some x, some y => some (x ++ y)
    | _, _ => none
end

/-- `xmqTrimWhitespace`, xmq.c 3072-3082. -/
def trimDoc (doc : List Node) : Option (List Node) := trimNodes doc

end Xmq
