import Verif.Model.Escape
import Verif.Model.Builder
/-!
# What is done to a document before it is written as XML or HTML and after it was read (xmq.c 3240-3432)

Both work on the document of the caller.  CDATA nodes are not modelled (`fixup_html` makes texts of them).
-/
namespace Xmq

/-- `tolower` of `strcasecmp` for ASCII. -/
def lowerByte (c : Byte) : Byte := if b#'A' ≤ c && c ≤ b#'Z' then c + 32 else c

/-- The names tested in xmq.c 3294-3296. -/
def isCdataName (name : List Byte) : Bool := name.map lowerByte == b#"style" || name.map lowerByte == b#"script"

/-- `node->name`; libxml2 uses fixed names for texts and comments. -/
def Node.nameOf : Node → List Byte
  | .text _ => b#"text"
  | .comment _ => b#"comment"
  | .entity name => name
  | .element name _ _ => name

/-- The text that replaces an entity reference inside `style` and `script`, xmq.c 3268-3286.  `content`: the content libxml2 found for the reference when it was
    made.  `atoi` reads decimal digits (a reference has neither sign nor blanks); a number that is too big for it gives `none`.  The int is stored in a char.
    `xmlNewDocText` makes an empty text of NULL. -/
def cdataText (content : List Byte → Option (List Byte)) (name : List Byte) : Option (List Byte) :=
  match content name with
  | some c => some c
  | none =>
    if peek name == b#'#' then
      let v := readDigits 10 name.tail 0
      if v < 2147483648 then
        let b := UInt8.ofNat v
        some (if b == 0 then [] else [b])
      else none
    else some []

mutual
/-- `fixup_html`, xmq.c 3240-3309. -/
def fixupHtml (content : List Byte → Option (List Byte)) (inside : Bool) : Node → Option Node
  | .text s => some (.text s)
  | .comment s => some (.comment (writtenComment s))
  | .entity name =>
    if inside then
      match cdataText content name with
      | some t => some (.text t)
      | none => none
    else some (.entity name)
  | .element name attrs kids =>
    match fixupHtmls content inside kids with
    | some ks => some (.element name attrs ks)
    | none => none
/-- The loop over the children, xmq.c 3288-3308. -/
def fixupHtmls (content : List Byte → Option (List Byte)) (inside : Bool) : List Node → Option (List Node)
  | [] => some []
  | n :: t =>
    match fixupHtml content (inside || isCdataName n.nameOf) n, fixupHtmls content inside t with
    | some x, some y => some (x :: y)
    | _, _ => none
end

/-- `xmq_fixup_html_before_writeout`, xmq.c 3311-3322.  The name of a topmost node is not looked at. -/
def fixupBefore (content : List Byte → Option (List Byte)) : List Node → Option (List Node)
  | [] => some []
  | n :: t =>
    match fixupHtml content false n, fixupBefore content t with
    | some x, some y => some (x :: y)
    | _, _ => none

mutual
/-- `fixup_comments`, xmq.c 3381-3416. -/
def fixupComment : Node → Node
  | .text s => .text s
  | .comment s => .comment (readComment s)
  | .entity name => .entity name
  | .element name attrs kids => .element name attrs (fixupComments kids)
/-- The loops of `fixup_comments`, xmq.c 3409-3415, and of `xmq_fixup_comments_after_readin`, 3418-3432. -/
def fixupComments : List Node → List Node
  | [] => []
  | n :: t => fixupComment n :: fixupComments t
end

end Xmq
