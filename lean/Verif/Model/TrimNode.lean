import Verif.Model.Trim
/-!
# Trimming of text nodes read from XML or HTML (xmq.c 3005-3042)
-/
namespace Xmq

/-- Outcome of `trim_text_node`. -/
inductive Trimmed where
  /-- The node is removed. -/
  | removed
  | content (s : List Byte)
  /-- A read or write outside the memory. -/
  | outside
deriving DecidableEq, Repr

/-- The two loops in xmq.c 3029-3030. -/
def stripSpaces (s : List Byte) : List Byte :=
  ((s.dropWhile (· == b#' ')).reverse.dropWhile (· == b#' ')).reverse

/-- `trim_text_node`, xmq.c 3005-3042.  The byte at `stop` is a space if spaces were removed at the end, the terminating NUL otherwise. -/
def trimTextNode (content : List Byte) : Trimmed :=
  if content.all isXmlWhitespace then .removed
  else
    match unQuote 0 0 (if content.getLast? = some b#' ' then b#' ' else 0) (stripSpaces content) false with
    | none => .outside
    | some [] => .removed
    | some t => .content t

end Xmq
