import Verif.Spec.Colour
import Verif.Model.Highlight
/-!
# What is seen of a highlighted source text
-/
namespace Xmq.Spec

/-- Where a reader of HTML is: in text, at the very start of a `pre` element, or in a tag of which something has been read. -/
inductive PageAt
  | text
  | preStart
  | tag (read : List Byte)

/-- The characters that HTML shows, each with the name of the innermost open element.  A newline at the very start of a `pre`
    element is not shown (HTML standard, 13.2.6.4.7).  The second argument is the list of open elements. -/
def pageCells : PageAt → List (List Byte) → List Byte → List (List Byte × Byte)
  | _, _, [] => []
  | .tag r, st, c :: t =>
    if c = b#'>' then
      if r.head? = some b#'/' then pageCells .text (st.drop 1) t
      else
        let name := r.takeWhile (· ≠ b#' ')
        pageCells (if name = b#"pre" then .preStart else .text) (name :: st) t
    else pageCells (.tag (r ++ [c])) st t
  | .preStart, st, 10 :: t => pageCells .text st t
  | _, st, 60 :: t => pageCells (.tag []) st t
  | _, st, 38 :: 97 :: 109 :: 112 :: 59 :: t => (st.headD [], b#'&') :: pageCells .text st t
  | _, st, 38 :: 108 :: 116 :: 59 :: t => (st.headD [], b#'<') :: pageCells .text st t
  | _, st, 38 :: 103 :: 116 :: 59 :: t => (st.headD [], b#'>') :: pageCells .text st t
  | _, st, 38 :: 113 :: 117 :: 111 :: 116 :: 59 :: t => (st.headD [], b#'"') :: pageCells .text st t
  | _, st, c :: t => (st.headD [], c) :: pageCells .text st t

/-- The text that HTML shows. -/
def pageShown (s : List Byte) : List Byte := (pageCells .text [] s).map Prod.snd

/-- The colour sequence in force in a terminal at the end of a text; see `ansiCells`. -/
def ansiEnd : List Byte → Option (List Byte) → List Byte → List Byte
  | cur, _, [] => cur
  | cur, some q, c :: t => if c = b#'m' then ansiEnd (q ++ [c]) none t else ansiEnd cur (some (q ++ [c])) t
  | cur, none, 27 :: t => ansiEnd cur (some [27]) t
  | cur, none, _ :: t => ansiEnd cur none t

/-- The text that TeX shows, for a reader of the few commands that are used: `\name{` and braces show nothing, `\&`, `\_` and
    `\\` show a character.  The first argument: within the name of a command. -/
def texShown : Bool → List Byte → List Byte
  | _, [] => []
  | true, c :: t => if c = b#'{' ∨ c = b#' ' then texShown false t else texShown true t
  | false, 92 :: 38 :: t => b#'&' :: texShown false t
  | false, 92 :: 95 :: t => b#'_' :: texShown false t
  | false, 92 :: 92 :: t => b#'\\' :: texShown false t
  | false, 92 :: t => texShown true t
  | false, c :: t => if c = b#'{' ∨ c = b#'}' then texShown false t else c :: texShown false t

/-- The numbers of a sequence `ESC [ n ; n ; ... m`, behind the bracket.  The first argument is the number read so far. -/
def sgrNumbers : Nat → List Byte → Option (List Nat)
  | _, [] => none
  | n, c :: t =>
    if c = b#'m' then (if t = [] then some [n] else none)
    else if c = b#';' then (sgrNumbers 0 t).map (n :: ·)
    else if 48 ≤ c.toNat ∧ c.toNat < 58 then sgrNumbers (n * 10 + (c.toNat - 48)) t
    else none

/-- The numbers of a colour sequence. -/
def sgr : List Byte → Option (List Nat)
  | 27 :: 91 :: t => sgrNumbers 0 t
  | _ => none

/-- What a token is to the reader of a source text, and the name of its colour: comments, quotes between elements, entities,
    prefixes, names of elements with content, names in front of `=` and their values, attributes and their values, the parentheses
    of compound values, namespace declarations.  Everything else has no colour. -/
def tokenColour : Kind → Option (List Byte)
  | .comment => some b#"xmqC" | .comment_continuation => some b#"xmqC"
  | .quote => some b#"xmqQ"
  | .entity => some b#"xmqE" | .element_value_entity => some b#"xmqE" | .element_value_compound_entity => some b#"xmqE"
  | .attr_value_entity => some b#"xmqE" | .attr_value_compound_entity => some b#"xmqE"
  | .element_ns => some b#"xmqNS" | .attr_ns => some b#"xmqNS"
  | .element_name => some b#"xmqEN"
  | .element_key => some b#"xmqEK"
  | .element_value_text => some b#"xmqEKV" | .element_value_quote => some b#"xmqEKV"
  | .element_value_compound_quote => some b#"xmqEKV"
  | .attr_key => some b#"xmqAK"
  | .attr_value_text => some b#"xmqAKV" | .attr_value_quote => some b#"xmqAKV" | .attr_value_compound_quote => some b#"xmqAKV"
  | .cpar_left => some b#"xmqCP" | .cpar_right => some b#"xmqCP"
  | .ns_declaration => some b#"xmqNSD"
  | .whitespace => none | .equals => none | .brace_left => none | .brace_right => none | .apar_left => none
  | .apar_right => none | .ns_colon => none

end Xmq.Spec
