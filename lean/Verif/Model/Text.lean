import Verif.Model.Utf8
/-!
# Character classes and whitespace scans (parts/text.c, parts/xmq_internals.c)
-/
namespace Xmq

/-- `is_lowercase_hex`, parts/text.c 156-161. -/
def isLowercaseHex (c : Byte) : Bool :=
  (c ≥ b#'0' && c ≤ b#'9') || (c ≥ b#'a' && c ≤ b#'f')

/-- `is_xmq_text_name`, parts/text.c 393-400. -/
def isXmqTextName (c : Byte) : Bool :=
  if c ≥ b#'a' && c ≤ b#'z' then true
  else if c ≥ b#'A' && c ≤ b#'Z' then true
  else if c ≥ b#'0' && c ≤ b#'9' then true
  else if c == b#'-' || c == b#'_' || c == b#'.' || c == b#':' || c == b#'#' then true
  else false

/-- `is_xmq_element_start`, parts/text.c 402-408. -/
def isXmqElementStart (c : Byte) : Bool :=
  if c ≥ b#'a' && c ≤ b#'z' then true
  else if c ≥ b#'A' && c ≤ b#'Z' then true
  else if c == b#'_' then true
  else false

/-- `is_xmq_token_whitespace`, parts/text.c 427-434. -/
def isXmqTokenWhitespace (c : Byte) : Bool :=
  c == b#' ' || c == b#'\n' || c == b#'\r'

/-- `is_xml_whitespace`, parts/text.c 436-443. -/
def isXmlWhitespace (c : Byte) : Bool :=
  c == b#' ' || c == b#'\n' || c == b#'\t' || c == b#'\r'

/-- `count_whitespace`, parts/xmq_internals.c 135-185: how many bytes long is the whitespace
    character at this position, 0 if there is none.  The byte at `stop` is NUL. -/
def countWhitespace (s : List Byte) : Nat :=
  let c := peek s
  if c == b#' ' || c == b#'\n' || c == b#'\t' || c == b#'\r' then 1
  else
    match s with
    | _ :: cc :: t =>
      if c != 0xc2 && c != 0xe2 then 0
      else if c == 0xc2 && cc == 0xa0 then 2
      else if c == 0xe2 && cc == 0x80 then
        match t with
        | [] => 0
        | ccc :: _ =>
          if ccc == 0x80 then 3
          else if ccc == 0x81 then 3
          else if ccc == 0x82 then 3
          else if ccc == 0x83 then 3
          else 0
      else 0
    | _ => 0

/-- `unsafe_value_start`, parts/xmq_internals.c 597-600. -/
def unsafeValueStart (c cc : Byte) : Bool :=
  c == b#'=' || c == b#'&' || (c == b#'/' && (cc == b#'/' || cc == b#'*'))

/-- `is_safe_value_char`, parts/xmq_internals.c 602-615. -/
def isSafeValueChar (s : List Byte) : Bool :=
  let c := peek s
  !(countWhitespace s > 0 || c == b#'\n' || c == b#'(' || c == b#')' || c == b#'\'' || c == b#'"' ||
    c == b#'{' || c == b#'}' || c == b#'\t' || c == b#'\r')

/-- `is_xmq_text_value`, parts/xmq_parser.c 428-443.  The loop over `start..stop`. -/
def allSafeValueChars : List Byte → Bool
  | [] => true
  | c :: t => isSafeValueChar (c :: t) && allSafeValueChars t

/-- `is_xmq_text_value`, parts/xmq_parser.c 428-443.  `*(start+1)` is the NUL terminator for a
    one byte text (all callers pass NUL terminated or longer memory). -/
def isXmqTextValue (s : List Byte) : Bool :=
  if unsafeValueStart (peek s) (peek s.tail) then false else allSafeValueChars s

/-- Result of `has_leading_space_nl` / `has_ending_nl_space`: `none` is the NULL pointer.
    Otherwise the whitespace run, the remaining text, and `*only_newlines`. -/
structure NlSpace where
  ws : List Byte
  text : List Byte
  onlyNewlines : Nat
deriving DecidableEq, Repr

/-- `has_leading_space_nl`, parts/text.c 14-58. `ws` is `start..result`, `text` is `result..stop`.
    `middle == i` means that no further whitespace follows the leading newlines. -/
def hasLeadingSpaceNl (s : List Byte) : Option NlSpace :=
  let nls := s.takeWhile (· == b#'\n')
  let s1 := s.dropWhile (· == b#'\n')
  let ws := s1.takeWhile isXmlWhitespace
  let s2 := s1.dropWhile isXmlWhitespace
  -- The second loop looks at the byte that stops it as well, but that byte is not a newline.
  let foundNl := nls.length > 0 || ws.any (· == b#'\n')
  if !foundNl then none
  else some ⟨nls ++ ws, s2, if nls.length > 0 && ws.length == 0 then nls.length else 0⟩

/-- `has_ending_nl_space`, parts/text.c 60-98: the mirror image, scanning backwards.
    `text` is `start..result`, `ws` is `result..stop`.  The backward scan is modelled as a forward
    scan over the reversed text.  Here `middle` is never NULL, hence the slightly different test. -/
def hasEndingNlSpace (s : List Byte) : Option NlSpace :=
  let r := s.reverse
  let nls := r.takeWhile (· == b#'\n')
  let r1 := r.dropWhile (· == b#'\n')
  let ws := r1.takeWhile isXmlWhitespace
  let r2 := r1.dropWhile isXmlWhitespace
  let foundNl := nls.length > 0 || ws.any (· == b#'\n')
  if !foundNl then none
  else some ⟨(nls ++ ws).reverse, r2.reverse, if ws.length == 0 then nls.length else 0⟩

/-- `has_leading_ending_quote`, parts/text.c 100-103. -/
def hasLeadingEndingQuote (s : List Byte) : Bool :=
  !s.isEmpty && (s.head? == some b#'\'' || s.getLast? == some b#'\'')

/-- `has_newlines`, parts/text.c 105-112. -/
def hasNewlines (s : List Byte) : Bool := s.any (· == b#'\n')

/-- `has_all_quotes`, parts/text.c 123-130. -/
def hasAllQuotes (s : List Byte) : Bool := s.all (· == b#'\'')

/-- `has_all_whitespace`, parts/text.c 132-154: (result, `*all_space`, `*only_newlines`). -/
def hasAllWhitespace (s : List Byte) : Bool × Bool × Bool :=
  if s.all isXmlWhitespace then (true, s.all (· == b#' '), s.all (· == b#'\n'))
  else (false, false, false)

end Xmq
