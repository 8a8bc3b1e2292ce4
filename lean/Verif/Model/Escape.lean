import Verif.Basic
/-!
# Escaping of XML comments, HTML and TeX output

C strings are lists of bytes without the terminating NUL; look-ahead past the end sees the NUL.
-/
namespace Xmq

/-- The test for the escape character U+2410 in `escape_xml_comment` and `unescape_xml_comment`, xmq.c 3161-3163. -/
def startsWithDle (t : List Byte) : Bool :=
  match t with
  | a :: b :: c :: _ => a == 0xe2 && b == 0x90 && c == 0x90
  | _ => false

/-- The condition under which an escape is inserted behind the byte `c`, xmq.c 3160-3163. -/
def needsDle (c : Byte) (t : List Byte) : Bool := c == b#'-' && (peek t == b#'-' || startsWithDle t)

/-- The counting loop of `escape_xml_comment`, xmq.c 3158-3167. -/
def countDle : List Byte → Nat
  | [] => 0
  | c :: t => (if needsDle c t then 1 else 0) + countDle t

/-- The copying loop of `escape_xml_comment`, xmq.c 3178-3191. -/
def copyDle : List Byte → List Byte
  | [] => []
  | c :: t => c :: (if needsDle c t then [0xe2, 0x90, 0x90] else []) ++ copyDle t

/-- `escape_xml_comment`, xmq.c 3153-3195.  NULL (`none`) means that the text can be used as it is.  The second component
    is the size of the allocated buffer. -/
def escapeXmlComment (s : List Byte) : Option (List Byte × Nat) :=
  if countDle s = 0 then none else some (copyDle s, s.length + countDle s * 3 + 1)

/-- The comment text that is written, `fixup_html`, xmq.c 3246-3256. -/
def writtenComment (s : List Byte) : List Byte :=
  match escapeXmlComment s with
  | none => s
  | some (t, _) => t

/-- The counting loop of `unescape_xml_comment`, xmq.c 3203-3211. -/
def countUndle : List Byte → Nat
  | [] => 0
  | c :: t => (if c == b#'-' && startsWithDle t then 1 else 0) + countUndle t

/-- The copying loop of `unescape_xml_comment`, xmq.c 3221-3231; `skip` bytes are still to be skipped. -/
def copyUndle : Nat → List Byte → List Byte
  | _, [] => []
  | skip + 1, _ :: t => copyUndle skip t
  | 0, c :: t => c :: copyUndle (if c == b#'-' && startsWithDle t then 3 else 0) t

/-- `unescape_xml_comment`, xmq.c 3197-3238.  The second component is the size of the allocated buffer. -/
def unescapeXmlComment (s : List Byte) : Option (List Byte × Nat) :=
  if countUndle s = 0 then none else some (copyUndle 0 s, s.length + 1)

/-- The comment text after reading XML, `fixup_comments`, xmq.c 3388-3405. -/
def readComment (s : List Byte) : List Byte :=
  match unescapeXmlComment s with
  | none => s
  | some (t, _) => t

/-- `write_safe_html`, xmq.c 820-834. -/
def writeSafeHtml : List Byte → List Byte
  | [] => []
  | c :: t =>
    (if c == b#'&' then b#"&amp;"
     else if c == b#'<' then b#"&lt;"
     else if c == b#'>' then b#"&gt;"
     else if c == b#'"' then b#"&quot;"
     else [c]) ++ writeSafeHtml t

/-- `write_safe_tex`, xmq.c 836-848. -/
def writeSafeTex : List Byte → List Byte
  | [] => []
  | c :: t =>
    (if c == b#'&' then b#"\\&"
     else if c == b#'\\' then b#"\\\\"
     else if c == b#'_' then b#"\\_"
     else [c]) ++ writeSafeTex t

/-- `needs_escape` for `XMQ_RENDER_HTML`, parts/xmq_internals.c 283-289; `none` is NULL. -/
def needsEscapeHtml (c : Byte) : Option (List Byte) :=
  if c == b#'&' then some b#"&amp;"
  else if c == b#'<' then some b#"&lt;"
  else if c == b#'>' then some b#"&gt;"
  else none

/-- `needs_escape` for `XMQ_RENDER_TEX`, parts/xmq_internals.c 291-302. -/
def needsEscapeTex (c : Byte) : Option (List Byte) :=
  if c == b#'\\' then some b#"\\backslash;"
  else if c == b#'&' then some b#"\\&"
  else if c == b#'#' then some b#"\\#"
  else if c == b#'{' then some b#"\\{"
  else if c == b#'}' then some b#"\\}"
  else if c == b#'_' then some b#"\\_"
  else if c == b#'\'' then some b#"{'}"
  else none

/-- The bytes of a text as `print_utf8_internal` writes them with one of the two tables (parts/utf8.c 60-120), for bytes
    that are written one by one.  Simplified: a UTF-8 sequence is written as a whole there, its bytes are never escaped. -/
def renderWith (f : Byte → Option (List Byte)) (s : List Byte) : List Byte := s.flatMap fun c => (f c).getD [c]

end Xmq
