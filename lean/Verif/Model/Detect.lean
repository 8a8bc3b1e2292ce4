import Verif.Model.Text
/-!
# Content detection, byte order marks, choice of the parser (xmq.c 1029-1154, 1797-1825, 4050-4110)

A buffer `[start, stop)` is the list of its bytes; the byte at `stop` is the NUL that terminates it.  Reading behind that
NUL is the outcome `none`.
-/
namespace Xmq

/-- `XMQContentType`, xmq.h, as far as detection answers with it. -/
inductive Detected
  | xmq | xml | html | json
deriving DecidableEq, Repr

/-- `tolower` for ASCII, as used by `strncasecmp`. -/
def toLower (c : Byte) : Byte := if c ≥ b#'A' && c ≤ b#'Z' then c + 32 else c

/-- `isalnum` in the C locale. -/
def isAlnum (c : Byte) : Bool :=
  (c ≥ b#'a' && c ≤ b#'z') || (c ≥ b#'A' && c ≤ b#'Z') || (c ≥ b#'0' && c ≤ b#'9')

/-- `!strncasecmp(i, word, strlen(word))`: the comparison stops at the terminating NUL at the latest. -/
def prefixIgnoreCase : List Byte → List Byte → Bool
  | [], _ => true
  | w :: ws, s => toLower (peek s) == toLower w && (match s with | [] => false | _ :: t => prefixIgnoreCase ws t)

/-- `find_word_ignore_case`, xmq.c 1030-1046, for `start <= stop`: what follows the word. -/
def findWordIgnoreCase (s word : List Byte) : Option (List Byte) :=
  let i := s.dropWhile isXmlWhitespace
  if prefixIgnoreCase word i then
    let next := i.drop word.length
    let n := peek next
    if isXmlWhitespace n || n == 0 || !isAlnum n then some next else none
  else none

/-- The loop that looks for the end of a comment, xmq.c 1074-1083: what follows it, nothing if there is no end or nothing
    follows. -/
def afterXmlComment : List Byte → List Byte
  | a :: b :: c :: t => if a == b#'-' && b == b#'-' && c == b#'>' then t else afterXmlComment (b :: c :: t)
  | _ => []

/-- xmq.c 1094-1120, at `i < stop`: html or xml.  `none`: the word is looked for behind the terminating NUL. -/
def detectHtml (i : List Byte) : Option Detected :=
  match findWordIgnoreCase i.tail b#"html" with
  | some _ => some .html
  | none =>
    match findWordIgnoreCase i b#"<!doctype" with
    | none => some .xml
    | some [] => none
    | some (_ :: r) =>
      match findWordIgnoreCase r b#"html" with
      | some _ => some .html
      | none => some .xml

/-- xmq.c 1059-1121: the first significant byte is `<`. -/
def detectMarkup (s : List Byte) : Option Detected :=
  if s.take 5 = b#"<?xml" then some .xml
  else if s.take 4 = b#"<!--" then
    match afterXmlComment s with
    | [] => some .xml
    | r => detectHtml r
  else detectHtml s

/-- The number of bytes compared for `true`, `null`, `false`, xmq.c 1130-1132. -/
def literalLen (c : Byte) : Nat := if c == b#'t' || c == b#'n' then 4 else if c == b#'f' then 5 else 0

/-- xmq.c 1134-1148: the buffer holds only `true`, `false` or `null`, perhaps with a newline. -/
def isJsonLiteral (s : List Byte) : Bool :=
  let l := literalLen (peek s)
  l != 0 && decide (l ≤ s.length) && (s.length == l || (peek (s.drop l) == b#'\n' && s.length == l + 1)) &&
    (s.take 4 == b#"true" || s.take 5 == b#"false" || s.take 4 == b#"null")

/-- `xmqDetectContentType`, xmq.c 1048-1154. -/
def detect : List Byte → Option Detected
  | [] => some .xmq
  | c :: t =>
    if isXmlWhitespace c then detect t
    else if c == b#'<' then detectMarkup (c :: t)
    else if c == b#'{' || c == b#'"' || c == b#'[' || (c ≥ b#'0' && c ≤ b#'9') then some .json
    else if isJsonLiteral (c :: t) then some .json
    else some .xmq

/-- `skip_any_potential_bom`, xmq.c 1797-1825.  `none` is NULL. -/
def skipBom (s : List Byte) : Option (List Byte) :=
  match s with
  | a :: b :: c :: d :: t =>
    if a == 0xef && b == 0xbb && c == 0xbf then some (d :: t)
    else if (a == 0xff && b == 0xfe) || (a == 0xfe && b == 0xff) then none
    else some s
  | [a, b, _] => if (a == 0xff && b == 0xfe) || (a == 0xfe && b == 0xff) then none else some s
  | _ => some s

/-- The content type asked for, xmq.h (`XMQ_CONTENT_DETECT` and the explicit ones). -/
inductive Wanted
  | detect | xmq | htmq | xml | html | json | ixml | text | clines
deriving DecidableEq, Repr

/-- The parser that runs. -/
inductive Runs
  | xmq | xml | html | json | ixml | text | clines
deriving DecidableEq, Repr

/-- The content type that was detected, as a request. -/
def Detected.wanted : Detected → Wanted
  | .xmq => .xmq
  | .xml => .xml
  | .html => .html
  | .json => .json

/-- The `switch`, xmq.c 4104-4115. -/
def Wanted.runs : Wanted → Option Runs
  | .xmq => some .xmq
  | .htmq => some .xmq
  | .xml => some .xml
  | .html => some .html
  | .json => some .json
  | .ixml => some .ixml
  | .text => some .text
  | .clines => some .clines
  | .detect => none

/-- `xmqParseBufferWithType` up to the call of a parser, xmq.c 4050-4115: which parser runs, `none` if the call fails.  `d` is
    the detected type (not computed for ixml). -/
def chooseParser (ct : Wanted) (d : Detected) : Option Runs :=
  if ct = .ixml then some .ixml
  else if ct = .detect then d.wanted.runs
  else if ct ≠ d.wanted ∧ ct ≠ .text then
    if d = .xml ∧ ct = .html then ct.runs else none
  else ct.runs

end Xmq
