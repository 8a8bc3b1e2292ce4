import Verif.Model.Text
/-!
# C style quoting (parts/text.c 456-598) and JSON strings (parts/json.c 92-180)
-/
namespace Xmq

/-- `to_hex`, parts/text.c 456-460. -/
def toHex (c : Nat) : Byte := if c ≤ 9 then UInt8.ofNat (48 + c) else UInt8.ofNat (55 + c)

/-- What `xmq_quote_as_c` writes for a single byte, parts/text.c 517-527.  `char` is signed: the bytes from 128 on are not `>= ' '`. -/
def escapeC (c : Byte) : List Byte :=
  if c ≥ b#' ' && c ≤ 126 && c != b#'"' && c != b#'\\' then [c]
  else if c == b#'\\' then b#"\\\\"
  else if c == b#'"' then b#"\\\""
  else if c == 7 then b#"\\a"
  else if c == 8 then b#"\\b"
  else if c == 9 then b#"\\t"
  else if c == 10 then b#"\\n"
  else if c == 11 then b#"\\v"
  else if c == 12 then b#"\\f"
  else if c == 13 then b#"\\r"
  else [b#'\\', b#'x', toHex (c.toNat / 16), toHex (c.toNat % 16)]

/-- The loop of `xmq_quote_as_c`, parts/text.c 502-529, with `peek_utf8_char` (parts/text.c 180-230).  `skip`: bytes of a
    UTF-8 sequence still to be copied.  A byte that starts no sequence makes `peek_utf8_char` read the three bytes behind it.
    The byte at `stop` is the terminating NUL; `none`: a byte behind it is read.  A sequence that lacks just its last byte
    gets the NUL copied. -/
def quoteAsCLoop : Nat → List Byte → Option (List Byte)
  | _, [] => some []
  | skip + 1, c :: t => (quoteAsCLoop skip t).map (c :: ·)
  | 0, c :: t =>
    let n := numUtf8Bytes c
    if n = 1 then (if c == 0 then some (escapeC c) else (quoteAsCLoop 0 t).map (escapeC c ++ ·))
    else if n = 0 then (if t.length < 2 then none else (quoteAsCLoop 0 t).map (escapeC c ++ ·))
    else if n > t.length + 2 then none
    else if n = t.length + 2 then some (c :: t ++ [0])
    else (quoteAsCLoop (n - 1) t).map (c :: ·)

/-- `xmq_quote_as_c`, parts/text.c 467-538: the bytes written before the final NUL. -/
def quoteAsC (s : List Byte) (addQuotes : Bool) : Option (List Byte) :=
  (quoteAsCLoop 0 s).map fun q => if addQuotes then b#'"' :: (q ++ [b#'"']) else q

/-- What an escape stands for, parts/text.c 576-584; other escapes vanish. -/
def unescapeC (c : Byte) : List Byte :=
  if c == b#'"' then [b#'"']
  else if c == b#'n' then [10]
  else if c == b#'a' then [7]
  else if c == b#'b' then [8]
  else if c == b#'t' then [9]
  else if c == b#'v' then [11]
  else if c == b#'f' then [12]
  else if c == b#'r' then [13]
  else []

/-- The loop of `xmq_unquote_as_c`, parts/text.c 569-590: the bytes written and the text at `i` when it ends. -/
def unquoteAsCLoop (removeQuotes : Bool) : List Byte → List Byte × List Byte
  | [] => ([], [])
  | [c] => if removeQuotes && c == b#'"' then ([], [c]) else if c == b#'\\' then ([], []) else ([c], [])
  | c :: d :: t =>
    if removeQuotes && c == b#'"' then ([], c :: d :: t)
    else if c == b#'\\' then
      let r := unquoteAsCLoop removeQuotes t
      (unescapeC d ++ r.1, r.2)
    else
      let r := unquoteAsCLoop removeQuotes (d :: t)
      (c :: r.1, r.2)

/-- The text returned for something that is not quoted, parts/text.c 566. -/
def notValidC : List Byte := b#"[Not a valid C escaped string]"

/-- `xmq_unquote_as_c`, parts/text.c 545-598. -/
def unquoteAsC (s : List Byte) (removeQuotes : Bool) : List Byte :=
  if s.isEmpty then []
  else if removeQuotes then
    let i := s.dropWhile isXmlWhitespace
    if peek i != b#'"' then notValidC
    else
      let r := unquoteAsCLoop true (i.drop 1)
      if peek r.2 != b#'"' then notValidC else r.1
  else (unquoteAsCLoop false s).1

/-- `is_hex`, parts/xmq_internals.c 255-261. -/
def isHexByte (c : Byte) : Bool :=
  (c ≥ b#'0' && c ≤ b#'9') || (c ≥ b#'a' && c ≤ b#'f') || (c ≥ b#'A' && c ≤ b#'F')

/-- `hex_value`, parts/xmq_internals.c 263-270, for hexadecimal digits. -/
def hexValue (c : Byte) : Nat :=
  if c ≥ b#'0' && c ≤ b#'9' then c.toNat - 48
  else if c ≥ b#'a' && c ≤ b#'f' then c.toNat - 87
  else c.toNat - 55

/-- The single byte escapes of `eat_json_quote`, parts/json.c 116-125. -/
def jsonEscape (c : Byte) : Option Byte :=
  if c == b#'"' then some b#'"'
  else if c == b#'\\' then some b#'\\'
  else if c == b#'b' then some 8
  else if c == b#'f' then some 12
  else if c == b#'n' then some 10
  else if c == b#'r' then some 13
  else if c == b#'t' then some 9
  else none

/-- The loop of `eat_json_quote`, parts/json.c 105-166, behind the opening quote: the decoded text and what follows the closing
    quote.  `none`: invalid escape.  The end of the buffer closes the string as well. -/
def eatJsonQuote : List Byte → Option (List Byte × List Byte)
  | [] => some ([], [])
  | [c] => if c == b#'"' then some ([], []) else if c == b#'\\' then none else some ([c], [])
  | c :: d :: t =>
    if c == b#'"' then some ([], d :: t)
    else if c == b#'\\' then
      match jsonEscape d with
      | some e => (eatJsonQuote t).map fun r => (e :: r.1, r.2)
      | none =>
        if d == b#'u' then
          match t with
          | h1 :: h2 :: h3 :: h4 :: t =>
            if isHexByte h1 && isHexByte h2 && isHexByte h3 && isHexByte h4 then
              match encodeUtf8 (hexValue h1 <<< 12 ||| hexValue h2 <<< 8 ||| hexValue h3 <<< 4 ||| hexValue h4 : Nat) with
              | some u => (eatJsonQuote t).map fun r => (u ++ r.1, r.2)
              | none => none
            else none
          | _ => none
        else none
    else (eatJsonQuote (d :: t)).map fun r => (c :: r.1, r.2)

end Xmq
