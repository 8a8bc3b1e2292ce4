import Verif.Model.Tree
/-!
# Log lines: `xmqLinePrintf` (xmq.c 4671-4960)

`printf` itself is not modelled: an argument is given as the text that its format expands to.  The list of keys and values
ends where the caller gives NULL; a key that begins with `}` ends it too.
-/
namespace Xmq

/-- `vsnprintf` into a buffer of 1024 bytes, xmq.c 4726-4742, 4805-4820 and 4905-4920.  If the text does not fit the code calls
    `vsnprintf` again with the same `va_list`, whose value is indeterminate after the first call (C11 7.16.1.1 and 7.21.6.12):
    undefined behaviour. -/
def formatted (text : List Byte) : Option (List Byte) := if text.length < 1024 then some text else none

/-- `membuffer_back`, parts/membuffer.c 194-198. -/
def back (s : List Byte) : Byte := s.getLast?.getD 0

/-- The loop of `xmq_line_vprintf_xmq`, xmq.c 4886-4927.  A key that does not end in `=` ends it with a warning; an empty key
    makes the code read before the string. -/
def lineFields : List Byte → List (List Byte × List Byte) → Option (List Byte)
  | mb, [] => some mb
  | mb, (key, text) :: rest =>
    match key.getLast? with
    | none => none
    | some e =>
      if peek key == b#'}' then some mb
      else
        let last := back mb
        let mb := if last != b#'\'' && last != b#'(' && last != b#')' && last != b#'{' && last != b#'}' then mb ++ [b#' '] else mb
        if e != b#'=' then some mb
        else
          match formatted text with
          | none => none
          | some v => lineFields (mb ++ key ++ compactQuote v) rest

/-- `xmq_line_vprintf_xmq`, xmq.c 4844-4937.  `text` is the expansion of the format that is used if the name does not end in
    `{`. -/
def lineXmq (name text : List Byte) (fields : List (List Byte × List Byte)) : Option (List Byte) :=
  match name.getLast? with
  | none => none
  | some c =>
    if c != b#'{' then
      match formatted text with
      | none => none
      | some v => some ((if c != b#'=' then b#"log=" else name) ++ compactQuote v)
    else (lineFields name fields).map (· ++ b#"}")

/-- The loop of `xmq_line_vprintf_hr`, xmq.c 4788-4836.  `first` is only set to false where it is false already, so the space
    between two fields is never printed. -/
def humanFields (first : Bool) : List Byte → List (List Byte × List Byte) → Option (List Byte)
  | mb, [] => some mb
  | mb, (key, text) :: rest =>
    match key.getLast? with
    | none => none
    | some e =>
      if peek key == b#'}' then some mb
      else
        let mb := if !first then mb ++ [b#' '] else mb
        if e != b#'=' then some mb
        else
          match formatted text with
          | none => none
          | some v => humanFields first (mb ++ key.dropLast ++ b#":" ++ v) rest

/-- `xmq_line_vprintf_hr`, xmq.c 4745-4842. -/
def lineHuman (name text : List Byte) (fields : List (List Byte × List Byte)) : Option (List Byte) :=
  match name.getLast? with
  | none => none
  | some c =>
    if c != b#'{' then
      match formatted text with
      | none => none
      | some v => some ((if c != b#'=' then b#"(log) " else b#"(" ++ name.dropLast ++ b#") ") ++ v)
    else humanFields true (b#"(" ++ name ++ b#") ") fields

/-- `xmqLineVPrintf`, xmq.c 4939-4946. -/
def linePrintf (human : Bool) (name text : List Byte) (fields : List (List Byte × List Byte)) : Option (List Byte) :=
  if human then lineHuman name text fields else lineXmq name text fields

/-- `xmqLineDoc`, xmq.c 4719-4722. -/
def lineDoc (_ : List Node) : List Byte := b#"{howdy}"

end Xmq
