import Verif.Model.Parser
import Verif.Model.CQuote
import Verif.Model.ColourDef
/-!
# The text of an error (parts/xmq_internals.c 13-132, xmq.c 957-968, 1235-1245 and 1846-1851)

The places that the parser remembers only for error messages are recovered from the callbacks which it made: they are set
where the callback is made.  A place is a pointer into the buffer with its line and column; `none` is a pointer that was never
set.  As a result of the functions `none` is undefined behaviour.  `snprintf` cuts the text to its buffer.  Numbers are
printed as they are (`%zu`).
-/
namespace Xmq.ErrorMessage

/-- A place in the buffer, e.g. `last_body_start`, `last_body_start_line`, `last_body_start_col`,
    parts/xmq_internals.h 318-335. -/
structure Place where
  pos : Nat
  line : Nat
  col : Nat
deriving DecidableEq, Repr

/-- `snprintf(buf, n, "%s", text)`. -/
def snprintf (n : Nat) (text : List Byte) : List Byte := text.take (n - 1)

/-- How far `line_start` is moved back, parts/xmq_internals.c 72-78: the indent.  `p` is `line_start`, `n` both `line_length`
    and `indent`. -/
def indentLoop (s : List Byte) : Nat → Nat → Nat
  | 0, n => n
  | p + 1, n => if s[p]? != some b#'\n' && n < 1024 then indentLoop s p (n + 1) else n

/-- `line_length` after the second loop, parts/xmq_internals.c 81-86, from `line_stop` on. -/
def lineLoop : List Byte → Nat → Nat
  | [], n => n
  | c :: t, n => if c != 0 && c != b#'\n' && n < 1024 then lineLoop t (n + 1) else n

/-- `line_error`, parts/xmq_internals.c 66-86 and 102-111: the line and the mark below it.  `%.*s` stops at a NUL, `%*s` puts
    `indent - 1` spaces before the mark. -/
def lineError (s : List Byte) (pos : Nat) : List Byte :=
  let indent := indentLoop s pos 0
  let len := lineLoop (s.drop pos) indent
  if pos < s.length then
    snprintf 1024 (b#"\n" ++ ((s.drop (pos - indent)).take len).takeWhile (· != 0) ++ b#"\n " ++
      List.replicate (indent - 1) b#' ' ++ b#"^")
  else []

/-- The byte at a place of the buffer.  Behind the terminating NUL nothing may be read. -/
def byteAt (s : List Byte) (p : Nat) : Option Byte := if p < s.length then s[p]? else if p = s.length then some 0 else none

/-- `peek_utf8_char`, parts/text.c 180-226: `uc->bytes`, four of them.  A byte that begins no character leaves them unset;
    they are printed all the same. -/
def peekUtf8Char (s : List Byte) (p : Nat) : Option (List Byte) := do
  let a ← byteAt s p
  let n := numUtf8Bytes a
  if n = 1 then return [a, 0, 0, 0]
  let b ← byteAt s (p + 1)
  if n = 2 then return [a, b, 0, 0]
  let c ← byteAt s (p + 2)
  if n = 3 then return [a, b, c, 0]
  let d ← byteAt s (p + 3)
  if n = 4 then return [a, b, c, d]
  none

/-- `%X`.  The first argument bounds the number of digits. -/
def hexUpper : Nat → Nat → List Byte
  | 0, _ => []
  | k + 1, n => if n < 16 then [toHex n] else hexUpper k (n / 16) ++ [toHex (n % 16)]

/-- `utf8_char_to_codepoint_string`, parts/text.c 232-244. -/
def codepointString (bytes : List Byte) : List Byte :=
  let d := decodeUtf8 bytes
  if d.ok then b#"U+" ++ hexUpper (d.char + 1) d.char else b#"U+error"

/-- `char_error`, parts/xmq_internals.c 88-100.  `utf8_codepoint` has eight bytes; `utf8_char_to_codepoint_string` is not told. -/
def charError (s : List Byte) (p : Nat) : Option (List Byte) := do
  let bytes ← peekUtf8Char s p
  let code := codepointString bytes
  if code.length < 8 then
    return snprintf 32 (b#" \"" ++ bytes.takeWhile (· != 0) ++ b#"\" " ++ code)
  none

/-- `xmqParseErrorToString`, parts/xmq_internals.c 343-382, for the errors of the xmq parser. -/
def errorText : Err → List Byte
  | .notXmq => b#"input file is not xmq"
  | .quoteNotClosed => b#"quote is not closed"
  | .entityNotClosed => b#"entity is not closed"
  | .commentNotClosed => b#"comment is not closed"
  | .commentClosedWithTooManySlashes => b#"comment closed with too many slashes"
  | .bodyNotClosed => b#"body is not closed"
  | .attributesNotClosed => b#"attributes are not closed"
  | .compoundNotClosed => b#"compound is not closed"
  | .compoundMayNotContain => b#"compound may only contain quotes and entities"
  | .quoteClosedWithTooManyQuotes => b#"quote closed with too many quotes"
  | .unexpectedClosingBrace => b#"unexpected closing brace"
  | .expectedContentAfterEquals => b#"expected content after equals"
  | .unexpectedTab => b#"invalid tab character found, remember that tab is not allowed as a field separator, to store tab as content it must be quoted"
  | .invalidChar => b#"unexpected character"
  | .valueCannotStartWith => b#"value cannot start with = /* or //"

/-- The end of `generate_state_error_message`, parts/xmq_internals.c 113-131.  The xmq parser sets no `error_info`. -/
def format (source : List Byte) (w : Place) (kind text char line : List Byte) : List Byte :=
  snprintf 2048 (source ++ b#":" ++ decimal w.line ++ b#":" ++ decimal w.col ++ b#": " ++ kind ++ b#": " ++ text ++ char ++ line)

/-- Number of bytes of the tokens: where the next token begins. -/
def tokensLen (toks : List Tok) : Nat := (toks.map fun t => t.text.length).sum

/-- Where the latest token of this kind begins; `out` as in the parser, latest first. -/
def lastTok (k : Kind) : List Tok → Option Place
  | [] => none
  | t :: out => if t.kind = k then some ⟨tokensLen out, t.line, t.col⟩ else lastTok k out

/-- `last_equals_start`, parts/xmq_parser.c 753-755: only the one of an element is remembered, not those between the
    parentheses of attributes (the flag says that we are between them). -/
def lastEquals : Bool → List Tok → Option Place
  | _, [] => none
  | true, t :: out => lastEquals (t.kind != .apar_left) out
  | false, t :: out =>
    if t.kind = .equals then some ⟨tokensLen out, t.line, t.col⟩ else lastEquals (t.kind = .apar_right) out

/-- `possibly_need_more_quotes`, parts/xmq_parser.c 997-1032, `p` is `state->i`. -/
def possiblyNeedMoreQuotes (s : List Byte) (p : Nat) : Bool :=
  if p < 2 || p ≥ s.length then false
  else s[p - 2]? != some b#'\'' && s[p - 2]? != some b#' ' && s[p - 1]? == some b#'\'' && s[p]? != some b#'\''

/-- The kinds of `parse_xmq_quote`. -/
def isQuoteKind (k : Kind) : Bool :=
  k == .quote || k == .element_value_quote || k == .element_value_compound_quote || k == .attr_value_quote ||
    k == .attr_value_compound_quote

/-- `last_suspicios_quote_end`, parts/xmq_parser.c 55-63 and 111-116: behind an empty quote nothing is remembered. -/
def lastSuspicious (s : List Byte) : List Tok → Option Place
  | [] => none
  | t :: out =>
    if isQuoteKind t.kind && t.text != b#"''" && possiblyNeedMoreQuotes s (tokensLen (t :: out)) then
      let p := t.text.foldl (fun p c => incPos c p.1 p.2) (t.line, t.col)
      some ⟨tokensLen (t :: out) - 1, p.1, p.2 - 1⟩
    else lastSuspicious s out

/-- Where the parser stopped: `state->i`, `state->line`, `state->col`. -/
def stopped (st : St) : Place := ⟨st.before.length, st.line, st.col⟩

/-- The place that is reported, parts/xmq_internals.c 28-63.  `eat_xmq_quote` fails with `state->i` still at the quote, which
    is `last_quote_start`. -/
def placeOf (e : Err) (st : St) : Option Place :=
  match e with
  | .bodyNotClosed => lastTok .brace_left st.out
  | .attributesNotClosed => lastTok .apar_left st.out
  | .expectedContentAfterEquals => lastEquals false st.out
  | _ => some (stopped st)

/-- `generate_state_error_message` for an error, parts/xmq_internals.c 13-132.  With a pointer that was never set the second
    loop reads at NULL. -/
def errorMessage (source s : List Byte) (e : Err) (st : St) : Option (List Byte) := do
  let w ← placeOf e st
  let char ← if e = .invalidChar then charError s w.pos else some []
  return format source w b#"error" (errorText e) char (lineError s w.pos)

/-- `generate_state_error_message` for `XMQ_WARNING_QUOTES_NEEDED`. -/
def warningMessage (source s : List Byte) (w : Place) : List Byte :=
  format source w b#"warning" b#"perhaps you need more quotes to quote this quote" [] (lineError s w.pos)

/-- What `xmqTokenizeBuffer` does after an error, xmq.c 957-968, and `xmqStateErrorMsg`, xmq.c 651-659. -/
def stateError (source s : List Byte) (e : Err) (st : St) : Option (List Byte) := do
  let m ← errorMessage source s e st
  match if e = .invalidChar then lastSuspicious s st.out else none with
  | none => return m
  | some w => return warningMessage source s w ++ b#"\n" ++ m

/-- `xmqDocError` after `xmqParseBuffer`, xmq.c 1846-1851 and 1235-1245. -/
def docError (source s : List Byte) (e : Err) (st : St) : Option (List Byte) :=
  (stateError source s e st).map fun m => snprintf 4096 (m ++ b#"\n")

/-- `fprintf(stderr, error, arg)`, xmq-cli.c 1117, 1171, 1916, 2314 and 3947: the text of the error is the format.  A
    conversion that is not `%%` or the first `%s` has no argument. -/
def fprintfError : List Byte → Option (List Byte) → Option (List Byte)
  | [], _ => some []
  | [c], _ => if c == b#'%' then none else some [c]
  | c :: d :: t, arg =>
    if c == b#'%' then
      if d == b#'%' then (fprintfError t arg).map (b#'%' :: ·)
      else if d == b#'s' then arg.bind fun a => (fprintfError t none).map (a ++ ·)
      else none
    else (fprintfError (d :: t) arg).map (c :: ·)

end Xmq.ErrorMessage
