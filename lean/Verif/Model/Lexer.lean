import Verif.Model.Text
/-!
# Lexical level of the xmq parser (the `eat_*` and `count_*` functions of parts/xmq_parser.c)

The parser state keeps the bytes already consumed (reversed), the remaining bytes, line, column
and the tokens delivered so far (reversed).
-/
namespace Xmq

/-- `LIST_OF_XMQ_TOKENS`, parts/xmq_internals.h 80-109: the kinds of callbacks. -/
inductive Kind
  | whitespace | equals | brace_left | brace_right | apar_left | apar_right | cpar_left | cpar_right
  | quote | entity | comment | comment_continuation
  | element_ns | element_name | element_key
  | element_value_text | element_value_quote | element_value_entity
  | element_value_compound_quote | element_value_compound_entity
  | attr_ns | attr_key | attr_value_text | attr_value_quote | attr_value_entity
  | attr_value_compound_quote | attr_value_compound_entity
  | ns_declaration | ns_colon
deriving DecidableEq, Repr

/-- One invocation of a parse callback: `DO_CALLBACK(kind, state, line, col, start, stop, ...)`.
    The `suffix` argument is only used to peek ahead inside the callbacks and is not modelled here. -/
structure Tok where
  kind : Kind
  line : Nat
  col : Nat
  text : List Byte
deriving DecidableEq, Repr

/-- `enum Level`, parts/xmq_internals.h 146-151. -/
inductive Level
  | xmq | elementValue | elementValueCompound | attrValue | attrValueCompound
deriving DecidableEq, Repr

/-- The errors the xmq parser can report (`XMQParseError`, xmq.h 299-334). -/
inductive Err
  | notXmq | quoteNotClosed | entityNotClosed | commentNotClosed | commentClosedWithTooManySlashes
  | bodyNotClosed | attributesNotClosed | compoundNotClosed | compoundMayNotContain
  | quoteClosedWithTooManyQuotes | unexpectedClosingBrace | expectedContentAfterEquals
  | unexpectedTab | invalidChar | valueCannotStartWith
deriving DecidableEq, Repr

/-- The part of `XMQParseState` (parts/xmq_internals.h 275) that the parser itself uses.
    `before` holds the bytes from `buffer_start` to `i`, reversed; `rest` the bytes from `i` to
    `buffer_stop`; `out` the callbacks done so far, latest first.  Remembered positions used only
    for the wording of error messages (`last_quote_start` and friends) are left out. -/
structure St where
  before : List Byte
  rest : List Byte
  line : Nat
  col : Nat
  out : List Tok
deriving DecidableEq, Repr

/-- Outcome of a parser function.  `ub` is a read outside the buffer and its terminating NUL,
    `outOfFuel` means that the given number of loop iterations was not enough. -/
inductive Res
  | ok (st : St)
  | err (e : Err) (st : St)
  | ub
  | outOfFuel
deriving DecidableEq, Repr

/-- Sequencing: an error leaves the parser at once (`longjmp`). -/
def Res.bind (r : Res) (f : St → Res) : Res :=
  match r with
  | .ok st => f st
  | .err e st => .err e st
  | .ub => .ub
  | .outOfFuel => .outOfFuel

@[simp] theorem Res.bind_ok (st : St) (f : St → Res) : (Res.ok st).bind f = f st := rfl
@[simp] theorem Res.bind_err (e : Err) (st : St) (f : St → Res) : (Res.err e st).bind f = .err e st := rfl
@[simp] theorem Res.bind_ub (f : St → Res) : Res.ub.bind f = .ub := rfl
@[simp] theorem Res.bind_fuel (f : St → Res) : Res.outOfFuel.bind f = .outOfFuel := rfl

/-- `increment`, parts/xmq_internals.c 239-253, on line and column. -/
def incPos (c : Byte) (line col : Nat) : Nat × Nat :=
  if isCont c then (line, col)
  else if c == b#'\n' then (line + 1, 1)
  else (line, col + 1)

/-- `increment(c, num_bytes, &i, &line, &col)`. -/
def St.increment (st : St) (c : Byte) (n : Nat) : St :=
  let p := incPos c st.line st.col
  { st with before := (st.rest.take n).reverse ++ st.before, rest := st.rest.drop n, line := p.1, col := p.2 }

/-- Several calls `increment(*i, 1, ...)` in a row: walk over the next `n` bytes one by one. -/
def St.advance (st : St) : Nat → St
  | 0 => st
  | n + 1 => (st.increment (peek st.rest) 1).advance n

/-- `DO_CALLBACK`. -/
def St.emit (st : St) (kind : Kind) (line col : Nat) (text : List Byte) : St :=
  { st with out := ⟨kind, line, col, text⟩ :: st.out }

/-- `count_xmq_quotes`, parts/xmq_parser.c 24-31. -/
def countXmqQuotes (s : List Byte) : Nat := (s.takeWhile (· == b#'\'')).length

/-- `count_xmq_slashes`, parts/xmq_parser.c 416-426: number of slashes and `*found_asterisk`. -/
def countXmqSlashes (s : List Byte) : Nat × Bool :=
  ((s.takeWhile (· == b#'/')).length, peek (s.dropWhile (· == b#'/')) == b#'*')

/-- Result of scanning for a closing delimiter; `closed n` means that `n` bytes of content
    precede the closing delimiter. -/
inductive Scan
  | closed (n : Nat)
  | notClosed
  | tooMany
deriving DecidableEq, Repr

/-- One more content byte. -/
def Scan.succ : Scan → Scan
  | .closed n => .closed (n + 1)
  | s => s

/-- The loop of `eat_xmq_quote`, parts/xmq_parser.c 65-101.  `skip` counts the quote characters of a
    too short run that are still to be stepped over (the inner loop 82-86). -/
def quoteScan (depth : Nat) : Nat → List Byte → Scan
  | _, [] => .notClosed
  | skip + 1, _ :: t => (quoteScan depth skip t).succ
  | 0, c :: t =>
    if c != b#'\'' then (quoteScan depth 0 t).succ
    else
      let count := countXmqQuotes (c :: t)
      if count > depth then .tooMany
      else if count < depth then (quoteScan depth (count - 1) t).succ
      else .closed 0

/-- `eat_xmq_quote`, parts/xmq_parser.c 33-117: on success the state behind the quote and the
    number of bytes of the token.  (`last_quote_start` etc. only serve error messages.) -/
def eatXmqQuote (st : St) : Except Err (St × Nat) :=
  let depth := countXmqQuotes st.rest
  if depth = 2 then .ok (st.advance 2, 2)
  else
    match quoteScan depth 0 (st.rest.drop depth) with
    | .tooMany => .error .quoteClosedWithTooManyQuotes
    | .notClosed => .error .quoteNotClosed
    | .closed n => .ok (st.advance (depth + n + depth), depth + n + depth)

/-- `eat_xmq_entity`, parts/xmq_parser.c 119-153: the number of bytes of the entity. -/
def eatXmqEntity (st : St) : Except Err (St × Nat) :=
  let t := st.rest.drop 1
  let name := t.takeWhile isXmqTextName
  let after := t.dropWhile isXmqTextName
  let expectSemicolon := name.any (fun c => !isLowercaseHex c)
  if peek after == b#';' then .ok (st.advance (1 + name.length + 1), 1 + name.length + 1)
  else if expectSemicolon then .error .entityNotClosed
  else .ok (st.advance (1 + name.length), 1 + name.length)

/-- `eat_xmq_comment_to_eol`, parts/xmq_parser.c 155-178: number of bytes including the newline. -/
def eatXmqCommentToEol (st : St) : St × Nat :=
  let t := st.rest.drop 2
  let body := t.takeWhile (· != b#'\n')
  let n := 2 + body.length + (if peek (t.dropWhile (· != b#'\n')) == b#'\n' then 1 else 0)
  (st.advance n, n)

/-- The loop of `eat_xmq_comment_to_close`, parts/xmq_parser.c 210-247.  `cc` is the previous byte.
    A too short run of slashes makes the C loop `continue` without moving; the next iteration then
    sees `cc == '/'` and steps over this slash. -/
def commentScan (numSlashes : Nat) (cc : Byte) : List Byte → Scan
  | [] => .notClosed
  | c :: t =>
    if cc != b#'*' || c != b#'/' then (commentScan numSlashes c t).succ
    else
      let n := (countXmqSlashes (c :: t)).1
      if n < numSlashes then (commentScan numSlashes c t).succ
      else if n > numSlashes then .tooMany
      else .closed 0

/-- `eat_xmq_comment_to_close`, parts/xmq_parser.c 180-251.  Returns the state, the number of bytes
    of the token and `*found_asterisk`.  `head` is the number of bytes of the opening delimiter:
    the slashes (only if the comment starts here and is not a continuation) and the asterisk.
    The scan stops at the first closing slash, the asterisk belongs to the counted content. -/
def eatXmqCommentToClose (st : St) (numSlashes : Nat) : Except Err (St × Nat × Bool) :=
  let head := (if peek st.rest == b#'/' then numSlashes else 0) + 1
  let body := st.rest.drop head
  match commentScan numSlashes 0 body with
  | .tooMany => .error .commentClosedWithTooManySlashes
  | .notClosed => .error .commentNotClosed
  | .closed n =>
    let found := (countXmqSlashes (body.drop n)).2
    .ok (st.advance (head + n + numSlashes), head + n + numSlashes, found)

/-- `eat_xmq_text_name`, parts/xmq_parser.c 253-290: the state, the namespace prefix before the last
    colon if there is a colon, and the name behind it. -/
def eatXmqTextName (st : St) : St × Option (List Byte) × List Byte :=
  let name := st.rest.takeWhile isXmqTextName
  let st' := st.advance name.length
  if name.any (· == b#':') then
    let afterColon := (name.reverse.takeWhile (· != b#':')).reverse
    (st', some (name.take (name.length - afterColon.length - 1)), afterColon)
  else (st', none, name)

/-- Length of the longest prefix of safe value characters: the loop 299-304. -/
def safeValueLen : List Byte → Nat
  | [] => 0
  | c :: t => if isSafeValueChar (c :: t) then safeValueLen t + 1 else 0

/-- `eat_xmq_text_value`, parts/xmq_parser.c 292-309. -/
def eatXmqTextValue (st : St) : St × Nat :=
  (st.advance (safeValueLen st.rest), safeValueLen st.rest)

/-- `eat_xmq_doctype` and `eat_xmq_pi`, parts/xmq_parser.c 311-356 (identical but for the first byte,
    which the callers have checked). -/
def eatXmqDoctypeOrPi (st : St) : St × List Byte :=
  let name := st.rest.take 1 ++ (st.rest.drop 1).takeWhile isXmqTextName
  (st.advance name.length, name)

/-- The loop of `eat_xmq_token_whitespace`, parts/xmq_internals.c 223-231.  The first argument is
    the number of iterations left; the number of bytes is always enough. -/
def tokenWhitespaceLoop : Nat → St → St
  | 0, st => st
  | k + 1, st =>
    if st.rest.isEmpty then st
    else
      let nw := countWhitespace st.rest
      if nw == 0 then st
      else if nw == 1 && peek st.rest == b#'\t' then st
      else tokenWhitespaceLoop k (st.increment (peek st.rest) nw)

/-- `eat_xmq_token_whitespace`, parts/xmq_internals.c 212-237.  (Never called where
    `count_whitespace` is 0, in which case the C code leaves `*stop` unset.) -/
def eatXmqTokenWhitespace (st : St) : St :=
  tokenWhitespaceLoop st.rest.length st

end Xmq
