import Verif.Model.Lexer
/-!
# The xmq parser (parts/xmq_parser.c)

`while` loops that consume input through other parser functions take a fuel argument: the result
`outOfFuel` says that the loop has not finished after that many iterations.  A buffer on which
the C parser loops forever is one on which every amount of fuel gives `outOfFuel`.
-/
namespace Xmq

/-- Emit a token covering the next `n` bytes of `st`, at the position of `st`, and continue in `st'`,
    the state behind these bytes. -/
def St.emitSpan (st' st : St) (kind : Kind) (n : Nat) : St :=
  st'.emit kind st.line st.col (st.rest.take n)

/-- `parse_xmq_whitespace`, parts/xmq_parser.c 1063-1071. -/
def parseXmqWhitespace (st : St) : St :=
  let st' := eatXmqTokenWhitespace st
  st'.emitSpan st .whitespace (st.rest.length - st'.rest.length)

/-- The recurring `c = *state->i; if (is_xml_whitespace(c)) { parse_xmq_whitespace(state); ... }`. -/
def skipWs (st : St) : St :=
  if isXmlWhitespace (peek st.rest) then parseXmqWhitespace st else st

/-- Callback kind of a quote, the `switch` in parts/xmq_parser.c 507-526. -/
def quoteKind : Level → Kind
  | .xmq => .quote
  | .elementValue => .element_value_quote
  | .elementValueCompound => .element_value_compound_quote
  | .attrValue => .attr_value_quote
  | .attrValueCompound => .attr_value_compound_quote

/-- Callback kind of an entity, the `switch` in parts/xmq_parser.c 538-556. -/
def entityKind : Level → Kind
  | .xmq => .entity
  | .elementValue => .element_value_entity
  | .elementValueCompound => .element_value_compound_entity
  | .attrValue => .attr_value_entity
  | .attrValueCompound => .attr_value_compound_entity

/-- `enter_compound_level`, parts/xmq_internals.c 495-499. (Never called with the other levels.) -/
def enterCompoundLevel : Level → Level
  | .elementValue => .elementValueCompound
  | .attrValue => .attrValueCompound
  | l => l

/-- `parse_xmq_quote`, parts/xmq_parser.c 498-527. -/
def parseXmqQuote (st : St) (level : Level) : Res :=
  match eatXmqQuote st with
  | .error e => .err e st
  | .ok (st', n) => .ok (st'.emitSpan st (quoteKind level) n)

/-- `parse_xmq_entity`, parts/xmq_parser.c 529-557. -/
def parseXmqEntity (st : St) (level : Level) : Res :=
  match eatXmqEntity st with
  | .error e => .err e st
  | .ok (st', n) => .ok (st'.emitSpan st (entityKind level) n)

/-- The continuation loop of `parse_xmq_comment`, parts/xmq_parser.c 584-593. -/
def commentContinuations (n : Nat) : Nat → St → Bool → Res
  | _, st, false => .ok st
  | 0, _, true => .outOfFuel
  | fuel + 1, st, true =>
    match eatXmqCommentToClose st n with
    | .error e => .err e st
    | .ok (st', len, found) =>
      commentContinuations n fuel (st'.emitSpan st .comment_continuation len) found

/-- `parse_xmq_comment`, parts/xmq_parser.c 559-595. -/
def parseXmqComment (fuel : Nat) (st : St) : Res :=
  let (n, foundAsterisk) := countXmqSlashes st.rest
  if !foundAsterisk then
    let (st', len) := eatXmqCommentToEol st
    .ok (st'.emitSpan st .comment len)
  else
    match eatXmqCommentToClose st n with
    | .error e => .err e st
    | .ok (st', len, found) => commentContinuations n fuel (st'.emitSpan st .comment len) found

/-- `parse_xmq_text_value`, parts/xmq_parser.c 597-615. -/
def parseXmqTextValue (st : St) (level : Level) : Res :=
  let (st', n) := eatXmqTextValue st
  .ok (st'.emitSpan st (if level = .attrValue then .attr_value_text else .element_value_text) n)

/-- `parse_xmq_compound_children`, parts/xmq_parser.c 942-960. -/
def parseXmqCompoundChildren : Nat → St → Level → Res
  | 0, _, _ => .outOfFuel
  | fuel + 1, st, level =>
    match st.rest with
    | [] => .ok st
    | c :: _ =>
      if isXmlWhitespace c then parseXmqCompoundChildren fuel (parseXmqWhitespace st) level
      else if c == b#')' then .ok st
      else if c == b#'\'' then
        (parseXmqQuote st level).bind fun st' => parseXmqCompoundChildren fuel st' level
      else if c == b#'&' then
        (parseXmqEntity st level).bind fun st' => parseXmqCompoundChildren fuel st' level
      else .err .compoundMayNotContain st

/-- Consume one byte and deliver it as a token of the given kind. -/
def parseOne (st : St) (kind : Kind) : St :=
  (st.advance 1).emitSpan st kind 1

/-- `parse_xmq_compound`, parts/xmq_parser.c 913-939. -/
def parseXmqCompound (fuel : Nat) (st : St) (level : Level) : Res :=
  (parseXmqCompoundChildren fuel (parseOne st .cpar_left) (enterCompoundLevel level)).bind fun st =>
    let st := skipWs st
    if peek st.rest != b#')' then .err .compoundNotClosed st
    else .ok (parseOne st .cpar_right)

/-- `parse_xmq_value`, parts/xmq_parser.c 617-649.  At the end of the buffer `*(state->i+1)` is a
    read behind the terminating NUL. -/
def parseXmqValue (fuel : Nat) (st : St) (level : Level) : Res :=
  let st := skipWs st
  let c := peek st.rest
  if c == b#'\'' then parseXmqQuote st level
  else if c == b#'&' then parseXmqEntity st level
  else if c == b#'(' then parseXmqCompound fuel st level
  else
    match st.rest with
    | [] => .ub
    | _ :: t =>
      if unsafeValueStart c (peek t) then .err .valueCannotStartWith st
      else parseXmqTextValue st level

/-- `is_xmq_attribute_key_start`, parts/xmq_parser.c 368-382. -/
def isXmqAttributeKeyStart (c : Byte) : Bool :=
  !(c == b#'\'' || c == b#'"' || c == b#'(' || c == b#')' || c == b#'{' || c == b#'}' || c == b#'/' ||
    c == b#'=' || c == b#'&')

/-- Deliver the tokens of a possibly namespaced name found at `st` (`st'` is the state behind it):
    parts/xmq_parser.c 682-709 and 843-884.  `nsKind` is the kind for the prefix, `nameKind` for the name. -/
def emitName (st st' : St) (ns : Option (List Byte)) (name : List Byte) (nsKind nameKind : Kind) : St :=
  match ns with
  | none => st'.emit nameKind st.line st.col name
  | some ns =>
    ((st'.emit nsKind st.line st.col ns).emit .ns_colon st.line (st.col + ns.length) [b#':']).emit
      nameKind st.line (st.col + ns.length + 1) name

/-- `parse_xmq_attribute`, parts/xmq_parser.c 829-900. -/
def parseXmqAttribute (fuel : Nat) (st : St) : Res :=
  let (st', ns, name) := eatXmqTextName st
  let st' :=
    match ns with
    | none =>
      if name = b#"xmlns" then emitName st st' ns name .attr_ns .ns_declaration
      else emitName st st' ns name .attr_ns .attr_key
    | some p =>
      if p = b#"xmlns" then emitName st st' ns name .ns_declaration .attr_ns
      else emitName st st' ns name .attr_ns .attr_key
  let st' := skipWs st'
  if peek st'.rest == b#'=' then parseXmqValue fuel (parseOne st' .equals) .attrValue
  else .ok st'

/-- `parse_xmq_attributes`, parts/xmq_parser.c 814-827. -/
def parseXmqAttributes : Nat → St → Res
  | 0, _ => .outOfFuel
  | fuel + 1, st =>
    match st.rest with
    | [] => .ok st
    | c :: _ =>
      if isXmlWhitespace c then parseXmqAttributes fuel (parseXmqWhitespace st)
      else if c == b#')' then .ok st
      else if isXmqAttributeKeyStart c then
        (parseXmqAttribute fuel st).bind (parseXmqAttributes fuel)
      else .ok st

/-- `peek_xmq_next_is_equal`, parts/xmq_parser.c 446-459. -/
def peekXmqNextIsEqual (s : List Byte) : Bool := peek (s.dropWhile isXmlWhitespace) == b#'='

/-- What `parse_xmq_element_internal` is asked to parse. -/
inductive ElemKind
  | element | doctype | pi
deriving DecidableEq, Repr

/-- The attribute list of an element, parts/xmq_parser.c 712-746. -/
def parseElementAttributes (fuel : Nat) (st : St) : Res :=
  let st := skipWs st
  if peek st.rest == b#'(' then
    (parseXmqAttributes fuel (parseOne st .apar_left)).bind fun st =>
      let st := skipWs st
      if peek st.rest != b#')' then .err .attributesNotClosed st
      else .ok (parseOne st .apar_right)
  else .ok st

/-- The value or body of an element, parts/xmq_parser.c 748-795; `body` is `parse_xmq`. -/
def parseElementBody (fuel : Nat) (body : St → Res) (st : St) : Res :=
  let st := skipWs st
  if peek st.rest == b#'=' then parseXmqValue fuel (parseOne st .equals) .elementValue
  else if peek st.rest == b#'{' then
    (body (parseOne st .brace_left)).bind fun st =>
      let st := skipWs st
      if peek st.rest != b#'}' then .err .bodyNotClosed st
      else .ok (parseOne st .brace_right)
  else .ok st

/-- The name of an element, doctype or processing instruction, parts/xmq_parser.c 664-709. -/
def parseElementName (st : St) (kind : ElemKind) : St :=
  match kind with
  | .element =>
    let (st', ns, name) := eatXmqTextName st
    emitName st st' ns name .element_ns (if peekXmqNextIsEqual st'.rest then .element_key else .element_name)
  | _ =>
    let (st', name) := eatXmqDoctypeOrPi st
    emitName st st' none name .element_ns (if peekXmqNextIsEqual st'.rest then .element_key else .element_name)

/-- `parse_xmq_element_internal`, parts/xmq_parser.c 651-796. -/
def parseXmqElementInternal (fuel : Nat) (body : St → Res) (st : St) (kind : ElemKind) : Res :=
  (parseElementAttributes fuel (parseElementName st kind)).bind (parseElementBody fuel body)

/-- `is_xmq_doctype_start`, parts/xmq_parser.c 402-414. -/
def isXmqDoctypeStart (s : List Byte) : Bool :=
  if s.take 8 == b#"!DOCTYPE" then
    match s.drop 8 with
    | [] => false
    | c :: _ => c == b#'=' || c == b#' ' || c == b#'\t' || c == b#'\n' || c == b#'\r'
  else false

/-- `is_xmq_pi_start`, parts/xmq_parser.c 394-400. -/
def isXmqPiStart (s : List Byte) : Bool := peek s == b#'?' && s.length ≥ 2

/-- `is_xmq_comment_start`, parts/xmq_parser.c 389-392. -/
def isXmqCommentStart (c cc : Byte) : Bool := c == b#'/' && (cc == b#'/' || cc == b#'*')

/-- First backward scan of `possibly_lost_content_after_equals`, parts/xmq_parser.c 983, over the
    bytes from `i` backwards to `buffer_start`. -/
def scanBackName : List Byte → List Byte
  | c :: d :: t =>
    if c != b#'\n' && (isXmqTextName c || isXmlWhitespace c) then scanBackName (d :: t) else c :: d :: t
  | l => l

/-- Second backward scan, parts/xmq_parser.c 987-992. -/
def scanBackWs : List Byte → List Byte
  | c :: d :: t => if isXmlWhitespace c then scanBackWs (d :: t) else c :: d :: t
  | l => l

/-- `possibly_lost_content_after_equals`, parts/xmq_parser.c 962-995.  `none`: the byte before
    `buffer_start` is read. -/
def possiblyLostContentAfterEquals (st : St) : Option Bool :=
  let c := peek st.rest
  if !(c == b#'{' || c == b#'(' || c == b#'=') then some false
  else
    match st.before with
    | [] => none
    | before =>
      match scanBackName before with
      | c :: d :: t => if c != b#'\n' then some false else some (peek (scanBackWs (c :: d :: t)) == b#'=')
      | _ => some false

/-- `parse_xmq`, parts/xmq_parser.c 461-496. -/
def parseXmq : Nat → St → Res
  | 0, _ => .outOfFuel
  | fuel + 1, st =>
    match st.rest with
    | [] => .ok st
    | c :: t =>
      let cc := if c == b#'/' || c == b#'(' then peek t else 0
      if isXmqTokenWhitespace c then parseXmq fuel (parseXmqWhitespace st)
      else if c == b#'\'' then (parseXmqQuote st .xmq).bind (parseXmq fuel)
      else if c == b#'&' then (parseXmqEntity st .xmq).bind (parseXmq fuel)
      else if isXmqCommentStart c cc then (parseXmqComment fuel st).bind (parseXmq fuel)
      else if isXmqElementStart c then
        (parseXmqElementInternal fuel (parseXmq fuel) st .element).bind (parseXmq fuel)
      else if isXmqDoctypeStart (c :: t) then
        (parseXmqElementInternal fuel (parseXmq fuel) st .doctype).bind (parseXmq fuel)
      else if isXmqPiStart (c :: t) then
        (parseXmqElementInternal fuel (parseXmq fuel) st .pi).bind (parseXmq fuel)
      else if c == b#'}' then .ok st
      else
        match possiblyLostContentAfterEquals st with
        | none => .ub
        | some true => .err .expectedContentAfterEquals st
        | some false => if c == b#'\t' then .err .unexpectedTab st else .err .invalidChar st

/-- The state `xmqTokenizeBuffer` starts with, xmq.c 930-935. -/
def initSt (input : List Byte) : St := ⟨[], input, 1, 1, []⟩

/-- The parsing part of `xmqTokenizeBuffer`, xmq.c 947-956 (content detection is modelled in
    `Verif.Model.Detect`). -/
def parseBuffer (fuel : Nat) (input : List Byte) : Res :=
  (parseXmq fuel (initSt input)).bind fun st =>
    if st.rest.isEmpty then .ok st else .err .unexpectedClosingBrace st

/-- `Tokenizes input toks`: the parser accepts `input` and delivers the tokens `toks`, in order. -/
def Tokenizes (input : List Byte) (toks : List Tok) : Prop :=
  ∃ fuel st, parseBuffer fuel input = .ok st ∧ st.out.reverse = toks

end Xmq
