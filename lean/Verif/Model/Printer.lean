import Verif.Model.Delimiters
import Verif.Model.Lexer
/-!
# The xmq printer (parts/xmq_printer.c, parts/utf8.c): values, quotes, entities

Plain rendering is modelled: no theme strings around the tokens, `explicit_space`, `explicit_tab` and `explicit_nl` are
the characters themselves, and the output format is xmq (so `toHtmlEntity` is not used).  Texts contain no NUL byte.
-/
namespace Xmq

/-- The members of `XMQOutputSettings` that the xmq printer uses, parts/xmq_internals.h.  `indentationSpace` is `" "` in
    `xmqNewOutputSettings` (xmq.c 685) and NULL, which prints nothing, in `xmqCompactQuote` (xmq.c 4675-4685). -/
structure OutCfg where
  compact : Bool
  escapeNewlines : Bool
  escapeTabs : Bool
  escapeNon7bit : Bool
  addIndent : Nat
  indentationSpace : List Byte
deriving DecidableEq, Repr

/-- `XMQPrintState`, parts/xmq_internals.h: what has been written, `current_indent`, `last_char`, `line_indent`. -/
structure PS where
  out : List Byte
  cur : Nat
  last : Byte
  line : Nat
deriving DecidableEq, Repr

/-- Number of characters counted by `print_utf8_internal`, parts/utf8.c 77-114: continuation bytes belong to the
    character before them. -/
def uLen : List Byte → Nat
  | [] => 0
  | _ :: t => 1 + (t.filter fun c => !isCont c).length

/-- What the loops of `print_utf8_internal` and `print_utf8_char` write of a text, parts/utf8.c 11-57 and 67-119: a character is a
    byte with the continuation bytes behind it, and for a character that starts with a space or a tab only `explicit_space` or
    `explicit_tab` is written.  (In proper UTF-8 nothing is left out.)  `blank` tells that the current character starts so. -/
def keepChars : Bool → List Byte → List Byte
  | _, [] => []
  | blank, c :: t => if blank && isCont c then keepChars true t else c :: keepChars (c == b#' ' || c == b#'\t') t

/-- `write`: the bytes go to the output, the state is not touched. -/
def PS.write (ps : PS) (s : List Byte) : PS := { ps with out := ps.out ++ s }

/-- `print_utf8(ps, color, 1, s, NULL)`, parts/utf8.c 67-119: without `stop` every byte counts as one character. -/
def PS.print (ps : PS) (s : List Byte) : PS :=
  match s.getLast? with
  | none => ps
  | some c => { ps with out := ps.out ++ s, cur := ps.cur + s.length, last := c }

/-- `print_utf8(ps, color, 1, start, stop)`, parts/utf8.c 67-119. -/
def PS.printSpan (ps : PS) (s : List Byte) : PS :=
  match s.getLast? with
  | none => ps
  | some c => { ps with out := ps.out ++ keepChars false s, cur := ps.cur + uLen s, last := c }

/-- `print_white_spaces`, parts/xmq_printer.c 501-514. -/
def PS.whiteSpaces (cfg : OutCfg) (ps : PS) (n : Nat) : PS :=
  { ps with out := ps.out ++ (List.replicate n cfg.indentationSpace).flatten, cur := ps.cur + n }

/-- `print_quoted_spaces`, parts/xmq_printer.c 558-575. -/
def PS.quotedSpaces (ps : PS) (n : Nat) : PS :=
  { ps with out := ps.out ++ (b#'\'' :: (List.replicate n b#' ' ++ [b#'\''])), cur := ps.cur + n, last := b#'\'' }

/-- `print_quotes`, parts/xmq_printer.c 577-595. -/
def PS.quotes (ps : PS) (n : Nat) : PS :=
  { ps with out := ps.out ++ List.replicate n b#'\'', cur := ps.cur + n, last := b#'\'' }

/-- `print_nl`, parts/xmq_printer.c 612-624. -/
def PS.nl (ps : PS) : PS := { ps with out := ps.out ++ [b#'\n'], cur := 0, last := 0 }

/-- `print_nl_and_indent`, parts/xmq_printer.c 597-610. -/
def PS.nlIndent (cfg : OutCfg) (ps : PS) : PS := ps.nl.whiteSpaces cfg ps.line

/-- The decimal digits of `n`, as `%d` prints them.  The first argument bounds the number of digits. -/
def decDigits : Nat → Nat → List Byte
  | 0, _ => []
  | k + 1, n => if n < 10 then [UInt8.ofNat (48 + n)] else decDigits k (n / 10) ++ [UInt8.ofNat (48 + n % 10)]

/-- `snprintf(buf, 32, "&#%d;", uc)`, parts/xmq_printer.c 655. -/
def charEntity (uc : Nat) : List Byte := b#"&#" ++ decDigits (uc + 1) uc ++ b#";"

/-- `print_char_entity`, parts/xmq_printer.c 626-673, for the character at the start of `s` (`start..stop`); also the
    returned number of bytes.  `current_indent` grows twice, by `print_utf8` and by the last statement. -/
def PS.charEntity (ps : PS) (s : List Byte) : PS × Nat :=
  let d := decodeUtf8 s
  if d.ok then
    let buf := Xmq.charEntity d.char
    let ps := ps.print buf
    ({ ps with last := b#';', cur := ps.cur + buf.length }, d.len)
  else (ps.write b#"&badutf8;", d.len)

/-- `need_separation_before_attribute_key`, parts/xmq_printer.c 691-705. -/
def needSepAttributeKey (c : Byte) : Bool :=
  c != 0 && c != b#'\'' && c != b#'(' && c != b#')' && c != b#';'

/-- `need_separation_before_entity`, parts/xmq_printer.c 707-719. -/
def needSepEntity (c : Byte) : Bool :=
  c != 0 && c != b#'=' && c != b#'\'' && c != b#'{' && c != b#'}' && c != b#';' && c != b#'(' && c != b#')'

/-- `need_separation_before_element_name`, parts/xmq_printer.c 721-734. -/
def needSepElementName (c : Byte) : Bool :=
  c != 0 && c != b#'\'' && c != b#'{' && c != b#'}' && c != b#';' && c != b#')' && c != b#'/'

/-- `need_separation_before_quote`, parts/xmq_printer.c 736-744. -/
def needSepQuote (c : Byte) : Bool := c == b#'\''

/-- `need_separation_before_comment`, parts/xmq_printer.c 746-758. -/
def needSepComment (c : Byte) : Bool :=
  c != 0 && c != b#'\'' && c != b#'{' && c != b#')' && c != b#'}' && c != b#';'

/-- `check_space_before_attribute`, parts/xmq_printer.c 760-772. -/
def PS.beforeAttribute (cfg : OutCfg) (ps : PS) : PS :=
  if ps.last == b#'(' then ps
  else if !cfg.compact then ps.nlIndent cfg
  else if needSepAttributeKey ps.last then ps.whiteSpaces cfg 1
  else ps

/-- `check_space_before_entity_node`, parts/xmq_printer.c 774-786. -/
def PS.beforeEntity (cfg : OutCfg) (ps : PS) : PS :=
  if ps.last == b#'(' then ps
  else if !cfg.compact && ps.last != b#'=' then ps.nlIndent cfg
  else if needSepEntity ps.last then ps.whiteSpaces cfg 1
  else ps

/-- `check_space_before_quote`, parts/xmq_printer.c 789-801. -/
def PS.beforeQuote (cfg : OutCfg) (ps : PS) (level : Level) : PS :=
  if ps.last == 0 then ps
  else if !cfg.compact && (ps.last != b#'=' || level == .xmq) && ps.last != b#'(' then ps.nlIndent cfg
  else if needSepQuote ps.last then ps.whiteSpaces cfg 1
  else ps

/-- `check_space_before_key`, parts/xmq_printer.c 803-816. -/
def PS.beforeKey (cfg : OutCfg) (ps : PS) : PS :=
  if ps.last == 0 then ps
  else if !cfg.compact then ps.nlIndent cfg
  else if needSepElementName ps.last then ps.whiteSpaces cfg 1
  else ps

/-- `check_space_before_opening_brace`, parts/xmq_printer.c 818-833. -/
def PS.beforeOpeningBrace (cfg : OutCfg) (ps : PS) : PS :=
  if !cfg.compact then (if ps.last == b#')' then ps.nlIndent cfg else ps.whiteSpaces cfg 1) else ps

/-- `check_space_before_closing_brace`, parts/xmq_printer.c 835-841. -/
def PS.beforeClosingBrace (cfg : OutCfg) (ps : PS) : PS := if !cfg.compact then ps.nlIndent cfg else ps

/-- `check_space_before_comment`, parts/xmq_printer.c 843-856. -/
def PS.beforeComment (cfg : OutCfg) (ps : PS) : PS :=
  if ps.last == 0 then ps
  else if !cfg.compact then ps.nlIndent cfg
  else if needSepComment ps.last then ps.whiteSpaces cfg 1
  else ps

/-- `print_all_whitespace`, parts/xmq_printer.c 516-537.  The first argument bounds the iterations; the number of bytes is
    enough. -/
def PS.allWhitespace (cfg : OutCfg) : Nat → PS → List Byte → Level → PS
  | 0, ps, _, _ => ps
  | k + 1, ps, s, level =>
    match s with
    | [] => ps
    | c :: t =>
      if c == b#' ' then
        let n := (s.takeWhile (· == b#' ')).length
        PS.allWhitespace cfg k ((ps.beforeQuote cfg level).quotedSpaces n) (s.drop n) level
      else PS.allWhitespace cfg k ((ps.beforeEntity cfg).charEntity s).1 t level

/-- The loop of `print_quote_lines_and_color_uwhitespace`, parts/xmq_printer.c 977-996.  `inChar` is true behind the first
    byte of a character: continuation bytes are then written by the same call of `print_utf8_char` (parts/utf8.c 11-57).  The text
    is that of `keepChars`, which leaves out only bytes that the loop passes over in `print_utf8_char`. -/
def PS.quoteLoop (cfg : OutCfg) : Bool → PS → List Byte → PS
  | _, ps, [] => ps
  | inChar, ps, c :: t =>
    if inChar && isCont c then PS.quoteLoop cfg true (ps.write [c]) t
    else if c == b#'\n' then
      PS.quoteLoop cfg false (if !t.isEmpty && peek t != b#'\n' then ps.nlIndent cfg else ps.nl) t
    else PS.quoteLoop cfg true { ps with out := ps.out ++ [c], cur := ps.cur + 1, last := c } t

/-- `print_quote_lines_and_color_uwhitespace`, parts/xmq_printer.c 952-1015, for a non-empty text.  `line_indent` is
    decremented, a possible underflow of the unsigned number is undone by the increment and prints no spaces. -/
def PS.quoteLines (cfg : OutCfg) (ps : PS) (s : List Byte) : PS :=
  let ps := if peek s == b#'\n' then ps.nl else ps
  let ps := PS.quoteLoop cfg false ps (keepChars false s)
  if s.getLast? == some b#'\n' then
    let line := ps.line
    let ps := { ps with line := line - 1 }
    let ps := if !s.all (· == b#'\n') then ps.nlIndent cfg
      else { ps with cur := 0, last := 0 }.whiteSpaces cfg ps.line
    { ps with line := line }
  else ps

/-- `print_safe_leaf_quote`, parts/xmq_printer.c 1017-1118.  (`indent` is only used for the comparison with -1, which
    `current_indent` never is here.) -/
def PS.safeLeafQuote (cfg : OutCfg) (ps : PS) (s : List Byte) : PS :=
  let numq := countNecessaryQuotes s
  let nls := addNls s false || decide (numq ≥ 4)
  let numq := if numq = 0 then 1 else numq
  let oldLine := ps.line
  if nls then
    let ps := ({ ps with line := ps.cur }.quotes numq).nlIndent cfg
    let ps := ((ps.quoteLines cfg s).nlIndent cfg).quotes numq
    { ps with line := oldLine }
  else
    let ps := ps.quotes numq
    let ps := { ps with line := ps.cur }.quoteLines cfg s
    { ps with line := oldLine }.quotes numq

/-- The scan of `find_next_char_that_needs_escape`, parts/xmq_printer.c 1154-1163: the number of bytes before the
    character.  `tail` is the number of quotes at the end of the text; the position `pre_stop` is where `tail` bytes are
    left.  (`tail` is 0 unless compact; no remaining text has 0 bytes inside the loop.) -/
def escapeScan (cfg : OutCfg) (tail : Nat) : List Byte → Nat
  | [] => 0
  | c :: t =>
    if cfg.compact && c == b#'\'' && t.length + 1 == tail then 0
    else if cfg.escapeNewlines && c == b#'\n' then 0
    else if cfg.escapeNon7bit && c > 126 then 0
    else if c < 32 && c != b#'\t' && c != b#'\n' then 0
    else if c == b#'\t' && cfg.escapeTabs then 0
    else escapeScan cfg tail t + 1

/-- `find_next_char_that_needs_escape`, parts/xmq_printer.c 1134-1176, for a non-empty text: the offset of the returned
    pointer.  The backward scan for `pre_stop` stops at `start` at the latest; it has not started there with a quote. -/
def findEscape (cfg : OutCfg) (s : List Byte) : Nat :=
  if peek s == b#'\'' && cfg.compact then 0
  else escapeScan cfg (if cfg.compact then (s.reverse.takeWhile (· == b#'\'')).length else 0) s

/-- The inner loop of `print_value_internal_text`, parts/xmq_printer.c 1276-1285: escape the newlines that follow.  `s` is
    the text behind the byte at `from`, `n` the offset `to - from` before the loop; the result is the text at `to`.
    After a multi-byte character `from+1` is a continuation byte, so nothing happens then. -/
def PS.escapeNls (cfg : OutCfg) : PS → List Byte → PS × List Byte
  | ps, [] => (ps, [])
  | ps, c :: t =>
    if c == b#'\n' then PS.escapeNls cfg ((ps.beforeEntity cfg).charEntity (c :: t)).1 t else (ps, c :: t)

/-- The main loop of `print_value_internal_text`, parts/xmq_printer.c 1269-1304; `rec` is the recursive call.  The first
    argument bounds the iterations, each consumes at least one byte. -/
def PS.textLoop (cfg : OutCfg) (level : Level) (rec : PS → List Byte → PS) : Nat → PS → List Byte → PS
  | 0, ps, _ => ps
  | k + 1, ps, s =>
    match s with
    | [] => ps
    | _ :: t =>
      let n := findEscape cfg s
      if n = 0 then
        let r := (ps.beforeEntity cfg).charEntity s
        if r.2 ≤ 1 then
          let r' := PS.escapeNls cfg r.1 t
          PS.textLoop cfg level rec k r'.1 r'.2
        else PS.textLoop cfg level rec k r.1 (s.drop r.2)
      else
        let chunk := s.take n
        let ps := if !addCompound chunk false && (!addNls chunk false || !cfg.compact) then
            (ps.beforeQuote cfg level).safeLeafQuote cfg chunk
          else rec ps chunk
        PS.textLoop cfg level rec k ps (s.drop n)

/-- The part of `print_value_internal_text` from parts/xmq_printer.c 1244 on. -/
def PS.textParts (cfg : OutCfg) (level : Level) (rec : PS → List Byte → PS) (ps : PS) (s : List Byte) : PS :=
  let r : PS × List Byte := match hasLeadingSpaceNl s with
    | some l => if l.onlyNewlines = 0 then (PS.allWhitespace cfg l.ws.length ps l.ws level, l.text) else (ps, s)
    | none => (ps, s)
  match hasEndingNlSpace r.2 with
  | some e =>
    if e.onlyNewlines = 0 then
      let spaces := e.ws.takeWhile (· == b#' ')
      let text := e.text ++ spaces
      let ws := e.ws.drop spaces.length
      PS.allWhitespace cfg ws.length (PS.textLoop cfg level rec text.length r.1 text) ws level
    else PS.textLoop cfg level rec r.2.length r.1 r.2
  | none => PS.textLoop cfg level rec r.2.length r.1 r.2

/-- `print_value_internal_text`, parts/xmq_printer.c 1178-1311.  The first argument bounds the depth of the recursion: each
    recursive call is for a shorter text. -/
def PS.internalText (cfg : OutCfg) (level : Level) : Nat → PS → List Byte → PS
  | 0, ps, _ => ps
  | k + 1, ps, s =>
    if s.isEmpty then (ps.beforeQuote cfg level).print b#"''"
    else if hasAllQuotes s then (List.replicate s.length ()).foldl (fun ps _ => ps.print b#"&apos;") (ps.beforeEntity cfg)
    else
      let w := hasAllWhitespace s
      if w.2.1 then (ps.beforeQuote cfg level).quotedSpaces s.length
      else if w.1 && !(w.2.2 && !cfg.compact && s.length > 1) then PS.allWhitespace cfg s.length ps s level
      else if isXmqTextValue s && (level == .elementValue || level == .attrValue) then ps.printSpan s
      else PS.textParts cfg level (PS.internalText cfg level k) ps s

/-- A child of an attribute or of a `key=value` element: a text node or an entity reference node (`XML_ENTITY_REF_NODE`
    with its name). -/
inductive Val
  | text (s : List Byte)
  | entity (name : List Byte)
deriving DecidableEq, Repr

/-- `print_entity_node`, parts/xmq_printer.c 177-184. -/
def PS.entityNode (cfg : OutCfg) (ps : PS) (name : List Byte) : PS :=
  (((ps.beforeEntity cfg).print b#"&").print name).print b#";"

/-- `print_value_internal`, parts/xmq_printer.c 1330-1340. -/
def PS.valueInternal (cfg : OutCfg) (level : Level) (ps : PS) : Val → PS
  | .entity name => ps.entityNode cfg name
  | .text s => PS.internalText cfg level (s.length + 1) ps s

/-- `quote_needs_compounded`, parts/xmq_printer.c 1350-1397. -/
def quoteNeedsCompounded (cfg : OutCfg) (s : List Byte) : Bool :=
  if s == [b#'\''] || s == [b#'\n'] || s == [b#'\r'] || s == [b#'\t'] then false
  else
    (match hasLeadingSpaceNl s with | some r => r.onlyNewlines == 0 | none => false) ||
    (match hasEndingNlSpace s with | some r => r.onlyNewlines == 0 | none => false) ||
    (cfg.compact && (hasNewlines s || hasLeadingEndingQuote s)) ||
    s.any fun c =>
      (cfg.escapeNewlines && c == b#'\n') || (cfg.escapeNon7bit && c > 126) ||
      (c < 32 && c != b#'\t' && c != b#'\n') || (c == b#'\t' && cfg.escapeTabs)

/-- `print_value`, parts/xmq_printer.c 1399-1437, for the list of siblings starting at `node`.  (At `LEVEL_XMQ` it is called
    by `print_content_node` and prints the first node only.) -/
def PS.value (cfg : OutCfg) (ps : PS) (nodes : List Val) (level : Level) : PS :=
  let compound := level != .xmq &&
    (match nodes with
     | [] => false
     | [.text s] => quoteNeedsCompounded cfg s
     | [.entity _] => false
     | _ => true)
  let oldLine := ps.line
  let nodes := if level == .xmq then nodes.take 1 else nodes
  if compound then
    let ps := ps.print b#"("
    let ps := if !cfg.compact then ps.whiteSpaces cfg 1 else ps
    let ps := { ps with line := ps.cur }
    let ps := nodes.foldl (PS.valueInternal cfg (enterCompound level)) ps
    let ps := if !cfg.compact then ps.whiteSpaces cfg 1 else ps
    { ps.print b#")" with line := oldLine }
  else { nodes.foldl (PS.valueInternal cfg level) ps with line := oldLine }
where
  /-- `enter_compound_level`, parts/xmq_internals.c 495-499. -/
  enterCompound : Level → Level
    | .elementValue => .elementValueCompound
    | .attrValue => .attrValueCompound
    | l => l

/-- `xmqCompactQuote`, xmq.c 4671-4699.  The settings are zeroed, so `indentation_space` is NULL. -/
def compactQuote (s : List Byte) : List Byte :=
  (PS.value ⟨true, true, false, false, 0, []⟩ ⟨[], 0, 0, 0⟩ [.text s] .attrValue).out

end Xmq
