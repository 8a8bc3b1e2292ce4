import Verif.Model.NsPrint
/-!
# The xmq printer with a theme (parts/xmq_printer.c, parts/utf8.c, parts/colors.c, xmq.c 169-470, 2925-2956)

`Verif.Model.Printer`, `Verif.Model.Tree` and `Verif.Model.NsPrint` model plain rendering: nothing is written around the tokens.
Here the same functions are modelled with the strings of the theme, with the escaping of `needs_escape`, and with the two members
of the print state that only matter for them: `replay_active_color_pre` and `restart_line`.

Left out: the Windows console, `explicit_cr` (never written), and colours of a parse (tokenizer, xmq.c `tokenize_...`).
-/
namespace Xmq

/-- `XMQRenderFormat`, xmq.h. -/
inductive Render
  | plain | terminal | html | tex
deriving DecidableEq, Repr

/-- `XMQColor`, parts/colors.h 36-70: those that the printer uses. -/
inductive Color
  | none | whitespace | unicodeWhitespace | equals | braceLeft | braceRight | aparLeft | aparRight | cparLeft | cparRight
  | quote | entity | comment | nsColon | elementNs | elementName | elementKey
  | elementValueQuote | elementValueEntity | elementValueCompoundQuote | elementValueCompoundEntity
  | attrNs | attrKey | attrValueQuote | attrValueEntity | attrValueCompoundQuote | attrValueCompoundEntity
  | nsDeclaration | nsOverrideXsl
deriving DecidableEq, Repr

/-- `XMQTheme` and `render_to`, `explicit_space`, `explicit_tab`, `explicit_nl` of `XMQOutputSettings`.  `pre` and `post` are
    `getThemeStrings` (parts/colors.c 41-72), `none` is NULL.  `front` is what is written before the nodes, `back` what is written
    behind them (xmq.c 2941-2953). -/
structure Dress where
  render : Render
  pre : Color → Option (List Byte)
  post : Color → Option (List Byte)
  space : List Byte
  tab : List Byte
  nl : List Byte
  front : List Byte
  back : List Byte

/-- `needs_escape`, parts/xmq_internals.c 280-306. -/
def needsEscape : Render → Byte → Option (List Byte)
  | .html, c =>
    if c == b#'&' then some b#"&amp;" else if c == b#'<' then some b#"&lt;" else if c == b#'>' then some b#"&gt;" else Option.none
  | .tex, c =>
    if c == b#'\\' then some b#"\\backslash;"
    else if c == b#'&' then some b#"\\&"
    else if c == b#'#' then some b#"\\#"
    else if c == b#'{' then some b#"\\{"
    else if c == b#'}' then some b#"\\}"
    else if c == b#'_' then some b#"\\_"
    else if c == b#'\'' then some b#"{'}"
    else Option.none
  | _, _ => Option.none

/-- The characters of a text as the loops of parts/utf8.c 16-18 and 82-84 find them: a byte with the continuation bytes behind it.
    A newline is a character of its own (the loop of parts/xmq_printer.c 977-996 looks for newlines itself; the texts of
    `print_utf8` contain none). -/
def chars : List Byte → List (List Byte)
  | [] => []
  | c :: t =>
    match chars t with
    | [] => [[c]]
    | g :: gs => if c != b#'\n' && isCont (peek t) then (c :: g) :: gs else [c] :: g :: gs

/-- What is written for one character, parts/utf8.c 28-48 and 92-110. -/
def Dress.face (d : Dress) : List Byte → List Byte
  | [] => []
  | c :: t =>
    if c == b#' ' then d.space
    else if c == b#'\t' then d.tab
    else (needsEscape d.render c).getD (c :: t)

/-- One character with the colour of unicode whitespace, parts/utf8.c 20-50 and 86-112, parts/xmq_internals.c 271-278 and
    308-343.  `replay` is `replay_active_color_pre`. -/
def Dress.showChar (d : Dress) (replay : Option (List Byte)) (g : List Byte) : List Byte :=
  if countWhitespace g > 1 then
    (d.pre .unicodeWhitespace).getD [] ++ d.face g ++ ((d.post .unicodeWhitespace).or replay).getD []
  else d.face g

/-- `XMQPrintState` with `replay_active_color_pre` and `restart_line`, parts/xmq_internals.h 390-412. -/
structure KS where
  out : List Byte
  cur : Nat
  last : Byte
  line : Nat
  replay : Option (List Byte)
  restart : Option (List Byte)
deriving DecidableEq, Repr

/-- `write`. -/
def KS.write (ks : KS) (s : List Byte) : KS := { ks with out := ks.out ++ s }

/-- `write` of a theme string; nothing for NULL. -/
def KS.mark (ks : KS) (m : Option (List Byte)) : KS := ks.write (m.getD [])

/-- `print_utf8_internal` without `stop`, parts/utf8.c 67-119: every byte is a character. -/
def KS.bytes (d : Dress) (s : List Byte) (ks : KS) : KS :=
  match s.getLast? with
  | none => ks
  | some c => { ks with out := ks.out ++ s.flatMap (fun b => d.showChar ks.replay [b]), cur := ks.cur + s.length, last := c }

/-- `print_utf8_internal` with `stop`, parts/utf8.c 67-119. -/
def KS.span (d : Dress) (s : List Byte) (ks : KS) : KS :=
  match s.getLast? with
  | none => ks
  | some c => { ks with out := ks.out ++ (chars s).flatMap (d.showChar ks.replay), cur := ks.cur + uLen s, last := c }

/-- `print_utf8`, parts/utf8.c 130-170; `f` is the loop over the pairs.  The former `replay_active_color_pre` is only restored if
    it is not NULL. -/
def KS.token (d : Dress) (color : Color) (f : KS → KS) (ks : KS) : KS :=
  let prev := ks.replay
  let ks := match d.pre color with
    | some p => { ks.write p with replay := some p }
    | none => ks
  let ks := (f ks).mark (d.post color)
  match d.pre color, prev with
  | some _, some q => { ks with replay := some q }
  | _, _ => ks

/-- `print_utf8(ps, color, 1, s, NULL)`. -/
def KS.print (d : Dress) (color : Color) (ks : KS) (s : List Byte) : KS := ks.token d color (KS.bytes d s)

/-- `print_utf8(ps, color, 1, start, stop)`. -/
def KS.printSpan (d : Dress) (color : Color) (ks : KS) (s : List Byte) : KS := ks.token d color (KS.span d s)

/-- `print_white_spaces`, parts/xmq_printer.c 501-514. -/
def KS.whiteSpaces (d : Dress) (cfg : OutCfg) (ks : KS) (n : Nat) : KS :=
  let ks := (ks.mark (d.pre .whitespace)).write (List.replicate n cfg.indentationSpace).flatten
  { ks with cur := ks.cur + n }.mark (d.post .whitespace)

/-- `print_quoted_spaces`, parts/xmq_printer.c 558-575: the colour is that of quotes, whatever colour is asked for. -/
def KS.quotedSpaces (d : Dress) (ks : KS) (n : Nat) : KS :=
  let ks := ((ks.mark (d.pre .quote)).write [b#'\'']).write (List.replicate n d.space).flatten
  ({ ks with cur := ks.cur + n, last := b#'\'' }.write [b#'\'']).mark (d.post .quote)

/-- `print_quotes`, parts/xmq_printer.c 577-595. -/
def KS.quotes (d : Dress) (color : Color) (ks : KS) (n : Nat) : KS :=
  let ks := (ks.mark (d.pre color)).write (List.replicate n b#'\'')
  { ks with cur := ks.cur + n, last := b#'\'' }.mark (d.post color)

/-- `print_nl`, parts/xmq_printer.c 612-624. -/
def KS.nl (d : Dress) (ks : KS) (prefx postfx : Option (List Byte)) : KS :=
  let ks := (ks.mark postfx).write d.nl
  ({ ks with cur := 0, last := 0 }.mark ks.restart).mark prefx

/-- `print_nl_and_indent`, parts/xmq_printer.c 597-610. -/
def KS.nlIndent (d : Dress) (cfg : OutCfg) (ks : KS) (prefx postfx : Option (List Byte)) : KS :=
  let ks := (ks.mark postfx).write d.nl
  let ks := { ks with cur := 0, last := 0 }.whiteSpaces d cfg ks.line
  (ks.mark ks.restart).mark prefx

/-- `print_char_entity`, parts/xmq_printer.c 626-673. -/
def KS.charEntity (d : Dress) (color : Color) (ks : KS) (s : List Byte) : KS × Nat :=
  let u := decodeUtf8 s
  if u.ok then
    let buf := Xmq.charEntity u.char
    let ks := ((ks.mark (d.pre color)).print d .none buf).mark (d.post color)
    ({ ks with last := b#';', cur := ks.cur + buf.length }, u.len)
  else (((ks.mark (d.pre color)).write b#"&badutf8;").mark (d.post color), u.len)

/-- `print_slashes`, parts/xmq_printer.c 675-690. -/
def KS.slashes (d : Dress) (ks : KS) (before after : List Byte) (n : Nat) : KS :=
  ((ks.mark (d.pre .comment)).write (before ++ List.replicate n b#'/' ++ after)).mark (d.post .comment)

/-- `check_space_before_attribute`, parts/xmq_printer.c 760-772. -/
def KS.beforeAttribute (d : Dress) (cfg : OutCfg) (ks : KS) : KS :=
  if ks.last == b#'(' then ks
  else if !cfg.compact then ks.nlIndent d cfg none none
  else if needSepAttributeKey ks.last then ks.whiteSpaces d cfg 1
  else ks

/-- `check_space_before_entity_node`, parts/xmq_printer.c 774-786. -/
def KS.beforeEntity (d : Dress) (cfg : OutCfg) (ks : KS) : KS :=
  if ks.last == b#'(' then ks
  else if !cfg.compact && ks.last != b#'=' then ks.nlIndent d cfg none none
  else if needSepEntity ks.last then ks.whiteSpaces d cfg 1
  else ks

/-- `check_space_before_quote`, parts/xmq_printer.c 789-801. -/
def KS.beforeQuote (d : Dress) (cfg : OutCfg) (ks : KS) (level : Level) : KS :=
  if ks.last == 0 then ks
  else if !cfg.compact && (ks.last != b#'=' || level == .xmq) && ks.last != b#'(' then ks.nlIndent d cfg none none
  else if needSepQuote ks.last then ks.whiteSpaces d cfg 1
  else ks

/-- `check_space_before_key`, parts/xmq_printer.c 803-816. -/
def KS.beforeKey (d : Dress) (cfg : OutCfg) (ks : KS) : KS :=
  if ks.last == 0 then ks
  else if !cfg.compact then ks.nlIndent d cfg none none
  else if needSepElementName ks.last then ks.whiteSpaces d cfg 1
  else ks

/-- `check_space_before_opening_brace`, parts/xmq_printer.c 818-833. -/
def KS.beforeOpeningBrace (d : Dress) (cfg : OutCfg) (ks : KS) : KS :=
  if !cfg.compact then (if ks.last == b#')' then ks.nlIndent d cfg none none else ks.whiteSpaces d cfg 1) else ks

/-- `check_space_before_closing_brace`, parts/xmq_printer.c 835-841. -/
def KS.beforeClosingBrace (d : Dress) (cfg : OutCfg) (ks : KS) : KS := if !cfg.compact then ks.nlIndent d cfg none none else ks

/-- `check_space_before_comment`, parts/xmq_printer.c 843-856. -/
def KS.beforeComment (d : Dress) (cfg : OutCfg) (ks : KS) : KS :=
  if ks.last == 0 then ks
  else if !cfg.compact then ks.nlIndent d cfg none none
  else if needSepComment ks.last then ks.whiteSpaces d cfg 1
  else ks

/-- `level_to_quote_color`, parts/xmq_internals.c 501-513. -/
def quoteColor : Level → Color
  | .xmq => .quote
  | .elementValue => .elementValueQuote
  | .elementValueCompound => .elementValueCompoundQuote
  | .attrValue => .attrValueQuote
  | .attrValueCompound => .attrValueCompoundQuote

/-- `level_to_entity_color`, parts/xmq_internals.c 515-527. -/
def entityColor : Level → Color
  | .xmq => .entity
  | .elementValue => .elementValueEntity
  | .elementValueCompound => .elementValueCompoundEntity
  | .attrValue => .attrValueEntity
  | .attrValueCompound => .attrValueCompoundEntity

/-- `print_all_whitespace`, parts/xmq_printer.c 516-537, as `PS.allWhitespace`. -/
def KS.allWhitespace (d : Dress) (cfg : OutCfg) : Nat → KS → List Byte → Level → KS
  | 0, ks, _, _ => ks
  | k + 1, ks, s, level =>
    match s with
    | [] => ks
    | c :: t =>
      if c == b#' ' then
        let n := (s.takeWhile (· == b#' ')).length
        KS.allWhitespace d cfg k ((ks.beforeQuote d cfg level).quotedSpaces d n) (s.drop n) level
      else KS.allWhitespace d cfg k ((ks.beforeEntity d cfg).charEntity d (entityColor level) s).1 t level

/-- The loop of `print_quote_lines_and_color_uwhitespace`, parts/xmq_printer.c 977-996, over the characters of the text; a
    character is written by `print_utf8_char`, parts/utf8.c 11-57. -/
def KS.quoteLoop (d : Dress) (cfg : OutCfg) (color : Color) : KS → List (List Byte) → KS
  | ks, [] => ks
  | ks, g :: t =>
    if g == [b#'\n'] then
      KS.quoteLoop d cfg color
        (if !t.isEmpty && t.head? != some [b#'\n'] then ks.nlIndent d cfg (d.pre color) (d.post color)
         else ks.nl d (d.pre color) (d.post color)) t
    else KS.quoteLoop d cfg color { ks.write (d.showChar ks.replay g) with cur := ks.cur + 1, last := peek g } t

/-- `print_quote_lines_and_color_uwhitespace`, parts/xmq_printer.c 952-1015, for a non-empty text. -/
def KS.quoteLines (d : Dress) (cfg : OutCfg) (color : Color) (ks : KS) (s : List Byte) : KS :=
  let pre := d.pre color
  let post := d.post color
  let old := ks.restart
  let ks := { ks.mark pre with restart := if post.isNone then pre else none }
  let ks := if peek s == b#'\n' then ks.nl d pre post else ks
  let ks := KS.quoteLoop d cfg color ks (chars s)
  let ks :=
    if s.getLast? == some b#'\n' then
      let line := ks.line
      let ks := { ks with line := line - 1 }
      let ks := if !s.all (· == b#'\n') then ks.nlIndent d cfg none post
        else { ks with cur := 0, last := 0 }.whiteSpaces d cfg ks.line
      { ks with line := line }
    else ks.mark post
  { ks with restart := old }

/-- `print_safe_leaf_quote`, parts/xmq_printer.c 1017-1118, as `PS.safeLeafQuote`. -/
def KS.safeLeafQuote (d : Dress) (cfg : OutCfg) (color : Color) (ks : KS) (s : List Byte) : KS :=
  let numq := countNecessaryQuotes s
  let nls := addNls s false || decide (numq ≥ 4)
  let numq := if numq = 0 then 1 else numq
  let oldLine := ks.line
  if nls then
    let ks := ({ ks with line := ks.cur }.quotes d color numq).nlIndent d cfg none none
    let ks := ((ks.quoteLines d cfg color s).nlIndent d cfg none none).quotes d color numq
    { ks with line := oldLine }
  else
    let ks := ks.quotes d color numq
    let ks := { ks with line := ks.cur }.quoteLines d cfg color s
    { ks with line := oldLine }.quotes d color numq

/-- The inner loop of `print_value_internal_text`, parts/xmq_printer.c 1276-1285, as `PS.escapeNls`. -/
def KS.escapeNls (d : Dress) (cfg : OutCfg) (color : Color) : KS → List Byte → KS × List Byte
  | ks, [] => (ks, [])
  | ks, c :: t =>
    if c == b#'\n' then KS.escapeNls d cfg color ((ks.beforeEntity d cfg).charEntity d color (c :: t)).1 t else (ks, c :: t)

/-- The main loop of `print_value_internal_text`, parts/xmq_printer.c 1269-1304, as `PS.textLoop`. -/
def KS.textLoop (d : Dress) (cfg : OutCfg) (level : Level) (rec : KS → List Byte → KS) : Nat → KS → List Byte → KS
  | 0, ks, _ => ks
  | k + 1, ks, s =>
    match s with
    | [] => ks
    | _ :: t =>
      let n := findEscape cfg s
      if n = 0 then
        let r := (ks.beforeEntity d cfg).charEntity d (entityColor level) s
        if r.2 ≤ 1 then
          let r' := KS.escapeNls d cfg (entityColor level) r.1 t
          KS.textLoop d cfg level rec k r'.1 r'.2
        else KS.textLoop d cfg level rec k r.1 (s.drop r.2)
      else
        let chunk := s.take n
        let ks := if !addCompound chunk false && (!addNls chunk false || !cfg.compact) then
            (ks.beforeQuote d cfg level).safeLeafQuote d cfg (quoteColor level) chunk
          else rec ks chunk
        KS.textLoop d cfg level rec k ks (s.drop n)

/-- The part of `print_value_internal_text` from parts/xmq_printer.c 1244 on, as `PS.textParts`. -/
def KS.textParts (d : Dress) (cfg : OutCfg) (level : Level) (rec : KS → List Byte → KS) (ks : KS) (s : List Byte) : KS :=
  let r : KS × List Byte := match hasLeadingSpaceNl s with
    | some l => if l.onlyNewlines = 0 then (KS.allWhitespace d cfg l.ws.length ks l.ws level, l.text) else (ks, s)
    | none => (ks, s)
  match hasEndingNlSpace r.2 with
  | some e =>
    if e.onlyNewlines = 0 then
      let spaces := e.ws.takeWhile (· == b#' ')
      let text := e.text ++ spaces
      let ws := e.ws.drop spaces.length
      KS.allWhitespace d cfg ws.length (KS.textLoop d cfg level rec text.length r.1 text) ws level
    else KS.textLoop d cfg level rec r.2.length r.1 r.2
  | none => KS.textLoop d cfg level rec r.2.length r.1 r.2

/-- `print_value_internal_text`, parts/xmq_printer.c 1178-1311, as `PS.internalText`. -/
def KS.internalText (d : Dress) (cfg : OutCfg) (level : Level) : Nat → KS → List Byte → KS
  | 0, ks, _ => ks
  | k + 1, ks, s =>
    if s.isEmpty then (ks.beforeQuote d cfg level).print d (quoteColor level) b#"''"
    else if hasAllQuotes s then
      (List.replicate s.length ()).foldl (fun ks _ => ks.print d (entityColor level) b#"&apos;") (ks.beforeEntity d cfg)
    else
      let w := hasAllWhitespace s
      if w.2.1 then (ks.beforeQuote d cfg level).quotedSpaces d s.length
      else if w.1 && !(w.2.2 && !cfg.compact && s.length > 1) then KS.allWhitespace d cfg s.length ks s level
      else if isXmqTextValue s && (level == .elementValue || level == .attrValue) then ks.printSpan d (quoteColor level) s
      else KS.textParts d cfg level (KS.internalText d cfg level k) ks s

/-- `print_entity_node`, parts/xmq_printer.c 177-184. -/
def KS.entityNode (d : Dress) (cfg : OutCfg) (ks : KS) (name : List Byte) : KS :=
  (((ks.beforeEntity d cfg).print d .entity b#"&").print d .entity name).print d .entity b#";"

/-- `print_value_internal`, parts/xmq_printer.c 1330-1340. -/
def KS.valueInternal (d : Dress) (cfg : OutCfg) (level : Level) (ks : KS) : Val → KS
  | .entity name => ks.entityNode d cfg name
  | .text s => KS.internalText d cfg level (s.length + 1) ks s

/-- `print_value`, parts/xmq_printer.c 1399-1437, as `PS.value`. -/
def KS.value (d : Dress) (cfg : OutCfg) (ks : KS) (nodes : List Val) (level : Level) : KS :=
  let compound := level != .xmq &&
    (match nodes with
     | [] => false
     | [.text s] => quoteNeedsCompounded cfg s
     | [.entity _] => false
     | _ => true)
  let oldLine := ks.line
  let nodes := if level == .xmq then nodes.take 1 else nodes
  if compound then
    let ks := ks.print d .cparLeft b#"("
    let ks := if !cfg.compact then ks.whiteSpaces d cfg 1 else ks
    let ks := { ks with line := ks.cur }
    let ks := nodes.foldl (KS.valueInternal d cfg (PS.value.enterCompound level)) ks
    let ks := if !cfg.compact then ks.whiteSpaces d cfg 1 else ks
    { ks.print d .cparRight b#")" with line := oldLine }
  else { nodes.foldl (KS.valueInternal d cfg level) ks with line := oldLine }

/-- `print_comment_lines` and its loops, parts/xmq_printer.c 208-252, as `PS.commentRest`. -/
def KS.commentRest (d : Dress) (cfg : OutCfg) (numSlashes : Nat) : Nat → KS → List Byte → KS
  | 0, ks, _ => ks
  | k + 1, ks, s =>
    match s with
    | [] => ks
    | _ :: _ =>
      let line := s.takeWhile (· != b#'\n')
      let rest := s.drop line.length
      let ks :=
        if cfg.compact then ks.slashes d [b#'*'] [b#'*'] numSlashes
        else if !rest.isEmpty && line.isEmpty && rest.length > 1 then ks.nl d none none
        else ks.nlIndent d cfg none none
      KS.commentRest d cfg numSlashes k (ks.printSpan d .comment line) (rest.drop 1)

/-- `print_comment_lines`, parts/xmq_printer.c 191-257, for a text with a newline. -/
def KS.commentLines (d : Dress) (cfg : OutCfg) (ks : KS) (s : List Byte) : KS :=
  let n := countNecessarySlashes s
  let ks := ks.slashes d [] [b#'*'] n
  let addSpaces := ks.cur + 1 + n
  let ks := if !cfg.compact && peek s != b#'\n' then ks.whiteSpaces d cfg 1 else ks
  let prev := ks.line
  let ks := { ks with line := if !cfg.compact then addSpaces + 1 else addSpaces }
  let line := s.takeWhile (· != b#'\n')
  let ks := KS.commentRest d cfg n s.length (ks.printSpan d .comment line) (s.drop (line.length + 1))
  let ks := if !cfg.compact then ks.whiteSpaces d cfg 1 else ks
  { ks.slashes d [b#'*'] [] n with last := b#'/', line := prev }

/-- `print_comment_node`, parts/xmq_printer.c 259-286: the pieces of a one line comment are written by one call of `print_utf8`. -/
def KS.commentNode (d : Dress) (cfg : OutCfg) (ks : KS) (s : List Byte) : KS :=
  let ks := ks.beforeComment d cfg
  if !hasNewlines s then
    if cfg.compact then
      { ks.token d .comment (fun ks => KS.bytes d b#"*/" (KS.span d s (KS.bytes d b#"/*" ks))) with last := b#'/' }
    else { ks.token d .comment (fun ks => KS.span d s (KS.bytes d b#"// " ks)) with last := 1 }
  else { ks.commentLines d cfg s with last := b#'/' }

/-- `print_key_node` behind the name, parts/xmq_printer.c 345-363, as `PS.keyValue`. -/
def KS.keyValue (d : Dress) (cfg : OutCfg) (ks : KS) (align : Nat) (v : List Val) : KS :=
  let ks := if !cfg.compact then
      let pad := if ks.line ≤ ks.cur ∧ ks.cur - ks.line < align then 1 + align - (ks.cur - ks.line) else 1
      ks.whiteSpaces d cfg pad
    else ks
  let ks := ks.print d .equals b#"="
  let ks := if !cfg.compact then ks.whiteSpaces d cfg 1 else ks
  ks.value d cfg v .elementValue

/-- A name behind its prefix, parts/xmq_printer.c 302-325 and 869-874, with the colours of prefix and name. -/
def KS.prefixed (d : Dress) (nsColor nameColor : Color) (ks : KS) (pre : Option (List Byte)) (name : List Byte) : KS :=
  match pre with
  | some p => ((ks.print d nsColor p).print d .nsColon b#":").print d nameColor name
  | none => ks.print d nameColor name

/-- `print_attribute`, parts/xmq_printer.c 859-886. -/
def KS.nsAttribute (d : Dress) (cfg : OutCfg) (heap : List Ns) (align : Nat) (ks : KS) (a : NAttr) : KS :=
  let pre := nsPrefix heap a.ns
  let ks := (ks.beforeAttribute d cfg).prefixed d .attrNs .attrKey pre a.name
  if noAttrValue a.value then ks
  else
    let ks := if !cfg.compact then ks.whiteSpaces d cfg (1 + align - prefixedWidth pre a.name) else ks
    let ks := ks.print d .equals b#"="
    let ks := if !cfg.compact then ks.whiteSpaces d cfg 1 else ks
    ks.value d cfg a.value .attrValue

/-- `print_namespace_declaration`, parts/xmq_printer.c 888-921. -/
def KS.nsDeclaration (d : Dress) (cfg : OutCfg) (align : Nat) (ks : KS) (n : Ns) : KS :=
  let ks := (ks.beforeAttribute d cfg).print d .nsDeclaration b#"xmlns"
  let ks := match n.pre with
    | some p => (ks.print d .nsColon b#":").print d (if p == b#"xsl" then .nsOverrideXsl else .attrNs) p
    | none => ks
  match n.href with
  | none => ks
  | some v =>
    let ks := if !cfg.compact then ks.whiteSpaces d cfg (1 + align - declWidth n) else ks
    let ks := ks.print d .equals b#"="
    let ks := if !cfg.compact then ks.whiteSpaces d cfg 1 else ks
    KS.internalText d cfg .attrValue (v.length + 1) ks v

/-- `print_attributes`, parts/xmq_printer.c 924-950. -/
def KS.nsAttributes (d : Dress) (cfg : OutCfg) (heap : List Ns) (ks : KS) (attrs : List NAttr) (decls : List Ns) : KS :=
  let max := if !cfg.compact then
      decls.foldl (fun m n => max m (declWidth n)) (attrs.foldl (fun m a => max m (prefixedWidth (nsPrefix heap a.ns) a.name)) 0)
    else 0
  let line := ks.line
  { decls.foldl (KS.nsDeclaration d cfg max) (attrs.foldl (KS.nsAttribute d cfg heap max) { ks with line := ks.cur }) with line := line }

/-- `print_element_name_and_attributes`, parts/xmq_printer.c 288-337.  `key` tells that the element is a `key=value` node. -/
def KS.nsName (d : Dress) (cfg : OutCfg) (heap : List Ns) (key : Bool) (ks : KS) (name : List Byte) (ns : Option Nat)
    (defs : List Nat) (attrs : List NAttr) : KS :=
  let pre := nsPrefix heap ns
  let color : Color := if pre == some b#"xsl" then .nsOverrideXsl else if key && attrs.isEmpty then .elementKey else .elementName
  let ks := (ks.beforeKey d cfg).prefixed d .elementNs color pre name
  if attrs.isEmpty && defs.isEmpty then ks
  else ((ks.print d .aparLeft b#"(").nsAttributes d cfg heap attrs (defs.filterMap (heap[·]?))).print d .aparRight b#")"

/-- What follows the name of a processing instruction or doctype, parts/xmq_printer.c 393-395 and 419-421. -/
def KS.plainEquals (d : Dress) (cfg : OutCfg) (ks : KS) : KS :=
  let ks := if !cfg.compact then ks.whiteSpaces d cfg 1 else ks
  let ks := ks.print d .equals b#"="
  if !cfg.compact then ks.whiteSpaces d cfg 1 else ks

/-- `print_doctype`, parts/xmq_printer.c 387-411. -/
def KS.doctype (d : Dress) (cfg : OutCfg) (ks : KS) (name : List Byte) : KS :=
  let v := flatLines cfg name
  KS.internalText d cfg .elementValue (v.length + 1) (((ks.beforeKey d cfg).print d .elementKey b#"!DOCTYPE").plainEquals d cfg) v

/-- `print_pi_node`, parts/xmq_printer.c 413-451. -/
def KS.piNode (d : Dress) (cfg : OutCfg) (ks : KS) (target content : List Byte) : KS :=
  let v := flatLines cfg ((addEdgeSpaces content).getD [])
  let ks := (ks.beforeKey d cfg).token d .elementKey (fun ks => KS.bytes d target (KS.bytes d b#"?" ks))
  KS.internalText d cfg .elementValue (v.length + 1) (ks.plainEquals d cfg) v

mutual
/-- `print_node`, parts/xmq_printer.c 453-499. -/
def KS.nsNode (d : Dress) (cfg : OutCfg) (heap : List Ns) (ks : KS) (align : Nat) : NNode → KS
  | .text s => ks.value d cfg [.text s] .xmq
  | .entity name => ks.entityNode d cfg name
  | .comment s => ks.commentNode d cfg s
  | .pi target content => ks.piNode d cfg target content
  | .dtd name => ks.doctype d cfg name
  | .element name ns defs attrs kids =>
    let ks := ks.nsName d cfg heap (nsKeyValues kids).isSome name ns defs attrs
    if kids.isEmpty then ks
    else
      match nsKeyValues kids with
      | some v => ks.keyValue d cfg align v
      | none =>
        let ks := (ks.beforeOpeningBrace d cfg).print d .braceLeft b#"{"
        let line := ks.line
        let ks := KS.nsNodes d cfg heap { ks with line := line + cfg.addIndent } (some 0) 0 kids
        ({ ks with line := line }.beforeClosingBrace d cfg).print d .braceRight b#"}"
/-- `print_nodes`, parts/xmq_printer.c 153-170, as `PS.nsNodes`. -/
def KS.nsNodes (d : Dress) (cfg : OutCfg) (heap : List Ns) (ks : KS) (restart : Option Nat) (max : Nat) : List NNode → KS
  | [] => ks
  | n :: t =>
    let r : Nat × Option Nat := if !cfg.compact && restart == some 0 then nsKeyMaxWidth heap (n :: t) 0 0 else (max, restart)
    KS.nsNodes d cfg heap (KS.nsNode d cfg heap ks r.1 n) (r.2.map (· - 1)) r.1 t
end

/-- `xmq_print_xmq`, xmq.c 2925-2956, as `printNs`. -/
def printDressed (d : Dress) (cfg : OutCfg) (heap : List Ns) (nodes : List NNode) : Option (List Byte) :=
  let cfg := if cfg.compact then { cfg with escapeNewlines := true } else cfg
  if emptyPis nodes then none
  else if nodes.isEmpty then some []
  else some (d.front ++ (KS.nsNodes d cfg heap ⟨[], 0, 0, 0, none, none⟩ (some 0) 0 nodes).out ++ d.back ++ [b#'\n'])

/-! ## The themes -/

/-- `XMQ_RENDER_PLAIN`: the theme is empty. -/
def plainDress : Dress := ⟨.plain, fun _ => none, fun _ => none, b#" ", b#"\t", b#"\n", [], []⟩

/-- `XMQColorName`, parts/colors.h 79-93. -/
inductive ColorName
  | C | Q | E | NS | EN | EK | EKV | AK | AKV | CP | NSD | UW | XLS
deriving DecidableEq, Repr

/-- `XMQColorDef`, parts/colors.h 112-116. -/
structure ColorDef where
  r : Int
  g : Int
  b : Int
  bold : Bool
  underline : Bool
deriving DecidableEq, Repr

/-- `snprintf(tmp, 16, "%d", n)`, parts/colors.c 185-197, for numbers of at most 15 bytes. -/
def printInt (n : Int) : List Byte := if n < 0 then b#'-' :: decDigits (n.natAbs + 1) n.natAbs else decDigits (n.natAbs + 1) n.natAbs

/-- `generate_ansi_color`, parts/colors.c 155-203. -/
def ansiColor (c : ColorDef) : List Byte :=
  [27, b#'[', b#'0', b#';'] ++ (if c.bold then b#"1;" else []) ++ (if c.underline then b#"4;" else []) ++ b#"38;2;" ++
    printInt c.r ++ b#";" ++ printInt c.g ++ b#";" ++ printInt c.b ++ b#"m"

/-- `NOCOLOR`, parts/xmq_internals.h 693. -/
def noColor : List Byte := [27, b#'[', b#'0', b#'m']

/-- The colour of a token, xmq.c 258-315 and 410-468; `none` for those that have no colour of their own. -/
def Color.name : Color → Option ColorName
  | .comment => some .C
  | .quote => some .Q
  | .entity | .elementValueEntity | .elementValueCompoundEntity | .attrValueEntity | .attrValueCompoundEntity => some .E
  | .elementNs | .attrNs => some .NS
  | .elementName => some .EN
  | .elementKey => some .EK
  | .elementValueQuote | .elementValueCompoundQuote => some .EKV
  | .attrKey => some .AK
  | .attrValueQuote | .attrValueCompoundQuote => some .AKV
  | .cparLeft | .cparRight => some .CP
  | .nsDeclaration => some .NSD
  | .unicodeWhitespace => some .UW
  | .nsOverrideXsl => some .XLS
  | _ => Option.none

/-- `setup_terminal_coloring` with colours, xmq.c 248-326. -/
def terminalDress (colors : ColorName → ColorDef) : Dress where
  render := .terminal
  pre c := match c.name with
    | some n => some (ansiColor (colors n))
    | none => if c = .none then none else some noColor
  post _ := none
  space := b#" "
  tab := b#"\t"
  nl := b#"\n"
  front := []
  back := noColor

/-- The element name of a colour, xmq.c 410-468: the names of parts/colors.c 235-249. -/
def ColorName.tag : ColorName → List Byte
  | .C => b#"xmqC" | .Q => b#"xmqQ" | .E => b#"xmqE" | .NS => b#"xmqNS" | .EN => b#"xmqEN" | .EK => b#"xmqEK" | .EKV => b#"xmqEKV"
  | .AK => b#"xmqAK" | .AKV => b#"xmqAKV" | .CP => b#"xmqCP" | .NSD => b#"xmqNSD" | .UW => b#"xmqUW" | .XLS => b#"xmqXSL"

/-- `snprintf(buf, 1023, "<pre %s%s%sclass=\"xmq %s%s%s\">", ...)`, xmq.c 383-402: at most 1022 bytes are kept. -/
def htmlPre (id clazz : Option (List Byte)) (dark : Bool) : List Byte :=
  (b#"<pre " ++ (match id with | some i => b#"id=\"" ++ i ++ b#"\" " | none => []) ++ b#"class=\"xmq " ++
    (if dark then b#"xmq_dark" else b#"xmq_light") ++ (match clazz with | some c => b#' ' :: c | none => []) ++ b#"\">").take 1022

/-- `setup_html_coloring`, xmq.c 327-470.  `front` and `back` are the strings around the `pre` element, empty for `render_raw`
    (the header with its style sheet is not modelled). -/
def htmlDress (front back : List Byte) (id clazz : Option (List Byte)) (dark : Bool) : Dress where
  render := .html
  pre c := c.name.map fun n => b#'<' :: (n.tag ++ b#">")
  post c := c.name.map fun n => b#"</" ++ n.tag ++ b#">"
  space := b#" "
  tab := b#"\t"
  nl := b#"\n"
  front := front ++ htmlPre id clazz dark
  back := b#"</pre>" ++ back

/-- `setup_tex_coloring` with `render_raw`, xmq.c 472-598; the indentation is `cfg.indentationSpace`. -/
def texDress : Dress where
  render := .tex
  pre c := c.name.map fun n => b#'\\' :: (n.tag ++ b#"{")
  post c := c.name.map fun _ => b#"}"
  space := b#" "
  tab := b#"\t"
  nl := b#"\\linebreak\n"
  front := b#"\\texttt{\\flushleft\\noindent "
  back := b#"\n}\n"

end Xmq
