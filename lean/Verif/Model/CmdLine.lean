import Verif.Basic
/-!
# The command line of the tool (xmq-cli.c 435-592, 626-650, 741-1203, 1446-1634, 2764-2864, 3572-3803, 3959-4088)

Arguments are byte strings without NUL.  What is read from files while the arguments are looked at (style sheets, schemas,
replacements, grammars) is given by a `World`; what the commands do to the document is given by a `Sem`.
-/
namespace Xmq.CmdLine

abbrev Arg := List Byte

/-- `XMQCliCmd`, xmq-cli.c 81-118. -/
inductive Cmd where
  | none | help | load | toXmq | toXml | toHtmq | toHtml | toJson | toText | toClines | noOutput | print | saveTo | pager | browser | renderTerminal | renderHtml | renderTex | renderRaw | tokenize | delete | deleteEntity | replace | replaceEntity | substituteEntity | substituteCharEntities | transform | validate | select | forEach | add | addRoot | statistics | quoteC | unquoteC
deriving DecidableEq, Repr

/-- The comparisons of `cmd_from`, xmq-cli.c 438-473, in their order. -/
def cmdTable : List (Arg × Cmd) :=
  [(b#"add", .add), (b#"add-root", .addRoot), (b#"br", .browser), (b#"browse", .browser), (b#"delete", .delete),
   (b#"delete-entity", .deleteEntity), (b#"for-each", .forEach), (b#"help", .help), (b#"load", .load),
   (b#"no-output", .noOutput), (b#"pa", .pager), (b#"page", .pager), (b#"print", .print), (b#"render-html", .renderHtml),
   (b#"render-raw", .renderRaw), (b#"render-terminal", .renderTerminal), (b#"render-tex", .renderTex),
   (b#"replace", .replace), (b#"replace-entity", .replaceEntity), (b#"save-to", .saveTo), (b#"select", .select),
   (b#"statistics", .statistics), (b#"substitute-char-entities", .substituteCharEntities),
   (b#"substitute-entity", .substituteEntity), (b#"to-html", .toHtml), (b#"to-htmq", .toHtmq), (b#"to-json", .toJson),
   (b#"to-text", .toText), (b#"to-xml", .toXml), (b#"to-xmq", .toXmq), (b#"to-clines", .toClines), (b#"tokenize", .tokenize),
   (b#"transform", .transform), (b#"validate", .validate), (b#"quote-c", .quoteC), (b#"unquote-c", .unquoteC)]

/-- `cmd_from`, xmq-cli.c 435-476. -/
def cmdFrom (s : Arg) : Cmd := (cmdTable.lookup s).getD .none

/-- `cmd_name`, xmq-cli.c 478-519. -/
def cmdName : Cmd → Arg
  | .none => b#"noop"
  | .help => b#"help"
  | .load => b#"load"
  | .toXmq => b#"to-xmq"
  | .toXml => b#"to-xml"
  | .toHtmq => b#"to-htmq"
  | .toHtml => b#"to-html"
  | .toJson => b#"to-json"
  | .toText => b#"to-text"
  | .toClines => b#"to-clines"
  | .noOutput => b#"no-output"
  | .print => b#"print"
  | .saveTo => b#"save-to"
  | .pager => b#"pager"
  | .browser => b#"browser"
  | .renderTerminal => b#"render-terminal"
  | .renderHtml => b#"render-html"
  | .renderTex => b#"render-tex"
  | .renderRaw => b#"render-raw"
  | .tokenize => b#"tokenize"
  | .delete => b#"delete"
  | .deleteEntity => b#"delete-entity"
  | .replace => b#"replace"
  | .replaceEntity => b#"replace-entity"
  | .substituteEntity => b#"substitute-entity"
  | .substituteCharEntities => b#"substitute-char-entities"
  | .transform => b#"transform"
  | .validate => b#"validate"
  | .select => b#"select"
  | .forEach => b#"for-each"
  | .add => b#"add"
  | .addRoot => b#"add-root"
  | .statistics => b#"statistics"
  | .quoteC => b#"quote-c"
  | .unquoteC => b#"unquote-c"

/-- `XMQCliCmdGroup`, xmq-cli.c 120-137. -/
inductive Group where
  | none | load | help | to | render | tokenize | xpath | addXmq | forEach | entity | substitute | transform | validate | output
  | quote
deriving DecidableEq, Repr

/-- `cmd_group`, xmq-cli.c 521-590. -/
def cmdGroup : Cmd → Group
  | .load => .load
  | .toXmq | .toXml | .toHtmq | .toHtml | .toJson | .toText | .toClines => .to
  | .noOutput | .print | .saveTo | .pager | .browser => .output
  | .renderTerminal | .renderHtml | .renderTex | .renderRaw => .render
  | .tokenize => .tokenize
  | .delete | .replace | .select | .addRoot => .xpath
  | .add => .addXmq
  | .forEach => .forEach
  | .deleteEntity | .replaceEntity => .entity
  | .substituteEntity | .substituteCharEntities => .substitute
  | .transform => .transform
  | .quoteC | .unquoteC => .quote
  | .validate => .validate
  | .none | .statistics => .none
  | .help => .help

/-- `XMQContentType`. -/
inductive Format where
  | unknown | detect | xmq | htmq | xml | html | json | ixml | text | clines
deriving DecidableEq, Repr

/-- `XMQRenderFormat`. -/
inductive Render where
  | plain | terminal | html | tex | raw
deriving DecidableEq, Repr

/-- `XMQCliTokenizeType`. -/
inductive TokType where
  | none | debugTokens | debugContent | terminal | html | tex | location
deriving DecidableEq, Repr

/-- `XMQCliCommand`, xmq-cli.c 148-220; the environment and what only libxml2 looks at are left out.  A pointer that may be NULL
    is an `Option`.  `content` is the text of an argument or of a file (`textFile`). -/
structure Command where
  cmd : Cmd := .toXmq
  silent : Bool := false
  input : Option Arg := .none
  inIsContent : Bool := false
  noInput : Bool := false
  alias : Option Arg := .none
  xpath : Option Arg := .none
  entity : Option Arg := .none
  content : Option Arg := .none
  textFile : Option Arg := .none
  nodeFile : Option Arg := .none
  addXmq : Option Arg := .none
  params : List (Arg × Arg) := []
  xslt : Option Arg := .none
  xsd : Option Arg := .none
  saveFile : Option Arg := .none
  ixmlFile : Option Arg := .none
  ixmlAllParses : Bool := false
  ixmlTryToRecover : Bool := false
  xmlOfIxml : Bool := false
  inFormat : Format := .detect
  outFormat : Format := .xmq
  renderTo : Render := .plain
  renderRaw : Bool := false
  onlyStyle : Bool := false
  theme : Option Arg := .none
  noMerge : Bool := false
  trimNone : Bool := false
  trimHeuristic : Bool := false
  useColor : Bool := false
  useId : Option Arg := .none
  useClass : Option Arg := .none
  addNl : Bool := false
  hasOverrides : Bool := false
  indentationSpace : Option Arg := .none
  explicitSpace : Option Arg := .none
  explicitTab : Option Arg := .none
  explicitCr : Option Arg := .none
  explicitNl : Option Arg := .none
  addIndent : Nat := 4
  omitDecl : Bool := false
  compact : Bool := false
  escapeNewlines : Bool := false
  escapeNon7bit : Bool := false
  escapeTabs : Bool := false
  implicitRoot : Option Arg := .none
  lines : Bool := false
  printHelp : Bool := false
  printVersion : Bool := false
  printLicense : Bool := false
  verbose : Bool := false
  debug : Bool := false
  trace : Bool := false
  helpCommand : Option Arg := .none
  tokType : TokType := .none
deriving DecidableEq, Repr

/-- What the files named by arguments are.  `doc`: is a document; `stylesheet`, `schema`: the document is one; `text`: can be
    opened. -/
structure World where
  doc : Arg → Bool
  stylesheet : Arg → Bool
  schema : Arg → Bool
  text : Arg → Bool

/-- `allocate_cli_command`, xmq-cli.c 626-650; `colour` is `env->use_color`. -/
def allocate (colour : Bool) : Command := { useColor := colour, renderTo := if colour then .terminal else .plain }

/-- The answer to an argument: taken, not taken, or `exit(1)`. -/
inductive Answer where
  | yes (c : Command) | no | exit
deriving DecidableEq, Repr

/-- `strncmp(arg, "--option=", n)`: what is behind the option. -/
def behind (option arg : Arg) : Option Arg := if option.isPrefixOf arg then some (arg.drop option.length) else .none

/-- `atoi` of digits.  Numbers above `INT_MAX`, for which `atoi` is undefined, are kept. -/
def atoi (ds : Arg) : Nat := ds.foldl (fun n d => 10 * n + (d.toNat - 48)) 0

/-- `--stringparam=` and `--param=`, xmq-cli.c 1051-1096: `raw` is `--param=`.  `none`: not taken. -/
def param (raw : Bool) (kv : Arg) : Option (Arg × Arg) :=
  if b#'=' ∉ kv then .none
  else
    let key := kv.takeWhile (· != b#'=')
    let val := (kv.dropWhile (· != b#'=')).drop 1
    if raw then some (key, val)
    else if b#'\'' ∈ val ∧ b#'"' ∈ val then .none
    else
      let q := if b#'\'' ∈ val then b#'"' else b#'\''
      some (key, q :: val ++ [q])

/-- `hashmap_put` in a map kept as a list. -/
def putParam (kv : Arg × Arg) (ps : List (Arg × Arg)) : List (Arg × Arg) := kv :: ps.filter (·.1 ≠ kv.1)

/-- xmq-cli.c 762-819: what the commands `to` and `render` have. -/
def optionTo (arg : Arg) (c : Command) : Answer :=
  if (cmdGroup c.cmd = .to ∨ cmdGroup c.cmd = .render) ∧ arg = b#"--compact" then .yes { c with addIndent := 0, compact := true }
  else if c.cmd = .toXml ∧ (arg = b#"-o" ∨ arg = b#"--omit-decl") then .yes { c with omitDecl := true }
  else if cmdGroup c.cmd = .quote ∧ arg = b#"--add-nl" then .yes { c with addNl := true }
  else if c.cmd = .toXmq ∨ c.cmd = .toHtmq ∨ cmdGroup c.cmd = .render then
    if arg = b#"--escape-newlines" then .yes { c with escapeNewlines := true }
    else if arg = b#"--escape-non-7bit" then .yes { c with escapeNon7bit := true }
    else if arg = b#"--escape-tabs" then .yes { c with escapeTabs := true }
    else
      match behind b#"--indent=" arg with
      | some ds => if ds.all (fun d => 48 ≤ d && d ≤ 57) then .yes { c with addIndent := atoi ds } else .exit
      | .none => .no
  else .no

/-- xmq-cli.c 821-893: what only the commands `render` have. -/
def optionRender (arg : Arg) (c : Command) : Answer :=
  if cmdGroup c.cmd ≠ .render then .no
  else
    match behind b#"--class=" arg with
    | some v => .yes { c with useClass := some v }
    | .none =>
    if arg = b#"--color" then .yes { c with useColor := true, renderTo := if c.renderTo = .plain then .terminal else c.renderTo }
    else
    match behind b#"--id=" arg with
    | some v => .yes { c with useId := some v }
    | .none =>
    if arg = b#"--mono" then .yes { c with useColor := false }
    else if arg = b#"--nostyle" then .yes { c with renderRaw := true }
    else if arg = b#"--onlystyle" then .yes { c with onlyStyle := true }
    else
    match behind b#"--theme=" arg with
    | some v => .yes { c with theme := some v }
    | .none =>
    match behind b#"--use-cr=" arg with
    | some v => .yes { c with explicitCr := some v, hasOverrides := true }
    | .none =>
    match behind b#"--use-es=" arg with
    | some v => .yes { c with explicitSpace := some v, hasOverrides := true }
    | .none =>
    match behind b#"--use-et=" arg with
    | some v => .yes { c with explicitTab := some v, hasOverrides := true }
    | .none =>
    match behind b#"--use-is=" arg with
    | some v => .yes { c with indentationSpace := some v, hasOverrides := true }
    | .none =>
    match behind b#"--use-nl=" arg with
    | some v => .yes { c with explicitNl := some v, hasOverrides := true }
    | .none => .no

/-- xmq-cli.c 895-936. -/
def optionTokenize (arg : Arg) (c : Command) : Answer :=
  match behind b#"--type=" arg with
  | .none => .no
  | some v =>
    if v = b#"debugtokens" then .yes { c with tokType := .debugTokens }
    else if v = b#"debugcontent" then .yes { c with tokType := .debugContent }
    else if v = b#"terminal" then .yes { c with tokType := .terminal, useColor := true }
    else if v = b#"html" then .yes { c with tokType := .html }
    else if v = b#"tex" then .yes { c with tokType := .tex }
    else if v = b#"location" then .yes { c with tokType := .location }
    else .exit

/-- xmq-cli.c 984-1049.  A text file sets `content`. -/
def optionEntity (w : World) (arg : Arg) (c : Command) : Answer :=
  match behind b#"--with-file=" arg with
  | some f => if w.doc f then .yes { c with nodeFile := some f } else .no
  | .none =>
  match behind b#"--with-text-file=" arg with
  | some f => if w.text f then .yes { c with textFile := some f, content := .none } else .no
  | .none =>
  if c.entity = .none then .yes { c with entity := some arg }
  else if c.content = .none ∧ c.textFile = .none ∧ c.nodeFile = .none then .yes { c with content := some arg }
  else .no

/-- xmq-cli.c 1051-1143. -/
def optionTransform (w : World) (arg : Arg) (c : Command) : Answer :=
  match behind b#"--stringparam=" arg with
  | some kv => (match param false kv with | some p => .yes { c with params := putParam p c.params } | .none => .no)
  | .none =>
  match behind b#"--param=" arg with
  | some kv => (match param true kv with | some p => .yes { c with params := putParam p c.params } | .none => .no)
  | .none =>
  if c.xslt = .none then (if w.doc arg ∧ w.stylesheet arg then .yes { c with xslt := some arg } else .no)
  else .no

/-- xmq-cli.c 1160-1200.  A document that is no schema is taken, and so is a further one. -/
def optionValidate (w : World) (arg : Arg) (c : Command) : Answer :=
  match behind b#"--silent" arg with
  | some _ => .yes { c with silent := true }
  | .none =>
  if c.xsd = .none then
    (if w.doc arg then (if w.schema arg then .yes { c with xsd := some arg } else .yes c) else .no)
  else .no

/-- What `handle_option` does by the group of the command, xmq-cli.c 762-1200. -/
def optionGroup (w : World) (arg : Arg) (c : Command) : Answer :=
  match cmdGroup c.cmd with
  | .to | .quote => optionTo arg c
  | .render => (match optionTo arg c with | .no => optionRender arg c | a => a)
  | .tokenize => optionTokenize arg c
  | .xpath => if c.xpath = .none then .yes { c with xpath := some arg } else .no
  | .addXmq => if c.addXmq = .none then .yes { c with addXmq := some arg } else .no
  | .forEach =>
    if c.xpath = .none then .yes { c with xpath := some arg }
    else (match behind b#"--shell=" arg with | some s => .yes { c with content := some s } | .none => .no)
  | .substitute => if cmdFrom arg = .none ∧ c.entity = .none then .yes { c with entity := some arg } else .no
  | .entity => optionEntity w arg c
  | .transform => optionTransform w arg c
  | .load =>
    (match behind b#"--alias=" arg with
    | some a => .yes { c with alias := some a }
    | .none => if c.input = .none then .yes { c with input := some arg } else .no)
  | .validate => optionValidate w arg c
  | _ => .no

/-- `handle_option`, xmq-cli.c 741-1203.  `arg_next` is not used. -/
def handleOption (w : World) (arg : Arg) (c : Command) : Answer :=
  if c.cmd = .saveTo ∧ c.saveFile = .none then .yes { c with saveFile := some arg }
  else if c.cmd = .help then .yes { c with helpCommand := some arg }
  else optionGroup w arg c

/-- The last `n` bytes. -/
def lastBytes (n : Nat) (s : Arg) : Arg := s.drop (s.length - n)

/-- `handle_global_option`, the options with a value, xmq-cli.c 1563-1634. -/
def globalValue (w : World) (arg : Arg) (c : Command) : Answer :=
  match behind b#"--root=" arg with
  | some v => .yes { c with implicitRoot := some v }
  | .none =>
  if arg = b#"--lines" then .yes { c with lines := true }
  else if arg = b#"--no-merge" then .yes { c with noMerge := true }
  else
  match behind b#"--trim=" arg with
  | some v =>
    if v = b#"none" then .yes { c with trimNone := true }
    else if v = b#"heuristic" then .yes { c with trimHeuristic := true }
    else .exit
  | .none =>
  match behind b#"--ixml=" arg with
  | some f =>
    if c.ixmlFile ≠ .none then .exit
    else if f.length < 6 ∨ (lastBytes 5 f ≠ b#".ixml" ∧ lastBytes 4 f ≠ b#".xml" ∧ lastBytes 4 f ≠ b#".xmq") then .exit
    else if lastBytes 5 f = b#".ixml" then (if w.text f then .yes { c with ixmlFile := some f } else .exit)
    else .no
  | .none => .no

/-- `handle_global_option`, the formats, xmq-cli.c 1508-1561.  The logging switches outside of the command are left out. -/
def globalFormat (w : World) (arg : Arg) (c : Command) : Answer :=
  if arg = b#"--xmq" then .yes { c with inFormat := .xmq }
  else if arg = b#"--json" then .yes { c with inFormat := .json }
  else if arg = b#"--clines" then .yes { c with inFormat := .clines }
  else if arg = b#"--xml" then .yes { c with inFormat := .xml }
  else if arg = b#"--ixml" then .yes { c with inFormat := .ixml }
  else if arg = b#"--ixml-all-parses" then .yes { c with ixmlAllParses := true }
  else if arg = b#"--ixml-try-to-recover" then .yes { c with ixmlTryToRecover := true }
  else if arg = b#"--log-xmq" ∨ arg = b#"-lx" then .yes c
  else if arg = b#"--html" then .yes { c with inFormat := .html }
  else if arg = b#"--text" then .yes { c with inFormat := .text }
  else globalValue w arg c

/-- `handle_global_option`, xmq-cli.c 1446-1634.  The logging switches outside of the command are left out. -/
def handleGlobal (w : World) (arg : Arg) (c : Command) : Answer :=
  if arg = b#"--help" ∨ arg = b#"-h" then .yes { c with printHelp := true }
  else if arg = b#"-z" then .yes { c with noInput := true }
  else if arg = b#"-i" then .yes { c with inIsContent := true }
  else if arg = b#"--xml-of-ixml" then .yes { c with xmlOfIxml := true }
  else if arg = b#"--trace" then .yes { c with trace := true }
  else if arg = b#"--debug" then .yes { c with debug := true }
  else if arg = b#"--verbose" then .yes { c with verbose := true }
  else if arg = b#"--license" then .yes { c with printLicense := true }
  else if arg = b#"--version" then .yes { c with printVersion := true }
  else if arg = b#"--render-theme" then .exit
  else globalFormat w arg c

/-- `prepare_command`, xmq-cli.c 2764-2864, without what it does to the load command. -/
def prepare (load c : Command) : Command :=
  match c.cmd with
  | .toXmq => { c with outFormat := .xmq }
  | .toXml => { c with outFormat := .xml }
  | .toHtmq => { c with outFormat := .htmq }
  | .toHtml => { c with outFormat := .html }
  | .toJson => { c with outFormat := .json }
  | .toText => { c with outFormat := .text }
  | .toClines => { c with outFormat := .clines }
  | .pager => { c with outFormat := .unknown, renderTo := .terminal }
  | .browser => { c with outFormat := .unknown, renderTo := .html }
  | .print => { c with outFormat := .unknown, renderTo := .terminal }
  | .saveTo => { c with outFormat := .unknown, renderTo := .plain }
  | .renderTerminal => { c with outFormat := .xmq, renderTo := .terminal }
  | .renderHtml => { c with outFormat := .xmq, renderTo := .html }
  | .renderTex => { c with outFormat := .xmq, renderTo := .tex }
  | .renderRaw => { c with outFormat := .unknown, renderTo := .raw }
  | .tokenize => { c with input := load.input }
  | .help => { c with printHelp := true }
  | _ => c

/-- What `prepare_command` does to the load command, xmq-cli.c 2816-2820. -/
def prepareLoad (cmd : Cmd) (load : Command) : Command := if cmd = .tokenize then { load with cmd := .none } else load

/-- How `xmq_parse_cmd_line` ends: a chain of commands, or a message (with what it names) and the exit status 1. -/
inductive Parsed where
  | chain (cs : List Command)
  | unknownGlobal (arg : Arg)
  | noSuchCommand (named : Arg)
  | notAvailable (arg command : Arg)
  | twoConversions
  | twoOutputs
  | exit
deriving DecidableEq, Repr

/-- The loop over the global options, xmq-cli.c 3645-3657: the load command and the arguments that are left. -/
def globals (w : World) : List Arg → Command → Parsed ⊕ (Command × List Arg)
  | [], load => .inr (load, [])
  | arg :: rest, load =>
    if arg.head? ≠ some b#'-' ∨ arg = b#"-" then .inr (load, arg :: rest)
    else
      match handleGlobal w arg load with
      | .yes load => globals w rest load
      | .no => .inl (.unknownGlobal arg)
      | .exit => .inl .exit

/-- The loop over the arguments of a command, xmq-cli.c 3694-3708. -/
def arguments (w : World) : List Arg → Command → Parsed ⊕ (Command × List Arg)
  | [], c => .inr (c, [])
  | arg :: rest, c =>
    match handleOption w arg c with
    | .yes c => arguments w rest c
    | .exit => .inl .exit
    | .no => if cmdFrom arg ≠ .none then .inr (c, arg :: rest) else .inl (.notAvailable arg (cmdName c.cmd))

/-- What the loop remembers: the load command, the commands so far (the latest first), whether there is a conversion, the
    output command, `do_print`. -/
structure Found where
  load : Command
  done : List Command := []
  to : Bool := false
  output : Option Cmd := none
  doPrint : Bool := true

def isTo (c : Cmd) : Bool := cmdGroup c == .to || cmdGroup c == .render || cmdGroup c == .tokenize
def isOutput (c : Cmd) : Bool := cmdGroup c == .output

/-- The commands are remembered, xmq-cli.c 3710-3744. -/
def remember (f : Found) (c : Command) : Parsed ⊕ Found :=
  if isTo c.cmd ∧ f.to then .inl .twoConversions
  else
    let doPrint := if isTo c.cmd then true else f.doPrint
    let doPrint := if cmdGroup c.cmd = .forEach ∨ c.cmd = .noOutput then false else doPrint
    if isOutput c.cmd ∧ f.output.isSome then .inl .twoOutputs
    else .inr { f with done := c :: f.done, to := f.to || isTo c.cmd, doPrint := doPrint,
                       output := if isOutput c.cmd then some c.cmd else f.output }

/-- The loop over the commands, xmq-cli.c 3690-3754.  The first argument bounds the number of commands. -/
def commands (w : World) (colour : Bool) : Nat → List Arg → Found → Parsed ⊕ Found
  | 0, _, f => .inr f
  | _ + 1, [], f => .inr f
  | n + 1, word :: rest, f =>
    let cmd := cmdFrom word
    let c := prepare f.load { allocate colour with cmd := cmd }
    let f := { f with load := prepareLoad cmd f.load }
    match arguments w rest c with
    | .inl e => .inl e
    | .inr (c, rest) =>
      match remember f c with
      | .inl e => .inl e
      | .inr f => commands w colour n rest f

/-- Put `x` before the (only) output command. -/
def insertBeforeOutput (x : Command) : List Command → List Command
  | [] => []
  | c :: cs => if isOutput c.cmd then x :: c :: cs else c :: insertBeforeOutput x cs

/-- What is added at the end, xmq-cli.c 3756-3800. -/
def complete (colour : Bool) (f : Found) : List Command :=
  let cs := f.load :: f.done.reverse
  let fresh := fun cmd => prepare f.load { allocate colour with cmd := cmd }
  let cs :=
    if !f.to && f.doPrint then
      match f.output with
      | some o => insertBeforeOutput (fresh (if o = .browser then .renderHtml else .toXmq)) cs
      | none => cs ++ [fresh .toXmq]
    else cs
  if f.output.isNone && f.doPrint then cs ++ [fresh .print] else cs

/-- `xmq_parse_cmd_line`, xmq-cli.c 3635-3803; `argv` without the name of the program. -/
def parseCmdLine (w : World) (colour : Bool) (argv : List Arg) : Parsed :=
  match globals w argv { allocate colour with cmd := .load } with
  | .inl e => e
  | .inr (load, rest) =>
    let go := fun (load : Command) (rest : List Arg) =>
      match commands w colour (rest.length + 1) rest { load := load } with
      | .inl e => e
      | .inr f => .chain (complete colour f)
    match rest with
    | [] => go load []
    | word :: rest =>
      if cmdFrom word ≠ .none then go load (word :: rest)
      else
        match rest with
        | [] => go { load with input := some word } []
        | second :: _ =>
          if cmdFrom second = .none then .noSuchCommand word
          else go { load with input := some word } rest

/-! ## Running the commands -/

/-- What the commands do, for documents `D`.  `tokens` gives the text and whether there was no error. -/
structure Sem (D : Type) where
  load : Command → Option D
  edit : Command → D → Option D
  render : Command → D → List Byte
  tokens : Command → List Byte × Bool
  opens : Arg → Bool

/-- Where the output went to. -/
inductive Sink where
  | console | pager | browser | file (name : Arg)
deriving DecidableEq, Repr

/-- `XMQCliEnvironment`: the document, the text to be written, and what was written. -/
structure Env (D : Type) where
  doc : Option D := none
  out : Option (List Byte) := none
  written : List (Sink × List Byte) := []

inductive Step (D : Type) where
  | ok (e : Env D) | failed (e : Env D) | exit0 (e : Env D) | ub

/-- `cmd_output`, xmq-cli.c 1981-2043.  That a file was not written completely is not a failure. -/
def cmdOutput {D : Type} (S : Sem D) (c : Command) (e : Env D) : Step D :=
  match e.out with
  | none => .failed e
  | some t =>
    match c.cmd with
    | .print => .ok { e with written := e.written ++ [(.console, t)] }
    | .pager => .ok { e with written := e.written ++ [(.pager, t)] }
    | .browser => .ok { e with written := e.written ++ [(.browser, t)] }
    | .saveTo =>
      match c.saveFile with
      | none => .failed e
      | some f => if S.opens f then .ok { e with written := e.written ++ [(.file f, t)] } else .failed e
    | _ => .failed e

/-- `perform_command`, xmq-cli.c 3572-3633.  Without a document (`env->doc` is NULL) the commands read at NULL. -/
def perform {D : Type} (S : Sem D) (c : Command) (e : Env D) : Step D :=
  match cmdGroup c.cmd with
  | .load => (match S.load c with | some d => .ok { e with doc := some d } | none => .failed { e with doc := none })
  | .to | .render => (match e.doc with | some d => .ok { e with out := some (S.render c d) } | none => .ub)
  | .tokenize =>
    let r := S.tokens c
    if r.2 then .ok { e with out := some r.1 } else .failed { e with out := some r.1 }
  | .output => if c.cmd = .noOutput then .ok e else cmdOutput S c e
  | .help =>
    (match c.helpCommand with
    | none => .exit0 e
    | some h => if cmdFrom h = .none then .failed e else .ok e)
  | _ =>
    if c.cmd = .none then .ok e
    else if c.cmd = .delete ∧ c.xpath = none then .failed e
    else if c.cmd = .deleteEntity ∧ c.entity = none then .failed e
    else
      match e.doc with
      | none => .ub
      | some d => match S.edit c d with | some d => .ok { e with doc := some d } | none => .failed e

/-- The loop of `main`, xmq-cli.c 4057-4070: the exit status and what was written. -/
def runChain {D : Type} (S : Sem D) : List Command → Env D → Option (Nat × List (Sink × List Byte))
  | [], e => some (0, e.written)
  | c :: cs, e =>
    match perform S c e with
    | .ok e => runChain S cs e
    | .failed e => some (1, e.written)
    | .exit0 e => some (0, e.written)
    | .ub => none

/-- `main`, xmq-cli.c 4022-4088.  `none` is undefined behaviour. -/
def main {D : Type} (w : World) (S : Sem D) (colour : Bool) (argv : List Arg) : Option (Nat × List (Sink × List Byte)) :=
  match parseCmdLine w colour argv with
  | .chain cs =>
    match cs with
    | [] => some (0, [])
    | load :: rest =>
      if load.printVersion ∨ load.printLicense ∨ load.printHelp then some (0, [])
      else
        match rest with
        | [] => runChain S (load :: rest) {}
        | c :: _ =>
          if c.cmd = .help then
            match c.helpCommand with
            | none => some (0, [])
            | some h => if cmdFrom h = .none then some (0, []) else some (1, [])
          else runChain S (load :: rest) {}
  | _ => some (1, [])

end Xmq.CmdLine
