import Verif.Model.CmdLine
/-!
# What is expected of a command line

`xmq [options] [file] (command [arguments])*`: a line is cut into global options, the input, and pieces that begin with the
word of a command.
-/
namespace Xmq.Spec
open Xmq.CmdLine

/-- The words of the commands, as they are documented, and what they stand for. -/
def commandWords : List (Arg × Cmd) :=
  [(b#"add", .add), (b#"add-root", .addRoot), (b#"br", .browser), (b#"browse", .browser), (b#"delete", .delete),
   (b#"delete-entity", .deleteEntity), (b#"for-each", .forEach), (b#"help", .help), (b#"load", .load), (b#"no-output", .noOutput),
   (b#"pa", .pager), (b#"page", .pager), (b#"print", .print), (b#"quote-c", .quoteC), (b#"render-html", .renderHtml),
   (b#"render-raw", .renderRaw), (b#"render-terminal", .renderTerminal), (b#"render-tex", .renderTex), (b#"replace", .replace),
   (b#"replace-entity", .replaceEntity), (b#"save-to", .saveTo), (b#"select", .select), (b#"statistics", .statistics),
   (b#"substitute-char-entities", .substituteCharEntities), (b#"substitute-entity", .substituteEntity),
   (b#"to-clines", .toClines), (b#"to-html", .toHtml), (b#"to-htmq", .toHtmq), (b#"to-json", .toJson), (b#"to-text", .toText),
   (b#"to-xml", .toXml), (b#"to-xmq", .toXmq), (b#"tokenize", .tokenize), (b#"transform", .transform),
   (b#"unquote-c", .unquoteC), (b#"validate", .validate)]

/-- The word is that of a command. -/
def IsCommand (word : Arg) (c : Cmd) : Prop := (word, c) ∈ commandWords

/-- Commands that make the text which is written: conversions. -/
def converts : Cmd → Bool
  | .toXmq | .toXml | .toHtmq | .toHtml | .toJson | .toText | .toClines | .renderTerminal | .renderHtml | .renderTex | .renderRaw
  | .tokenize => true
  | _ => false

/-- Commands that say where the text is written to. -/
def writes : Cmd → Bool
  | .print | .pager | .browser | .saveTo | .noOutput => true
  | _ => false

/-- Commands after which nothing is written unless it is asked for. -/
def mutes : Cmd → Bool
  | .forEach | .noOutput => true
  | _ => false

/-- Nothing is written: behind one of these commands there is no conversion. -/
def Muted (cs : List Cmd) : Prop := ∃ pre m post, cs = pre ++ m :: post ∧ mutes m = true ∧ ∀ c ∈ post, converts c = false

/-- One piece of the line: the word, its arguments. -/
structure Piece where
  word : Arg
  args : List Arg

/-- The line. -/
def line (options : List Arg) (input : Option Arg) (pieces : List Piece) : List Arg :=
  options ++ input.toList ++ (pieces.map fun p => p.word :: p.args).flatten

/-- Value of a number written with digits. -/
def numberOf : List Byte → Nat
  | [] => 0
  | d :: t => (d.toNat - 48) * 10 ^ t.length + numberOf t

/-- The last of the arguments that says something about a setting. -/
def lastOf {α : Type} (says : Arg → Option α) (args : List Arg) : Option α := (args.filterMap says).getLast?

/-- `--option=value`. -/
def valueOf (option : Arg) (arg : Arg) : Option Arg := if arg.take option.length = option then some (arg.drop option.length) else none

/-- A switch. -/
def switch (option : Arg) (arg : Arg) : Option Bool := if arg = option then some true else none

/-- The indentation. -/
def indentOf (arg : Arg) : Option Nat :=
  if arg = b#"--compact" then some 0 else (valueOf b#"--indent=" arg).map numberOf

/-- Colours. -/
def colourOf (arg : Arg) : Option Bool :=
  if arg = b#"--color" then some true else if arg = b#"--mono" then some false else none

/-- The type of a tokenization. -/
def typeOf (arg : Arg) : Option TokType :=
  [(b#"--type=debugtokens", TokType.debugTokens), (b#"--type=debugcontent", .debugContent), (b#"--type=terminal", .terminal),
   (b#"--type=html", .html), (b#"--type=tex", .tex), (b#"--type=location", .location)].lookup arg

/-- The format of the input. -/
def formatOf (arg : Arg) : Option Format :=
  [(b#"--xmq", Format.xmq), (b#"--json", .json), (b#"--clines", .clines), (b#"--xml", .xml), (b#"--ixml", .ixml),
   (b#"--html", .html), (b#"--text", .text)].lookup arg

/-- A text as an expression of XPath: between quotes. -/
def quoted (v : Arg) : Arg := if b#'\'' ∈ v then b#"\"" ++ v ++ b#"\"" else b#"'" ++ v ++ b#"'"

/-- What an argument says about the parameter `k` of a transformation. -/
def paramOf (k : Arg) (arg : Arg) : Option Arg :=
  (valueOf (b#"--param=" ++ k ++ b#"=") arg).or ((valueOf (b#"--stringparam=" ++ k ++ b#"=") arg).map quoted)

/-- What the arguments of a command mean. -/
def Understood (w : World) (c : Command) (args : List Arg) : Prop :=
  match c.cmd with
  | .delete | .replace | .select | .addRoot => args = c.xpath.toList
  | .add => args = c.addXmq.toList
  | .saveTo => args = c.saveFile.toList
  | .substituteEntity | .substituteCharEntities => args = c.entity.toList ∧ ∀ e, c.entity = some e → ∀ k, ¬ IsCommand e k
  | .noOutput | .print | .pager | .browser | .statistics | .none => args = []
  | .help => c.helpCommand = args.getLast?
  | .forEach => (args = [] ∧ c.xpath = none ∧ c.content = none) ∨
      ∃ (x : Arg) (shells : List Arg), args = x :: shells.map (b#"--shell=" ++ ·) ∧ c.xpath = some x ∧ c.content = shells.getLast?
  | .load => args.filter (fun a => (valueOf b#"--alias=" a).isNone) = c.input.toList ∧ c.alias = lastOf (valueOf b#"--alias=") args
  | .quoteC | .unquoteC => (∀ a ∈ args, a = b#"--add-nl") ∧ c.addNl = !args.isEmpty
  | .tokenize => (∀ a ∈ args, (typeOf a).isSome = true) ∧ c.tokType = (lastOf typeOf args).getD .none
  | .toHtml | .toJson | .toText | .toClines => (∀ a ∈ args, a = b#"--compact") ∧ c.compact = !args.isEmpty
  | .toXml => (∀ a ∈ args, a = b#"--compact" ∨ a = b#"-o" ∨ a = b#"--omit-decl") ∧
      c.compact = decide (b#"--compact" ∈ args) ∧
      c.omitDecl = decide (b#"-o" ∈ args ∨ b#"--omit-decl" ∈ args)
  | .toXmq | .toHtmq =>
      c.compact = (lastOf (switch b#"--compact") args).getD false ∧
      c.addIndent = (lastOf indentOf args).getD 4 ∧
      c.escapeNewlines = (lastOf (switch b#"--escape-newlines") args).getD false ∧
      c.escapeNon7bit = (lastOf (switch b#"--escape-non-7bit") args).getD false ∧
      c.escapeTabs = (lastOf (switch b#"--escape-tabs") args).getD false
  | .renderTerminal | .renderHtml | .renderTex | .renderRaw =>
      c.compact = (lastOf (switch b#"--compact") args).getD false ∧
      c.addIndent = (lastOf indentOf args).getD 4 ∧
      c.escapeNewlines = (lastOf (switch b#"--escape-newlines") args).getD false ∧
      c.escapeNon7bit = (lastOf (switch b#"--escape-non-7bit") args).getD false ∧
      c.escapeTabs = (lastOf (switch b#"--escape-tabs") args).getD false ∧
      c.renderRaw = (lastOf (switch b#"--nostyle") args).getD false ∧
      c.onlyStyle = (lastOf (switch b#"--onlystyle") args).getD false ∧
      c.useClass = lastOf (valueOf b#"--class=") args ∧ c.useId = lastOf (valueOf b#"--id=") args ∧
      c.theme = lastOf (valueOf b#"--theme=") args ∧ c.explicitCr = lastOf (valueOf b#"--use-cr=") args ∧
      c.explicitSpace = lastOf (valueOf b#"--use-es=") args ∧ c.explicitTab = lastOf (valueOf b#"--use-et=") args ∧
      c.indentationSpace = lastOf (valueOf b#"--use-is=") args ∧ c.explicitNl = lastOf (valueOf b#"--use-nl=") args ∧
      (∀ b, lastOf colourOf args = some b → c.useColor = b)
  | .deleteEntity | .replaceEntity =>
      (∀ f, c.nodeFile = some f → w.doc f = true ∧ b#"--with-file=" ++ f ∈ args) ∧
      (∀ f, c.textFile = some f → w.text f = true ∧ b#"--with-text-file=" ++ f ∈ args) ∧
      c.entity = (args.filter fun a => (valueOf b#"--with-file=" a).isNone && (valueOf b#"--with-text-file=" a).isNone).head? ∧
      (∀ t, c.content = some t →
        (args.filter fun a => (valueOf b#"--with-file=" a).isNone && (valueOf b#"--with-text-file=" a).isNone) =
          c.entity.toList ++ [t])
  | .transform =>
      args.filter (fun a => (valueOf b#"--param=" a).isNone && (valueOf b#"--stringparam=" a).isNone) = c.xslt.toList ∧
      (∀ f, c.xslt = some f → w.doc f = true ∧ w.stylesheet f = true) ∧
      (∀ k, b#'=' ∉ k → c.params.lookup k = lastOf (paramOf k) args)
  | .validate =>
      (∀ f, c.xsd = some f → w.doc f = true ∧ w.schema f = true ∧ f ∈ args) ∧
      (c.silent = true ↔ ∃ a ∈ args, (valueOf b#"--silent" a).isSome = true)

/-- What the options before the file mean for loading. -/
structure Globals (load : Command) (options : List Arg) : Prop where
  format : load.inFormat = (lastOf formatOf options).getD .detect
  noInput : load.noInput = decide (b#"-z" ∈ options)
  content : load.inIsContent = decide (b#"-i" ∈ options)
  lines : load.lines = decide (b#"--lines" ∈ options)
  noMerge : load.noMerge = decide (b#"--no-merge" ∈ options)
  trimNone : load.trimNone = decide (b#"--trim=none" ∈ options)
  trimHeuristic : load.trimHeuristic = decide (b#"--trim=heuristic" ∈ options)
  allParses : load.ixmlAllParses = decide (b#"--ixml-all-parses" ∈ options)
  recover : load.ixmlTryToRecover = decide (b#"--ixml-try-to-recover" ∈ options)
  xmlOfIxml : load.xmlOfIxml = decide (b#"--xml-of-ixml" ∈ options)
  root : load.implicitRoot = lastOf (valueOf b#"--root=") options
  grammar : load.ixmlFile = lastOf (valueOf b#"--ixml=") options
  help : load.printHelp = decide (b#"--help" ∈ options ∨ b#"-h" ∈ options)
  version : load.printVersion = decide (b#"--version" ∈ options)
  license : load.printLicense = decide (b#"--license" ∈ options)

/-- The commands that are run for a line with the commands `own`: a conversion and an output are added unless `own` has them or
    the line is muted. -/
inductive Completed (w : World) (own : List Command) : List Command → Prop where
  | muted : Muted (own.map (·.cmd)) → Completed w own own
  | full : ¬ Muted (own.map (·.cmd)) → (∃ c ∈ own, converts c.cmd = true) → (∃ c ∈ own, writes c.cmd = true) → Completed w own own
  | print (p : Command) : ¬ Muted (own.map (·.cmd)) → (∃ c ∈ own, converts c.cmd = true) → (∀ c ∈ own, writes c.cmd = false) →
      p.cmd = .print → Completed w own (own ++ [p])
  | both (t p : Command) : ¬ Muted (own.map (·.cmd)) → (∀ c ∈ own, converts c.cmd = false) → (∀ c ∈ own, writes c.cmd = false) →
      t.cmd = .toXmq → Understood w t [] → p.cmd = .print → Completed w own (own ++ [t, p])
  | convert (t o : Command) (pre post : List Command) : ¬ Muted (own.map (·.cmd)) → (∀ c ∈ own, converts c.cmd = false) →
      own = pre ++ o :: post → writes o.cmd = true → t.cmd = (if o.cmd = .browser then .renderHtml else .toXmq) → Understood w t [] →
      Completed w own (pre ++ t :: o :: post)

/-- How a line is cut, and what is run for it. -/
structure Cut (w : World) (argv : List Arg) (options : List Arg) (input : Option Arg) (ps : List (Piece × Command)) (load : Command)
    (cs : List Command) : Prop where
  cut : argv = line options input (ps.map (·.1))
  dashes : ∀ o ∈ options, o.head? = some b#'-' ∧ o ≠ b#"-"
  noWord : ∀ i, input = some i → ∀ k, ¬ IsCommand i k
  commands : ∀ p ∈ ps, IsCommand p.1.word p.2.cmd ∧ Understood w p.2 p.1.args
  oneConversion : (ps.filter (fun p => converts p.2.cmd)).length ≤ 1
  oneOutput : (ps.filter (fun p => writes p.2.cmd)).length ≤ 1
  loads : load.cmd = .load ∨ (load.cmd = .none ∧ ∃ p ∈ ps, p.2.cmd = .tokenize)
  file : load.input = input
  globals : Globals load options
  completed : Completed w (ps.map (·.2)) cs

/-- Options that stand before the file and have no value. -/
def plainOptions : List Arg :=
  [b#"-z", b#"-i", b#"--xml-of-ixml", b#"--xmq", b#"--json", b#"--clines", b#"--xml", b#"--ixml", b#"--ixml-all-parses",
   b#"--ixml-try-to-recover", b#"--html", b#"--text", b#"--lines", b#"--no-merge", b#"--trim=none", b#"--trim=heuristic", b#"--help",
   b#"--version", b#"--license", b#"--verbose", b#"--debug", b#"--trace"]

/-- Arguments that a command has to take. -/
def Accepts : Cmd → List Arg → Prop
  | .delete, args | .replace, args | .select, args | .addRoot, args | .add, args | .saveTo, args => ∃ a, args = [a]
  | .print, args | .pager, args | .browser, args | .noOutput, args | .statistics, args => args = []
  | .toHtml, args | .toJson, args | .toText, args | .toClines, args => ∀ a ∈ args, a = b#"--compact"
  | .toXml, args => ∀ a ∈ args, a = b#"--compact" ∨ a = b#"-o" ∨ a = b#"--omit-decl"
  | .toXmq, args | .toHtmq, args => ∀ a ∈ args,
      a ∈ [b#"--compact", b#"--escape-newlines", b#"--escape-non-7bit", b#"--escape-tabs"] ∨
      ∃ ds : Arg, a = b#"--indent=" ++ ds ∧ ∀ d ∈ ds, 48 ≤ d ∧ d ≤ 57
  | .quoteC, args | .unquoteC, args => ∀ a ∈ args, a = b#"--add-nl"
  | .tokenize, args => ∀ a ∈ args, (typeOf a).isSome = true
  | .forEach, args => ∃ (x : Arg) (shells : List Arg), args = x :: shells.map (b#"--shell=" ++ ·)
  | _, _ => False

/-- Commands that work on the document. -/
def edits : Cmd → Bool
  | .delete | .deleteEntity | .replace | .replaceEntity | .substituteEntity | .substituteCharEntities | .transform | .validate
  | .select | .add | .addRoot | .statistics | .quoteC | .unquoteC => true
  | _ => false

/-- A deletion says what is to be deleted. -/
def SaysWhat (c : Command) : Prop := (c.cmd = .delete → c.xpath ≠ none) ∧ (c.cmd = .deleteEntity → c.entity ≠ none)

/-- No option asks for help, the version or the licence. -/
def NoHelp (options : List Arg) : Prop :=
  b#"--help" ∉ options ∧ b#"-h" ∉ options ∧ b#"--version" ∉ options ∧ b#"--license" ∉ options

/-- A document after some commands. -/
def edited {D : Type} (S : Sem D) : List Command → D → Option D
  | [], d => some d
  | c :: cs, d => (S.edit c d).bind (edited S cs)

/-- Where the output commands write to. -/
def Sends (c : Command) : Sink → Prop
  | .console => c.cmd = .print
  | .pager => c.cmd = .pager
  | .browser => c.cmd = .browser
  | .file f => c.cmd = .saveTo ∧ c.saveFile = some f

end Xmq.Spec
