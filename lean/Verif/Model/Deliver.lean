import Verif.Basic
/-!
# The output handed over: the XML declaration left out, printed, saved, shown in a browser

xmq.c 2958-3003 (`xmqPrint`, its part after the output is made), xmq-cli.c 1981-2043 (`cmd_output`), 3085-3094 (`console_write`) and
3199-3241 (`browse`).
-/
namespace Xmq.Deliver

/-- The format of the output, xmq.h; only whether it is XML matters here. -/
inductive Format
  | xmq | xml | html | json | text | clines
  deriving DecidableEq, Repr

/-- A document as far as its declaration is concerned: its version, whether it is standalone, and what follows the declaration. -/
structure Dump where
  version : List Byte
  standalone : Option Bool
  body : List Byte
  deriving DecidableEq, Repr

/-- The part of the declaration about standing alone. -/
def standalonePart : Option Bool → List Byte
  | none => []
  | some false => b#" standalone=\"no\""
  | some true => b#" standalone=\"yes\""

/-- What `xmlDocDumpMemoryEnc` with `"utf-8"` (xmq.c 2693-2696) puts in front of the document.  This is libxml2, taken to write the
    declaration with the version of the document, the encoding asked for and `standalone`, followed by a newline. -/
def declaration (d : Dump) : List Byte :=
  b#"<?xml version=\"" ++ d.version ++ b#"\" encoding=\"utf-8\"" ++ standalonePart d.standalone ++ b#"?>" ++ [10]

/-- The whole output of `xmq_print_xml`, xmq.c 2686-2703. -/
def dump (d : Dump) : List Byte := declaration d ++ d.body

/-- `*output_skip`, xmq.c 2993-3001. -/
def outputSkip (f : Format) (omitDecl : Bool) : Nat := if f = .xml && omitDecl then 39 else 0

/-- `console_write`, xmq-cli.c 3085-3094, not on Windows, called with `out_start + out_skip` and `out_stop` (1997): the length becomes
    an `int`, and `printf` stops at a NUL.  A negative length lets `printf` go on to a NUL wherever it is; this and a start behind the
    end are undefined. -/
def consoleWrite (out : List Byte) (skip : Nat) : Option (List Byte) :=
  if skip ≤ out.length then
    if (out.length - skip) % 2 ^ 32 < 2 ^ 31 then
      some (((out.drop skip).take ((out.length - skip) % 2 ^ 32)).takeWhile (· != 0))
    else none
  else none

/-- What a command leaves: the bytes in the file, whether a message of failure was written, and what the command returned. -/
structure Left where
  file : List Byte
  complained : Bool
  returned : Bool
  deriving DecidableEq, Repr

/-- `save-to`, xmq-cli.c 2016-2040; `room` is how many bytes the file takes. -/
def saveTo (room : Nat) (out : List Byte) (skip : Nat) : Option Left :=
  if skip ≤ out.length then
    let len := out.length - skip
    let file := ((out.drop skip).take len).take room
    some ⟨file, file.length != len, true⟩
  else none

/-- `browse`, xmq-cli.c 3228-3240: the file written; `complained` is false if the browser is started. -/
def browse (room : Nat) (out : List Byte) (skip : Nat) : Option Left :=
  if skip ≤ out.length then
    let len := out.length - skip
    let file := (out.take len).take room
    some ⟨file, file.length != len, true⟩
  else none

/-- The loop over the name of the input, xmq-cli.c 3203-3209. -/
def baseName (inp : List Byte) : List Byte := (inp.reverse.takeWhile (fun c => c != b#'/' && c != b#'\\')).reverse

/-- The name of the file for the browser, xmq-cli.c 3201-3218; `snprintf` with 1023 leaves at most 1022 bytes. -/
def browseName (inp : Option (List Byte)) : List Byte :=
  (b#"xmq_browsing_" ++ (match inp with | some i => baseName i | none => b#"stdin") ++ b#".html").take 1022

end Xmq.Deliver
