import Verif.Model.Numbers
/-!
# Which colours a terminal gets (xmq-cli.c 1256-1445, 4018-4031)
-/
namespace Xmq.Term

/-- `XMQ_RENDER_MONO`, `XMQ_RENDER_COLOR_LIGHTBG`, `XMQ_RENDER_COLOR_DARKBG`. -/
inductive Style where
  | mono | lightbg | darkbg
deriving DecidableEq, Repr

/-- What `terminal_render_theme` does: leave the program (`sig_alarm_handler`), read outside of a string, or set
    `use_color` and `bg_dark_mode` and return a style. -/
inductive Found where
  | exits
  | undefined
  | found (useColor dark : Bool) (style : Style)
deriving DecidableEq, Repr

/-- The loop of `query_xterm_bgcolor`, xmq-cli.c 1302-1316.  What the terminal sends; `none`: an error when reading.  The
    result is what is in `buf`; `none` if nothing more comes: then the alarm ends the program (1243-1249). -/
def readReply : Nat → List (Option Byte) → Option (List Byte)
  | _, [] => none
  | _, none :: _ => some []
  | i, some c :: t =>
    if c = 7 then some []
    else if i + 1 ≥ 24 then some [c]
    else (readReply (i + 1) t).map (c :: ·)

/-- A literal in the format of `sscanf`. -/
def scanLit : List Byte → List Byte → Option (List Byte)
  | [], s => some s
  | l :: ls, c :: s => if l = c then scanLit ls s else none
  | _ :: _, [] => none

/-- The digits of `%04x`, at most `n`. -/
def scanDigits : Nat → List Byte → List Byte
  | n + 1, c :: t => if digitValue c < 16 then c :: scanDigits n t else []
  | _, _ => []

/-- `%04x` of `sscanf`: space is skipped, then at most four bytes: sign, `0x`, digits. -/
def scanHex (s : List Byte) : Option (Int × List Byte) :=
  let r := s.dropWhile isSpace
  let sign := if peek r = b#'-' ∨ peek r = b#'+' then 1 else 0
  let r1 := r.drop sign
  let pre := if peek r1 = b#'0' ∧ (peek (r1.drop 1) = b#'x' ∨ peek (r1.drop 1) = b#'X') then 2 else 0
  let r2 := r1.drop pre
  let ds := scanDigits (4 - sign - pre) r2
  if ds = [] then none
  else
    let v : Int := (ds.foldl (fun acc c => acc * 16 + digitValue c) 0 : Nat)
    some (if peek r = b#'-' then -v else v, r2.drop ds.length)

/-- `sscanf(buf+1, "]11;rgb:%04x/%04x/%04x", &r, &g, &b)`, xmq-cli.c 1318: `none` if it is not 3. -/
def scanReply (s : List Byte) : Option (Int × Int × Int) := do
  let s ← scanLit b#"]11;rgb:" s
  let (r, s) ← scanHex s
  let s ← scanLit b#"/" s
  let (g, s) ← scanHex s
  let s ← scanLit b#"/" s
  let (b, _) ← scanHex s
  return (r, g, b)

/-- `query_xterm_bgcolor`, xmq-cli.c 1256-1333: whether the background is dark, `none` if the program ends.  The
    brightness is computed without rounding. -/
def queryXterm (reply : List (Option Byte)) : Option Bool :=
  (readReply 0 reply).map fun buf =>
    if peek buf = 0x1b ∧ buf.length ≥ 23 then
      match scanReply ((buf.takeWhile (· != 0)).drop 1) with
      | some (r, g, b) => if 2126 * r + 7152 * g + 722 * b > 153 * 256 * 10000 then false else true
      | none => true
    else true

/-- `strrchr(s, ';')`: what follows the last semicolon. -/
def afterLast : List Byte → Option (List Byte)
  | [] => none
  | c :: t =>
    match afterLast t with
    | some r => some r
    | none => if c = b#';' then some t else none

/-- The value of `COLORFGBG`, xmq-cli.c 1415-1437: dark or not; `none`: a read behind the end of the string. -/
def colorFgBg (s : List Byte) : Option Bool :=
  match afterLast s with
  | none => some true
  | some [] => none
  | some [c] => some (c == b#'0')
  | some (_ :: _ :: _) => some false

/-- The environment and the terminal. -/
structure World where
  theme : Option (List Byte)
  term : Option (List Byte)
  fgbg : Option (List Byte)
  tty : Bool
  reply : List (Option Byte)

/-- `terminal_render_theme`, xmq-cli.c 1337-1445 (not Windows). -/
def renderTheme (w : World) : Found :=
  let term := w.term.getD b#"NULL"
  match w.theme with
  | some m =>
    if m = b#"mono" then .found false false .mono
    else if m = b#"lightbg" then .found true false .lightbg
    else if m = b#"darkbg" then .found true true .darkbg
    else .found false false .mono
  | none =>
    if term = b#"linux" then .found true true .darkbg
    else if term = b#"xterm-256color" ∨ term = b#"xterm" then
      if !w.tty then .found true true .darkbg
      else
        match queryXterm w.reply with
        | none => .exits
        | some true => .found true true .darkbg
        | some false => .found true false .lightbg
    else
      match w.fgbg with
      | some s =>
        match colorFgBg s with
        | none => .undefined
        | some true => .found true true .darkbg
        | some false => .found true false .lightbg
      | none => .found true true .darkbg

/-- `env.use_color` and `env.bg_dark_mode` of `main`, xmq-cli.c 4018-4031. -/
def mainColours (w : World) : Found :=
  match renderTheme w with
  | .found u d s => .found (if w.tty then u else false) d s
  | f => f

end Xmq.Term
