import Verif.Basic
/-!
# What removing incidental indentation means

A text is seen as its list of lines (without the line feeds).  Nothing here refers to the model.
-/
namespace Xmq.Spec
open Xmq

/-- Space or tab. -/
def Blank (c : Byte) : Bool := c == 32 || c == 9

/-- A line of spaces and tabs only, or an empty line. -/
def BlankLine (l : List Byte) : Bool := l.all Blank

/-- Lines put together with line feeds in between. -/
def unlines (ls : List (List Byte)) : List Byte := List.intercalate [10] ls

/-- The lines of a text. -/
def splitLines : List Byte → List (List Byte)
  | [] => [[]]
  | c :: t =>
    if c = 10 then [] :: splitLines t
    else match splitLines t with
      | [] => [[c]]
      | l :: ls => (c :: l) :: ls

/-- The line without its trailing spaces and tabs. -/
def rtrim (l : List Byte) : List Byte := (l.reverse.dropWhile Blank).reverse

/-- Columns of leading indentation; a tab counts as 8. -/
def width : List Byte → Nat
  | [] => 0
  | c :: t => if c = 32 then 1 + width t else if c = 9 then 8 + width t else 0

/-- The line without `n` columns of leading indentation; a tab that covers more columns than remain disappears. -/
def cut : Nat → List Byte → List Byte
  | 0, l => l
  | _ + 1, [] => []
  | n + 1, c :: t =>
    if c = 32 then cut n t else if c = 9 then (if n + 1 < 8 then t else cut (n + 1 - 8) t) else c :: t

/-- Trailing spaces and tabs are removed from every line but the last. -/
def tidy : List (List Byte) → List (List Byte)
  | [] => []
  | [l] => [l]
  | l :: m :: t => rtrim l :: tidy (m :: t)

/-- The smallest indentation of the lines that are not blank, at most `n`. -/
def minWidth (n : Nat) (ls : List (List Byte)) : Nat :=
  ls.foldl (fun n l => if BlankLine l then n else min n (width l)) n

/-- The lines without the blank lines at the end. -/
def dropBlankEnd (ls : List (List Byte)) : List (List Byte) := (ls.reverse.dropWhile BlankLine).reverse

/-- Lines with the last one right trimmed. -/
def rtrimLast (ls : List (List Byte)) : List (List Byte) :=
  match ls.getLast? with
  | none => []
  | some l => ls.dropLast ++ [rtrim l]

/-- The meaning of a quote of at least two lines whose first character stands at column `indent`.

    Blank lines at the end: the first line feed of them is the end of the text, the others are kept as line feeds.
    Blank lines at the beginning: likewise; the indentation is then the smallest one of the other lines.
    Otherwise the first line starts at column `indent` and is compared with the following lines. -/
def dedent (space : List Byte) (indent : Nat) (ls : List (List Byte)) : List Byte :=
  let core := dropBlankEnd ls
  let ending := ls.length - core.length
  let suffix := List.replicate (ending - 1) 10
  match (if ending = 0 then core else rtrimLast core) with
  | [] => List.replicate (ls.length - 2) 10
  | first :: rest =>
    if BlankLine first then
      let body := rest.dropWhile BlankLine
      let inc := minWidth (width (body.headD [])) body
      List.replicate (rest.length - body.length) 10 ++ unlines (tidy (body.map (cut inc))) ++ suffix
    else
      let inc := minWidth indent rest
      (List.replicate (indent - inc) space).flatten ++ unlines (tidy (first :: rest.map (cut inc))) ++ suffix

/-- Every carriage return is followed by a line feed. -/
def NoLoneCr (s : List Byte) : Prop := ∀ p t, s = p ++ 13 :: t → t.head? = some 10

/-- The text with line feeds in place of carriage return, line feed. -/
def lfOnly : List Byte → List Byte
  | [] => []
  | c :: t => if c = 13 ∧ t.head? = some 10 then lfOnly t else c :: lfOnly t

end Xmq.Spec
