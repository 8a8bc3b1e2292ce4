import Verif.Basic
/-!
# What is seen of coloured text

Readers of the two kinds of decorated output, independent of the printer: a terminal that does not show its colour sequences, and
a browser that shows the text of a `pre` element.
-/
namespace Xmq.Spec

/-- The text a terminal shows: `ESC [` up to the next `m` only sets the colour. -/
def ansiText : Bool → List Byte → List Byte
  | _, [] => []
  | true, c :: t => if c = b#'m' then ansiText false t else ansiText true t
  | false, 27 :: 91 :: t => ansiText true t
  | false, c :: t => c :: ansiText false t

/-- The bytes a terminal shows, each with the colour sequence in force.  The first argument is the sequence in force, the second
    what has been read of a new one. -/
def ansiCells : List Byte → Option (List Byte) → List Byte → List (List Byte × Byte)
  | _, _, [] => []
  | cur, some q, c :: t => if c = b#'m' then ansiCells (q ++ [c]) none t else ansiCells cur (some (q ++ [c])) t
  | cur, none, 27 :: t => ansiCells cur (some [27]) t
  | cur, none, c :: t => (cur, c) :: ansiCells cur none t

/-- The text of HTML: what stands between `<` and `>` is left out, and the three predefined references stand for their
    characters.  Any other `&` is an ampersand. -/
def pageText : Bool → List Byte → List Byte
  | _, [] => []
  | true, c :: t => if c = b#'>' then pageText false t else pageText true t
  | false, 60 :: t => pageText true t
  | false, 38 :: 97 :: 109 :: 112 :: 59 :: t => b#'&' :: pageText false t
  | false, 38 :: 108 :: 116 :: 59 :: t => b#'<' :: pageText false t
  | false, 38 :: 103 :: 116 :: 59 :: t => b#'>' :: pageText false t
  | false, c :: t => c :: pageText false t

/-- No continuation byte of UTF-8 stands directly behind one of the characters that HTML reserves.  True of proper UTF-8, where
    a continuation byte never follows a 7 bit character. -/
def TidyMarkup (s : List Byte) : Prop :=
  ∀ a c x b, s = a ++ c :: x :: b → c = b#'&' ∨ c = b#'<' ∨ c = b#'>' → ¬(0x80 ≤ x ∧ x < 0xc0)

/-- Reads the tags of HTML.  The first argument is what has been read of the current tag, the second the names of the open
    elements, the innermost first.  `none` if an end tag does not match or the text ends within a tag. -/
def openTags : Option (List Byte) → List (List Byte) → List Byte → Option (List (List Byte))
  | none, st, [] => some st
  | some _, _, [] => none
  | none, st, c :: t => if c = b#'<' then openTags (some []) st t else openTags none st t
  | some tag, st, c :: t =>
    if c = b#'>' then
      if tag.head? = some b#'/' then
        if st.head? = some (tag.drop 1) then openTags none (st.drop 1) t else none
      else openTags none (tag.takeWhile (· ≠ b#' ') :: st) t
    else openTags (some (tag ++ [c])) st t

/-- Every element is closed, in the right order. -/
def TagsClosed (s : List Byte) : Prop := openTags none [] s = some []

/-- Reads the braces of TeX: a backslash takes the next character with it, `%` starts a comment that ends with the line.  The first
    argument says where the reader is, the second how many braces are open. -/
def openBraces : Option Bool → Nat → List Byte → Option Nat
  | _, n, [] => some n
  | some false, n, _ :: t => openBraces none n t
  | some true, n, c :: t => openBraces (if c = b#'\n' then none else some true) n t
  | none, n, c :: t =>
    if c = b#'\\' then openBraces (some false) n t
    else if c = b#'%' then openBraces (some true) n t
    else if c = b#'{' then openBraces none (n + 1) t
    else if c = b#'}' then (if n = 0 then none else openBraces none (n - 1) t)
    else openBraces none n t

end Xmq.Spec
