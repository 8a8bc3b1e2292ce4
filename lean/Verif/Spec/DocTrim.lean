import Verif.Model.Tree
import Verif.Spec.Dedent
/-!
# Changing only whitespace
-/
namespace Xmq.Spec
open Xmq

/-- Space, tab, line feed, carriage return. -/
def XmlWhite (c : Byte) : Bool := c == 32 || c == 9 || c == 10 || c == 13

/-- The line without spaces and tabs at its ends. -/
def strip (l : List Byte) : List Byte := rtrim (l.dropWhile Blank)

/-- What is to be seen of lines: those that are not blank, without spaces and tabs at their ends. -/
def inks (ls : List (List Byte)) : List (List Byte) := (ls.map strip).filter (fun l => !l.isEmpty)

/-- What is to be seen of a text, line by line. -/
def seen (s : List Byte) : List (List Byte) := inks (splitLines (lfOnly s))

/-- The second document is the first one without texts and comments of only whitespace, and the other texts and comments show the same lines:
    they differ in indentation, in blanks at the ends of lines and in blank lines, nothing else.  Elements, attributes and references are the same. -/
inductive Trims : List Node → List Node → Prop
  | nil : Trims [] []
  | whiteText {s t t'} : s.all XmlWhite = true → Trims t t' → Trims (.text s :: t) t'
  | whiteComment {s t t'} : s.all XmlWhite = true → Trims t t' → Trims (.comment s :: t) t'
  | text {s s' t t'} : s.all XmlWhite = false → seen s' = seen s → Trims t t' → Trims (.text s :: t) (.text s' :: t')
  | comment {s s' t t'} : s.all XmlWhite = false → seen s' = seen s → Trims t t' → Trims (.comment s :: t) (.comment s' :: t')
  | entity {name t t'} : Trims t t' → Trims (.entity name :: t) (.entity name :: t')
  | element {name attrs ks ks' t t'} : Trims ks ks' → Trims t t' → Trims (.element name attrs ks :: t) (.element name attrs ks' :: t')

mutual
/-- No text or comment of the document has a carriage return without a line feed behind it. -/
def NoLoneCrIn : Node → Prop
  | .text s => NoLoneCr s
  | .comment s => NoLoneCr s
  | .entity _ => True
  | .element _ _ kids => NoLoneCrInAll kids
/-- The same for several nodes. -/
def NoLoneCrInAll : List Node → Prop
  | [] => True
  | n :: t => NoLoneCrIn n ∧ NoLoneCrInAll t
end

end Xmq.Spec
