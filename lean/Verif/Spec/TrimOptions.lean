import Verif.Model.TrimOptions
/-!
# When a document is supposed to be trimmed
-/
namespace Xmq.Spec

open Xmq Xmq.TrimOptions

/-- The last option decides; without any, XML and HTML are trimmed. -/
def TrimWanted (k : Content) (opts : List (List Byte)) : Bool :=
  match opts.getLast? with
  | none => k == .xml || k == .html
  | some v => v == b#"heuristic"

/-- White space of XML. -/
def AllBlank (s : List Byte) : Prop := ∀ c ∈ s, c = 32 ∨ c = 9 ∨ c = 10 ∨ c = 13

/-- `LessBlanks d e`: `e` is `d` without some of its texts of white space only, at any depth. -/
inductive LessBlanks : List Node → List Node → Prop
  | nil : LessBlanks [] []
  | drop (s : List Byte) (d e : List Node) : AllBlank s → LessBlanks d e → LessBlanks (.text s :: d) e
  | keep (n : Node) (d e : List Node) : LessBlanks d e → LessBlanks (n :: d) (n :: e)
  | inside (nm : List Byte) (as : _) (ks ls d e : List Node) : LessBlanks ks ls → LessBlanks d e →
      LessBlanks (.element nm as ks :: d) (.element nm as ls :: e)

/-- What the parser delivers for a document `d`: all of it, or less blanks if it was told so. -/
def Delivers (blanks : Bool) (d e : List Node) : Prop := if blanks then LessBlanks d e else e = d

end Xmq.Spec
