import Verif.Basic
/-!
# What escaped text means
-/
namespace Xmq.Spec

/-- The text of an XML comment, XML 1.0 production [15]: no two dashes in a row and no dash at the end. -/
def XmlCommentText (s : List Byte) : Prop := ¬ [45, 45] <:+: s ∧ s.getLast? ≠ some 45

/-- How a browser reads character data with the four predefined references. -/
def htmlText : List Byte → List Byte
  | 38 :: 97 :: 109 :: 112 :: 59 :: t => 38 :: htmlText t
  | 38 :: 108 :: 116 :: 59 :: t => 60 :: htmlText t
  | 38 :: 103 :: 116 :: 59 :: t => 62 :: htmlText t
  | 38 :: 113 :: 117 :: 111 :: 116 :: 59 :: t => 34 :: htmlText t
  | c :: t => c :: htmlText t
  | [] => []

end Xmq.Spec
