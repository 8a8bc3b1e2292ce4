import Verif.Basic
/-!
# What is added to a document, in order
-/
namespace Xmq

/-- An attribute of the current element, an element inside it or text inside it. -/
inductive Piece where
  | attr (name : List Byte) (value : List Byte)
  | elem (name : List Byte) (content : List Piece)
  | text (bytes : List Byte)
deriving Repr

end Xmq
