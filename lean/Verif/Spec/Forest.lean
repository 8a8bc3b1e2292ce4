import Verif.Model.Forest
/-!
# What the document of all parses is supposed to be
-/
namespace Xmq.Spec

open Xmq Xmq.Ixml Xmq.Forest

mutual
/-- `Parse f t`: choosing one alternative wherever there are some gives the parse tree `t`. -/
inductive Parse : Forest → Tree → Prop
  | term (m : Byte) (c : Nat) : Parse (.term m c) (.term m c)
  | node (nm : List Byte) (m : Byte) (ks : List Forest) (ts : List Tree) : ParseAll ks ts → Parse (.node nm m ks) (.node nm m ts)
  | this (n nx : Forest) (t : Tree) : Parse n t → Parse (.alt n nx) t
  | next (n nx : Forest) (t : Tree) : Parse nx t → Parse (.alt n nx) t
/-- The same for a sequence. -/
inductive ParseAll : List Forest → List Tree → Prop
  | nil : ParseAll [] []
  | cons (f : Forest) (fs : List Forest) (t : Tree) (ts : List Tree) : Parse f t → ParseAll fs ts → ParseAll (f :: fs) (t :: ts)
end

/-- `Chosen ps ds`: replacing every element AMBIGUOUS by one of its children gives `ds`. -/
inductive Chosen : List Piece → List Piece → Prop
  | nil : Chosen [] []
  | text (b : List Byte) (ps ds : List Piece) : Chosen ps ds → Chosen (.text b :: ps) (.text b :: ds)
  | attr (nm v : List Byte) (ps ds : List Piece) : Chosen ps ds → Chosen (.attr nm v :: ps) (.attr nm v :: ds)
  | elem (nm : List Byte) (kids ks ps ds : List Piece) : nm ≠ b#"AMBIGUOUS" → Chosen kids ks → Chosen ps ds →
      Chosen (.elem nm kids :: ps) (.elem nm ks :: ds)
  | amb (kids : List Piece) (q : Piece) (qs ps ds : List Piece) : q ∈ kids → Chosen [q] qs → Chosen ps ds →
      Chosen (.elem b#"AMBIGUOUS" kids :: ps) (qs ++ ds)

mutual
/-- No alternatives. -/
def Plain1 : Forest → Prop
  | .null => False
  | .term _ _ => True
  | .node _ _ ks => PlainAll ks
  | .alt _ _ => False
def PlainAll : List Forest → Prop
  | [] => True
  | f :: fs => Plain1 f ∧ PlainAll fs
end

/-- A node that becomes an element. -/
def Visible : Forest → Prop
  | .node nm m _ => nm.take 2 ≠ b#"|+" ∧ m ≠ b#'-' ∧ m ≠ b#'@'
  | .alt _ _ => True
  | _ => False

mutual
/-- The alternatives become elements, those in attributes have no alternatives, and no rule is called AMBIGUOUS. -/
def Clear : Forest → Prop
  | .null => False
  | .term _ _ => True
  | .node nm m ks => nm ≠ b#"AMBIGUOUS" ∧ (m = b#'@' → PlainAll ks) ∧ ClearAll ks
  | .alt n nx => Visible n ∧ Clear n ∧ ClearAlts nx
def ClearAll : List Forest → Prop
  | [] => True
  | f :: fs => Clear f ∧ ClearAll fs
/-- The chain of alternatives ends with the null pointer. -/
def ClearAlts : Forest → Prop
  | .null => True
  | .alt n nx => Visible n ∧ Clear n ∧ ClearAlts nx
  | _ => False
end

end Xmq.Spec
