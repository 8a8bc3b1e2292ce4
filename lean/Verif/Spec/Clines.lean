import Verif.Model.Tree
import Verif.Spec.Utf8
/-!
# C string literals, and what there is to be seen in a document line by line
-/
namespace Xmq.Spec

/-- The value of a hexadecimal digit. -/
def hexDigit (c : Byte) : Option Nat :=
  if 48 ≤ c ∧ c ≤ 57 then some (c.toNat - 48)
  else if 65 ≤ c ∧ c ≤ 70 then some (c.toNat - 55)
  else if 97 ≤ c ∧ c ≤ 102 then some (c.toNat - 87)
  else none

/-- The number written with hexadecimal digits. -/
def hexNumber (ds : List Byte) : Nat := ds.foldl (fun n d => 16 * n + (hexDigit d).getD 0) 0

/-- The simple escape sequences of C, C11 6.4.4.4. -/
def simpleEscapes : List (Byte × Byte) := [(39, 39), (34, 34), (63, 63), (92, 92), (97, 7), (98, 8), (102, 12), (110, 10), (114, 13), (116, 9), (118, 11)]

/-- The characters between the quotation marks of a C string literal and the bytes they stand for, C11 6.4.5.  A hexadecimal
    escape takes all the digits that follow.  (Octal escapes and universal character names are left out.) -/
inductive CChars : List Byte → List Byte → Prop
  | nil : CChars [] []
  | plain (c : Byte) (q s : List Byte) : c ≠ 34 → c ≠ 92 → c ≠ 10 → CChars q s → CChars (c :: q) (c :: s)
  | simple (e c : Byte) (q s : List Byte) : (e, c) ∈ simpleEscapes → CChars q s → CChars (92 :: e :: q) (c :: s)
  | hex (ds q s : List Byte) : ds ≠ [] → (∀ d ∈ ds, (hexDigit d).isSome) → (∀ d, q.head? = some d → hexDigit d = none) →
      hexNumber ds < 256 → CChars q s → CChars (92 :: 120 :: (ds ++ q)) (UInt8.ofNat (hexNumber ds) :: s)

/-- A path: every name after a slash. -/
def pathOf (names : List (List Byte)) : List Byte := names.flatMap (47 :: ·)

/-- The text of a value. -/
def valueText (vs : List Val) : List Byte := vs.flatMap fun v => match v with | .text s => s | .entity _ => []

mutual
/-- The attributes, the texts and the elements without children, in the order of the document, each with its path and its
    content. -/
def leaves (names : List (List Byte)) : Node → List (List Byte × List Byte)
  | .text s => [(pathOf names, s)]
  | .element name attrs kids =>
    (attrs.map fun a => (pathOf (names ++ [name]) ++ [47, 64] ++ a.name, valueText a.value)) ++
      (if kids = [] then [(pathOf (names ++ [name]), [])] else allLeaves (names ++ [name]) kids)
  | _ => []
/-- The same for a list of nodes. -/
def allLeaves (names : List (List Byte)) : List Node → List (List Byte × List Byte)
  | [] => []
  | n :: t => leaves names n ++ allLeaves names t
end

/-- A line with a path and a C string. -/
def LineFor (leaf : List Byte × List Byte) (line : List Byte) : Prop := ∃ q, line = leaf.1 ++ 61 :: 34 :: (q ++ [34]) ∧ CChars q leaf.2

/-- The lines for these leaves, each ended by a line feed. -/
inductive LinesFor : List (List Byte × List Byte) → List Byte → Prop
  | nil : LinesFor [] []
  | cons (leaf : List Byte × List Byte) (line : List Byte) (ls : List (List Byte × List Byte)) (out : List Byte) : LineFor leaf line →
      (10 : Byte) ∉ line → LinesFor ls out → LinesFor (leaf :: ls) (line ++ 10 :: out)

/-- A name without equal sign and line feed. -/
def PathName (s : List Byte) : Prop := (61 : Byte) ∉ s ∧ (10 : Byte) ∉ s

/-- A text that is quoted as C does: UTF-8, no NUL, and a control character without a letter of its own (and DEL) is not
    followed by a hexadecimal digit. -/
structure CTextSafe (s : List Byte) : Prop where
  utf8 : ValidUtf8 s
  noNul : (0 : Byte) ∉ s
  control : ∀ a c d b, s = a ++ c :: d :: b → (c < 7 ∨ (14 ≤ c ∧ c < 32) ∨ c = 127) → hexDigit d = none

mutual
/-- A node whose names and texts are of that kind; attributes have no entity references. -/
def ClineSafe : Node → Prop
  | .text s => CTextSafe s
  | .element name attrs kids => PathName name ∧ (∀ a ∈ attrs, PathName a.name ∧ CTextSafe (valueText a.value) ∧ ∀ n, Val.entity n ∉ a.value) ∧ ClinesSafe kids
  | _ => True
/-- The same for a list of nodes. -/
def ClinesSafe : List Node → Prop
  | [] => True
  | n :: t => ClineSafe n ∧ ClinesSafe t
end

end Xmq.Spec
