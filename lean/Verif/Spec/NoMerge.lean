import Verif.Model.Tree
/-!
# Merging the texts of a document

A document that was read without merging has texts beside each other and character references as references.  Merging it
replaces every character reference by its character and joins neighbouring texts, in elements and in values of attributes.
`f` says which text a character reference stands for, given its name without the `#`.
-/
namespace Xmq.Spec.NoMerge

/-- A text takes in the text behind it. -/
def glue : Node → List Node → List Node
  | .text a, .text b :: r => .text (a ++ b) :: r
  | k, r => k :: r

/-- Neighbouring texts joined. -/
def joined (ks : List Node) : List Node := ks.foldr glue []

/-- A text takes in the text behind it, in a value. -/
def glueVal : Val → List Val → List Val
  | .text a, .text b :: r => .text (a ++ b) :: r
  | v, r => v :: r

/-- A text or a reference with a character reference replaced. -/
def decodedVal (f : List Byte → Option (List Byte)) : Val → Option Val
  | .text s => some (.text s)
  | .entity n => if n.head? = some b#'#' then (f n.tail).map Val.text else some (.entity n)

/-- The value of an attribute merged. -/
def mergedVals (f : List Byte → Option (List Byte)) (vs : List Val) : Option (List Val) :=
  (vs.mapM (decodedVal f)).map fun ws => ws.foldr glueVal []

/-- An attribute with its value merged. -/
def mergedAttr (f : List Byte → Option (List Byte)) (a : Attr) : Option Attr := (mergedVals f a.value).map fun v => ⟨a.name, v⟩

mutual
/-- Character references replaced, and everything below merged. -/
def decoded (f : List Byte → Option (List Byte)) : Node → Option Node
  | .text s => some (.text s)
  | .comment s => some (.comment s)
  | .entity n => if n.head? = some b#'#' then (f n.tail).map Node.text else some (.entity n)
  | .element name attrs kids =>
    (attrs.mapM (mergedAttr f)).bind fun as => (decodeds f kids).map fun ks => .element name as (joined ks)
/-- The same for a list. -/
def decodeds (f : List Byte → Option (List Byte)) : List Node → Option (List Node)
  | [] => some []
  | k :: ks => (decoded f k).bind fun d => (decodeds f ks).map fun ds => d :: ds
end

/-- The document with its texts merged. -/
def merged (f : List Byte → Option (List Byte)) (top : List Node) : Option (List Node) := (decodeds f top).map joined

/-- No two texts beside each other. -/
def Apart (ks : List Node) : Prop := ∀ i s t, ks[i]? = some (.text s) → ks[i + 1]? ≠ some (.text t)

mutual
/-- No texts beside each other and no character references, here and below. -/
def Finished : Node → Prop
  | .text _ => True
  | .comment _ => True
  | .entity n => n.head? ≠ some b#'#'
  | .element _ attrs kids =>
    (∀ a ∈ attrs, Apart (a.value.map Val.node) ∧ ∀ n, Val.entity n ∈ a.value → n.head? ≠ some b#'#') ∧ Apart kids ∧ AllFinished kids
/-- The same for a list. -/
def AllFinished : List Node → Prop
  | [] => True
  | k :: ks => Finished k ∧ AllFinished ks
end

end Xmq.Spec.NoMerge
