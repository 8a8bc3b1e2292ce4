import Verif.Model.Tree
import Verif.Spec.Utf8
/-!
# What writing a document as XML or HTML may do to it
-/
namespace Xmq.Spec
open Xmq

/-- `style` and `script` in any case. -/
def CdataName (name : List Byte) : Prop :=
  let low := name.map fun c => if 65 ≤ c ∧ c ≤ 90 then c + 32 else c
  low = [115, 116, 121, 108, 101] ∨ low = [115, 99, 114, 105, 112, 116]

/-- The name of the node as the document object model has it. -/
def domName : Node → List Byte
  | .text _ => [116, 101, 120, 116]
  | .comment _ => [99, 111, 109, 109, 101, 110, 116]
  | .entity name => name
  | .element name _ _ => name

mutual
/-- `StyleDecoded ref inside n m`: inside `style` and `script` references are replaced by what they stand for (`ref`), everything else stays. -/
inductive StyleDecoded (ref : List Byte → List Byte → Prop) : Bool → Node → Node → Prop
  | text {i s} : StyleDecoded ref i (.text s) (.text s)
  | comment {i s} : StyleDecoded ref i (.comment s) (.comment s)
  | keep {name} : StyleDecoded ref false (.entity name) (.entity name)
  | decode {name t} : ref name t → StyleDecoded ref true (.entity name) (.text t)
  | element {i name attrs ks ks'} : DecodedKids ref i ks ks' → StyleDecoded ref i (.element name attrs ks) (.element name attrs ks')
/-- The same for the children of an element. -/
inductive DecodedKids (ref : List Byte → List Byte → Prop) : Bool → List Node → List Node → Prop
  | nil {i} : DecodedKids ref i [] []
  | plain {i n m t t'} : ¬ CdataName (domName n) → StyleDecoded ref i n m → DecodedKids ref i t t' → DecodedKids ref i (n :: t) (m :: t')
  | cdata {i n m t t'} : CdataName (domName n) → StyleDecoded ref true n m → DecodedKids ref i t t' → DecodedKids ref i (n :: t) (m :: t')
end

/-- The same for a document. -/
inductive DecodedDoc (ref : List Byte → List Byte → Prop) : List Node → List Node → Prop
  | nil : DecodedDoc ref [] []
  | cons {n m t t'} : StyleDecoded ref false n m → DecodedDoc ref t t' → DecodedDoc ref (n :: t) (m :: t')

mutual
/-- Every comment of the node satisfies `p`. -/
def AllComments (p : List Byte → Prop) : Node → Prop
  | .comment s => p s
  | .element _ _ kids => AllCommentsIn p kids
  | .text _ => True
  | .entity _ => True
/-- The same for several nodes. -/
def AllCommentsIn (p : List Byte → Prop) : List Node → Prop
  | [] => True
  | n :: t => AllComments p n ∧ AllCommentsIn p t
end

end Xmq.Spec
