import Verif.Model.Tree
/-!
# A document as it is met from beginning to end
-/
namespace Xmq.Spec.EntityCmds

/-- What is met when a document is read from its beginning to its end.  Texts are met byte by byte, so that it does not matter how they
    are divided into nodes. -/
inductive Met where
  | start (name : List Byte)
  | attr (name : List Byte)
  | inside
  | stop
  | char (c : Byte)
  /-- A reference, in an attribute or not. -/
  | ref (inAttr : Bool) (name : List Byte)
  | comment (s : List Byte)
  deriving DecidableEq, Repr

/-- A part of the value of an attribute. -/
def ofVal : Val → List Met
  | .text s => s.map .char
  | .entity n => [.ref true n]

/-- An attribute. -/
def ofAttr (a : Attr) : List Met := .attr a.name :: a.value.flatMap ofVal

mutual
/-- A node. -/
def ofNode : Node → List Met
  | .text s => s.map .char
  | .entity n => [.ref false n]
  | .comment s => [.comment s]
  | .element t as ks => .start t :: (as.flatMap ofAttr ++ .inside :: (ofNodes ks ++ [.stop]))
/-- Nodes one behind the other. -/
def ofNodes : List Node → List Met
  | [] => []
  | k :: ks => ofNode k ++ ofNodes ks
end

mutual
/-- No text is empty and no two texts are neighbours, in attributes and in contents. -/
def Whole : Node → Prop
  | .text s => s ≠ []
  | .entity _ => True
  | .comment _ => True
  | .element _ as ks => (∀ a ∈ as, WholeVals a.value) ∧ WholeList ks
/-- The same for the nodes of a list. -/
def WholeList : List Node → Prop
  | [] => True
  | k :: ks => Whole k ∧ (∀ s t r, k = .text s → ks ≠ .text t :: r) ∧ WholeList ks
/-- The same for the parts of a value. -/
def WholeVals : List Val → Prop
  | [] => True
  | v :: vs => v ≠ .text [] ∧ (∀ s t r, v = .text s → vs ≠ .text t :: r) ∧ WholeVals vs
end

/-- References to `e` are left out. -/
def without (e : List Byte) (l : List Met) : List Met := l.filter (fun x => x ≠ .ref true e ∧ x ≠ .ref false e)

/-- Each reference to `e` is replaced. -/
def replaced (e : List Byte) (by_ : List Met) (l : List Met) : List Met :=
  l.flatMap (fun x => if x = .ref true e ∨ x = .ref false e then by_ else [x])

mutual
/-- No attribute of a node or below it satisfies `p`. -/
def NoAttr (p : Val → Prop) : Node → Prop
  | .element _ as ks => (∀ a ∈ as, ∀ v ∈ a.value, ¬ p v) ∧ NoAttrIn p ks
  | _ => True
/-- The same for the nodes of a list. -/
def NoAttrIn (p : Val → Prop) : List Node → Prop
  | [] => True
  | k :: ks => NoAttr p k ∧ NoAttrIn p ks
end

end Xmq.Spec.EntityCmds
