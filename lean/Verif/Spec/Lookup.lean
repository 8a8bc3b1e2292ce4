import Verif.Model.Lookup
/-!
# The value of what an XPath finds
-/
namespace Xmq.Spec.Lookup
open Xmq.Lookup

mutual
/-- The text of a node, with everything below (its string-value in XPath; references are undeclared). -/
def textOf : Node → List Byte
  | .text s => s
  | .comment s => s
  | .entity _ => []
  | .element _ _ kids => textsOf kids
/-- The texts of nodes, without comments. -/
def textsOf : List Node → List Byte
  | [] => []
  | .comment _ :: ks => textsOf ks
  | k :: ks => textOf k ++ textsOf ks
end

/-- The value of an item. -/
def valueOf : Item → List Byte
  | .node n => textOf n
  | .attrib a => textsOf (a.value.map Val.node)
  | .doc top => textsOf top
  | .ns _ href => href

/-- The children of an item. -/
def kidsOf : Item → List Node
  | .node (.element _ _ kids) => kids
  | .attrib a => a.value.map Val.node
  | .doc top => top
  | _ => []

/-- Only texts, and at least one. -/
def OnlyTexts (ks : List Node) : Prop := ks ≠ [] ∧ ∀ k ∈ ks, ∃ s, k = .text s

/-- A node of a document, at any depth. -/
inductive Inside (x : Node) : List Node → Prop
  | here {ks} : x ∈ ks → Inside x ks
  | deep {ks n as kk} : Node.element n as kk ∈ ks → Inside x kk → Inside x ks

/-- An item of a document. -/
def ItemOf (top : List Node) : Item → Prop
  | .node n => Inside n top
  | .attrib a => ∃ n as kk, a ∈ as ∧ Inside (.element n as kk) top
  | .doc t => t = top
  | .ns _ _ => True

/-- `ys` are the items for which a function is called that goes on as long as `go` holds: everything up to the first that stops. -/
def Visited {σ : Type} (step : σ → Item → σ × Bool) (s : σ) (xs ys : List Item) (t : σ) : Prop :=
  ys <+: xs ∧ t = ys.foldl (fun s x => (step s x).1) s ∧
  (∀ i x, ys[i]? = some x → i + 1 < ys.length → (step ((ys.take i).foldl (fun s x => (step s x).1) s) x).2 = false) ∧
  (ys = xs ∨ ∃ zs x, ys = zs ++ [x] ∧ (step (zs.foldl (fun s x => (step s x).1) s) x).2 = true)

end Xmq.Spec.Lookup
