import Verif.Spec.Namespaces
import Verif.Model.NsBuild
/-!
# What is seen in the tree that is built
-/
namespace Xmq.Spec

/-- The name of a node with a pointer to its namespace. -/
def nsName (heap : List Ns) (ns : Option Nat) (name : List Byte) : QName :=
  match ns.bind (heap[·]?) with
  | some n => ⟨n.href, n.pre, name⟩
  | none => ⟨none, none, name⟩

/-- The declarations of an element. -/
def nsDecls (heap : List Ns) (defs : List Nat) : Env := fun p =>
  ((defs.filterMap (heap[·]?)).find? (·.pre == p)).bind (·.href)

mutual
/-- A node. -/
def seeNode (heap : List Ns) : NNode → XNode
  | .text s => .text s
  | .entity n => .entity n
  | .comment s => .comment s
  | .pi t c => .pi t c
  | .dtd n => .doctype n
  | .element name ns defs attrs kids =>
    .element (nsName heap ns name) (nsDecls heap defs) (attrs.map fun a => (nsName heap a.ns a.name, a.value)) (seeNodes heap kids)
/-- Nodes. -/
def seeNodes (heap : List Ns) : List NNode → List XNode
  | [] => []
  | n :: ns => seeNode heap n :: seeNodes heap ns
end

end Xmq.Spec
