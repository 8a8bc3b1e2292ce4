import Verif.Spec.Namespaces
/-!
# Documents whose root is left out
-/
namespace Xmq.Spec

/-- What may stand before the root and does not count as its content: processing instructions and the doctype. -/
def isProlog : XNode → Bool
  | .pi .. => true
  | .doctype .. => true
  | _ => false

/-- The node is an element. -/
def isElem : XNode → Bool
  | .element .. => true
  | _ => false

/-- The nodes in an element with the given name and nothing else. -/
def inRoot (r : List Byte) (x : List XNode) : XNode := .element ⟨none, none, r⟩ (fun _ => none) [] x

/-- The document as a user of an implicit root expects it: what is behind the processing instructions and the doctype is
    put into the root, unless the root is there already. -/
def expectRoot (r : List Byte) (x : List XNode) : List XNode :=
  match x.dropWhile isProlog with
  | [] => x
  | n :: ns =>
    match n with
    | .element q _ _ _ => if q.name = r ∧ (ns.any isElem) = false then x else x.takeWhile isProlog ++ [inRoot r (n :: ns)]
    | _ => x.takeWhile isProlog ++ [inRoot r (n :: ns)]

/-- The document as the code makes it: only when the first node that is not a processing instruction or doctype is an
    element, and only when that element does not have the name of the root. -/
def actualRoot (r : List Byte) (x : List XNode) : List XNode :=
  match x.dropWhile isProlog with
  | [] => x
  | n :: ns =>
    match n with
    | .element q _ _ _ => if q.name = r then x else x.takeWhile isProlog ++ [inRoot r (n :: ns)]
    | _ => x

end Xmq.Spec
