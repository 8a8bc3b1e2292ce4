import Verif.Model.Builder
import Verif.Model.Numbers
/-!
# Values looked up by an XPath (xmq.c 3754-3923)

What an XPath finds is a parameter: a list of items of the document, in document order.  References are taken to be undeclared
(no doctype), their `content` is NULL then.  `atof` is not modelled.
-/
namespace Xmq.Lookup

/-- What can be in the set of nodes of an XPath. -/
inductive Item
  | node (n : Node)
  | attrib (a : Attr)
  | doc (top : List Node)
  /-- A namespace: an `xmlNs`, although the set has pointers to `xmlNode`. -/
  | ns (pre href : List Byte)
deriving Repr

/-- The field `content` of a node: NULL for elements and undeclared references. -/
def contentOf : Node → Option (List Byte)
  | .text s => some s
  | .comment s => some s
  | .entity _ => none
  | .element .. => none

/-- `n->children->content` or NULL without children, xmq.c 3807-3815 (`xmqGetContent`) and 3819-3832 (`catch_single_content`).  Outer `none`: the place of `children` in an
    `xmlNs` is its prefix, whose characters would be taken for a node. -/
def content : Item → Option (Option (List Byte))
  | .node (.element _ _ kids) => some (kids.head?.bind contentOf)
  | .node _ => some none
  | .attrib a => some ((a.value.map Val.node).head?.bind contentOf)
  | .doc top => some (top.head?.bind contentOf)
  | .ns _ _ => none

/-- `xmqGetName`, xmq.c 3797-3805: texts, comments and references have the names which libxml2 gives them.  The place of `name` in an `xmlNs` is the address of the namespace; a
    document has none. -/
def name : Item → Option (List Byte)
  | .node (.element n _ _) => some n
  | .node (.text _) => some b#"text"
  | .node (.comment _) => some b#"comment"
  | .node (.entity n) => some n
  | .attrib a => some a.name
  | .doc _ => none
  | .ns _ href => some href

/-- The loop of `xmqForeachRel`, xmq.c 3779-3789: `cb` may fail (`none`), change the state of the user and say `XMQ_STOP` (`true`). -/
def loop {σ : Type} (cb : σ → Item → Option (σ × Bool)) : σ → List Item → Option σ
  | s, [] => some s
  | s, x :: xs =>
    match cb s x with
    | none => none
    | some (s', true) => some s'
    | some (s', false) => loop cb s' xs

/-- `xmqForeachRel`, xmq.c 3759-3795: the state of the user and the size of the set.  Without `cb` only the size is given. -/
def foreach {σ : Type} (cb : Option (σ → Item → Option (σ × Bool))) (s : σ) (found : List Item) : Option (σ × Nat) :=
  match cb with
  | none => some (s, found.length)
  | some cb => (loop cb s found).map fun s' => (s', found.length)

/-- `catch_single_content`, xmq.c 3819-3832. -/
def catchSingle (_ : Option (List Byte)) (x : Item) : Option (Option (List Byte) × Bool) := (content x).map fun c => (c, true)

/-- `xmqGetStringRel`, xmq.c 3902-3909. -/
def getString (found : List Item) : Option (Option (List Byte)) := (foreach (some catchSingle) none found).map Prod.fst

/-- `xmqGetIntRel`, xmq.c 3839-3861. -/
def getInt (found : List Item) : Option Int :=
  (getString found).map fun c => match c with
    | none => 0
    | some s => xmqGetInt s

/-- `xmqGetLongRel`, xmq.c 3868-3890. -/
def getLong (found : List Item) : Option Int :=
  (getString found).map fun c => match c with
    | none => 0
    | some s => xmqGetLong s

end Xmq.Lookup
