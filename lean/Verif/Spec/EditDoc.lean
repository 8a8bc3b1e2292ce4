import Verif.Model.EditDoc
/-!
# What select, delete, add and add-root mean

From the model only the types are used: `Node`, `Hop` and `Place`.
-/
namespace Xmq.Spec.EditDoc
open Xmq.EditDoc

/-- The order of attributes and children below a node. -/
def HopBefore : Hop → Hop → Prop
  | .attr i, .attr j => i < j
  | .attr _, .kid _ => True
  | .kid _, .attr _ => False
  | .kid i, .kid j => i < j

/-- The order of the document: a node comes before what is below it, and attributes come before children. -/
def Before : Place → Place → Prop
  | _, [] => False
  | [], _ :: _ => True
  | a :: p, b :: q => HopBefore a b ∨ (a = b ∧ Before p q)

/-- There is a node or an attribute at this place. -/
def There : List Node → Place → Prop
  | ks, [.kid i] => i < ks.length
  | ks, [.kid i, .attr j] => ∃ n as ls, ks[i]? = some (.element n as ls) ∧ j < as.length
  | ks, .kid i :: p => ∃ n as ls, ks[i]? = some (.element n as ls) ∧ There ls p
  | _, _ => False

/-- The node at a place. -/
def nodeAt : List Node → Place → Option Node
  | ks, [.kid i] => ks[i]?
  | ks, .kid i :: p =>
    match ks[i]? with
    | some (.element _ _ ls) => nodeAt ls p
    | _ => none
  | _, _ => none

/-- The attributes from number `i` on, without those at the places of `g`. -/
def withoutAttrs (g : Place → Bool) : Nat → List Attr → List Attr
  | _, [] => []
  | i, a :: as => if g [.attr i] then withoutAttrs g (i + 1) as else a :: withoutAttrs g (i + 1) as

mutual
/-- A node without what is at the places of `g`, which are seen from this node. -/
def withoutNode (g : Place → Bool) : Node → Node
  | .element n as ks => .element n (withoutAttrs g 0 as) (withoutNodes g 0 ks)
  | k => k
/-- The siblings from number `i` on, without what is at the places of `g`. -/
def withoutNodes (g : Place → Bool) : Nat → List Node → List Node
  | _, [] => []
  | i, k :: ks =>
    if g [.kid i] then withoutNodes g (i + 1) ks
    else withoutNode (fun p => g (.kid i :: p)) k :: withoutNodes g (i + 1) ks
end

/-- A document without the nodes and attributes at some places. -/
def without (ps : List Place) (top : List Node) : List Node := withoutNodes (fun p => ps.contains p) 0 top

/-- What is taken for a place: an element or a text itself, for an attribute, a comment or a reference the element it belongs to.
    `[]`: nothing is taken. -/
def chosen (top : List Node) (p : Place) : Place :=
  match nodeAt top p with
  | some (.text _) => p
  | some (.element _ _ _) => p
  | _ => p.dropLast

/-- The places of what is taken. -/
def takenPlaces (top : List Node) (ps : List Place) : List Place := (ps.map (chosen top)).filter (· ≠ [])

/-- The node at a place of `ts`, without what is below it and at a place of `ts`. -/
def piece (top : List Node) (ts : List Place) (t : Place) : Option Node :=
  (nodeAt top t).map (withoutNode fun q => ts.contains (t ++ q))

/-- `b` is `a` with every run of texts joined. -/
inductive Joined : List Node → List Node → Prop
  | nil : Joined [] []
  | other {k a b} : (∀ s, k ≠ .text s) → Joined a b → Joined (k :: a) (k :: b)
  | run {ss a b} : ss ≠ [] → (∀ s a', a ≠ .text s :: a') → Joined a b → Joined (ss.map Node.text ++ a) (.text ss.flatten :: b)

/-- `r` is `top` with `new` behind it; a text at the end of `top` takes part in the joining. -/
def Appended (top new r : List Node) : Prop :=
  ∃ init tail b, top = init ++ tail ∧ r = init ++ b ∧ Joined (tail ++ new) b ∧
    ((∃ s, tail = [.text s]) ∨ (tail = [] ∧ ∀ s, init.getLast? ≠ some (.text s)))

end Xmq.Spec.EditDoc
