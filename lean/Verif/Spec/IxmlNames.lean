import Verif.Spec.Ixml
/-!
# The names that are used in an ixml grammar
-/
namespace Xmq.Spec.Ixml

/-- The names of all rules that the expression refers to satisfy `P`. -/
def Refs (P : List Byte → Prop) : Rx → Prop
  | .ref _ n _ => P n
  | .group r => Refs P r
  | .opt f => Refs P f
  | .plus f => Refs P f
  | .star f => Refs P f
  | .plusSep f s => Refs P f ∧ Refs P s
  | .starSep f s => Refs P f ∧ Refs P s
  | .seq a b => Refs P a ∧ Refs P b
  | .alt a b => Refs P a ∧ Refs P b
  | _ => True

/-- The names of the rules of the grammar, and those they refer to, satisfy `P`. -/
def AllNames (P : List Byte → Prop) (g : List GRule) : Prop := ∀ r ∈ g, P r.name ∧ Refs P r.body

end Xmq.Spec.Ixml
