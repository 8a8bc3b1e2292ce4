import Verif.Spec.Json
import Verif.Model.Tree
/-!
# Documents that JSON can keep
-/
namespace Xmq.Spec

/-- A text that might be taken for a number: it starts with a digit or a minus and has only characters that occur in numbers. -/
def NumberLike (s : List Byte) : Prop :=
  (∃ c t, s = c :: t ∧ (JDigit c ∨ c = b#'-')) ∧ ∀ c ∈ s, JDigit c ∨ c = b#'.' ∨ c = b#'e' ∨ c = b#'E' ∨ c = b#'+' ∨ c = b#'-'

/-- An attribute without a meaning of its own in the translation to JSON, with at most a text as value. -/
structure JsonAttr (a : Attr) : Prop where
  name : NameKey a.name
  notA : a.name ≠ b#"A"
  notS : a.name ≠ b#"S"
  notNs : a.name.take 5 ≠ b#"xmlns"
  value : a.value = [] ∨ ∃ s, a.value = [.text s] ∧ StrOk s

mutual
/-- Names are ASCII and start with a letter; texts can be written without `\u`; there are no entity references, no attribute
    twice, no neighbouring texts and no values such as `-012` that are taken for numbers though they are none. -/
def JsonNode : Node → Prop
  | .text s => StrOk s
  | .comment s => StrOk s
  | .entity _ => False
  | .element name attrs kids =>
    NameKey name ∧ ((∀ a ∈ attrs, JsonAttr a) ∧ (attrs.map (·.name)).Nodup) ∧ (attrs = [] → ∀ s, kids = [.text s] → NumberLike s → JsonNumber s) ∧
      (∀ pre a b post, kids ≠ pre ++ .text a :: .text b :: post) ∧ JsonNodes kids
/-- The same for a list of nodes. -/
def JsonNodes : List Node → Prop
  | [] => True
  | n :: t => JsonNode n ∧ JsonNodes t
end

/-- A root element that is not only a name with a text. -/
def JsonRoot (n : Node) : Prop := JsonNode n ∧ ∃ name attrs kids, n = .element name attrs kids ∧ (attrs = [] → ∀ s, kids ≠ [.text s])

/-- The object has a member with this key and value. -/
inductive JMs.Has (k : List Byte) (v : JV) : JMs → Prop
  | here (ms : JMs) : JMs.Has k v (.cons k v ms)
  | there (k' : List Byte) (v' : JV) (ms : JMs) : JMs.Has k v ms → JMs.Has k v (.cons k' v' ms)

end Xmq.Spec
