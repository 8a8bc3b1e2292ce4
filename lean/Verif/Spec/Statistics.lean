import Verif.Model.Statistics
import Verif.Spec.Listing
/-!
# What the statistics of a document are

A document is taken as the bag of its nodes and attributes; every number is a sum over one of the bags.
-/
namespace Xmq.Spec.Statistics
open Xmq.Statistics

mutual
/-- The node and all nodes inside it. -/
def inside : Any → List Any
  | .element n as ks => .element n as ks :: insideAll ks
  | k => [k]
/-- All nodes inside the nodes. -/
def insideAll : List Any → List Any
  | [] => []
  | k :: ks => inside k ++ insideAll ks
end

/-- The attributes of a node. -/
def attrsOf : Any → List (List Byte × List Any)
  | .element _ as _ => as
  | _ => []

/-- The attributes of all nodes. -/
def allAttrs (doc : List Any) : List (List Byte × List Any) := (insideAll doc).flatMap attrsOf

/-- The names of the elements. -/
def elements (doc : List Any) : List (List Byte) := (insideAll doc).filterMap fun k => match k with | .element n _ _ => some n | _ => none
/-- The texts. -/
def texts (doc : List Any) : List (List Byte) := (insideAll doc).filterMap fun k => match k with | .text s => some s | _ => none
/-- The comments. -/
def comments (doc : List Any) : List (List Byte) := (insideAll doc).filterMap fun k => match k with | .comment s => some s | _ => none
/-- The CDATA sections. -/
def cdatas (doc : List Any) : List (List Byte) := (insideAll doc).filterMap fun k => match k with | .cdata s => some s | _ => none
/-- The names of the references outside attributes. -/
def entities (doc : List Any) : List (List Byte) := (insideAll doc).filterMap fun k => match k with | .entity s => some s | _ => none
/-- The names of the doctypes. -/
def doctypes (doc : List Any) : List (List Byte) := (insideAll doc).filterMap fun k => match k with | .doctype s => some s | _ => none
/-- The text of a text. -/
def asText : Any → Option (List Byte)
  | .text s => some s
  | _ => none

/-- The texts in attributes. -/
def attrTexts (doc : List Any) : List (List Byte) :=
  (allAttrs doc).flatMap fun a => a.2.filterMap asText

/-- The number of bytes. -/
def size (l : List (List Byte)) : Nat := (l.map List.length).sum

/-- The keys that a document of statistics may have, with their values; `true`: also when it is 0. -/
def lines (source : Nat) (doc : List Any) : List (String × Nat × Bool) :=
  [("size_source", source, true), ("num_elements", (elements doc).length, false), ("size_element_names", size (elements doc), false),
   ("num_text_nodes", (texts doc).length, false), ("size_text_nodes", size (texts doc), false),
   ("num_attributes", (allAttrs doc).length, false), ("size_attribute_names", size ((allAttrs doc).map Prod.fst), false),
   ("size_attribute_content", size (attrTexts doc), false), ("num_comments", (comments doc).length, false),
   ("size_comments", size (comments doc), false), ("size_doctype", size (doctypes doc), false),
   ("num_cdata_nodes", (cdatas doc).length, false), ("size_cdata_nodes", size (cdatas doc), false),
   ("sum_meta", size (elements doc) + size ((allAttrs doc).map Prod.fst) + size (attrTexts doc) + size (doctypes doc), true),
   ("sum_text", size (texts doc), true)]

/-- The bytes of a key. -/
def keyBytes (key : String) : List Byte := key.toUTF8.data.toList

/-- The nodes for such lines: an element with the number as its text, in order; none for a 0 that is left out. -/
inductive Shows : List (String × Nat × Bool) → List Node → Prop
  | nil : Shows [] []
  | skip (key : String) (rest : List (String × Nat × Bool)) (out : List Node) : Shows rest out → Shows ((key, 0, false) :: rest) out
  | line (key : String) (n : Nat) (always : Bool) (digits : List Byte) (rest : List (String × Nat × Bool)) (out : List Node) :
      (n ≠ 0 ∨ always = true) → IsDecimal digits n → Shows rest out →
      Shows ((key, n, always) :: rest) (.element (keyBytes key) [] [.text digits] :: out)

end Xmq.Spec.Statistics
