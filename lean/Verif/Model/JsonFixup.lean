import Verif.Model.Collapse
import Verif.Model.JsonPrint
/-!
# What happens to a document before it is written as JSON (parts/json.c 1601-1645, xmq.c 2733-2737)
-/
namespace Xmq

/-- A child as `xml_collapse_text` sees it. -/
def asTextChild : Node → TextChild
  | .text s => .text s
  | .entity n => .entity n
  | _ => .other

mutual
/-- `fixup_json`, parts/json.c 1601-1631.  The new text is a C string, so it ends before a NUL.  `none`: an assertion
    fails or memory is overrun.  (References have no children: entities that are declared are left out.) -/
def fixupJson : Node → Option Node
  | .text s => some (.text s)
  | .entity n => some (.entity n)
  | .comment s => some (.comment s)
  | .element name attrs kids =>
    match collapseText (kids.map asTextChild) with
    | .new bs => some (.element name attrs [.text (bs.takeWhile (· != 0))])
    | .unchanged =>
      match fixupJsons kids with
      | some ks => some (.element name attrs ks)
      | none => none
    | .aborts => none
    | .overrun => none
/-- The loops of `fixup_json`, parts/json.c 1624-1630, and `xmq_fixup_json_before_writeout`, 1633-1645. -/
def fixupJsons : List Node → Option (List Node)
  | [] => some []
  | n :: t =>
    match fixupJson n, fixupJsons t with
    | some x, some y => some (x :: y)
    | _, _ => none
end

/-- `xmq_print_json`, xmq.c 2733-2761: the document afterwards and what is written. -/
def writeJson (doc : List Node) : Option (List Node × List Byte) :=
  match fixupJsons doc with
  | none => none
  | some d => (printJson d).map fun out => (d, out)

end Xmq
