import Verif.Model.Json
/-!
# Writing JSON (parts/json.c 857-1011, 1103-1598, xmq.c 2733-2761)

The document is the one after `xmq_fixup_json_before_writeout`, so texts are collapsed (see C37): a `key=value` element has a single
text child.  Left out are namespaces, doctypes, processing instructions and comments beside the root.  `none`: a NULL pointer is used,
a read outside of a text (see `quoteAsC`), or something that is not modelled.
-/
namespace Xmq

/-- The members of `XMQPrintState` used: what has been written and `last_char`. -/
structure JP where
  out : List Byte
  last : Byte
deriving DecidableEq, Repr

/-- `write`. -/
def JP.write (ps : JP) (s : List Byte) : JP := { ps with out := ps.out ++ s }

/-- `print_utf8(ps, COLOR_none, 1, s, NULL)`, parts/utf8.c 67-119. -/
def JP.print (ps : JP) (s : List Byte) : JP :=
  match s.getLast? with
  | none => ps
  | some c => ⟨ps.out ++ s, c⟩

/-- `json_check_comma`, parts/json.c 1446-1465. -/
def JP.comma (ps : JP) : JP :=
  if ps.last == 0 then ps
  else if ps.last != b#'{' && ps.last != b#'[' && ps.last != b#',' then ⟨ps.out ++ [b#','], b#','⟩
  else ps

/-- `xml_get_attribute`, parts/xml.c 44-47. -/
def attrOf (attrs : List Attr) (name : List Byte) : Option Attr := attrs.find? fun a => a.name == name

/-- `has_attr_other_than_AS_`, parts/json.c 930-943. -/
def hasAttrOtherThanAS (attrs : List Attr) : Bool := attrs.any fun a => a.name != b#"A" && a.name != b#"S" && a.name != b#"_"

/-- `xmlNodeListGetString` of the value of an attribute; NULL without children (`none`).  Entities are not modelled. -/
def attrString (a : Attr) : Option (List Byte) :=
  if a.value.isEmpty then none
  else (a.value.mapM fun (v : Val) => match v with | .text s => some s | .entity _ => none).map List.flatten

/-- `[%zu]`. -/
def indexSuffix (total used : Nat) : List Byte := if total > 1 then b#"[" ++ decDigits (used + 1) used ++ b#"]" else []

/-- `json_print_element_name`, parts/json.c 1377-1425. -/
def JP.elementName (ps : JP) (name : List Byte) (attrs : List Attr) (total used : Nat) : Option JP :=
  let ps := ps.print b#"\""
  (if name != b#"_" then some (ps.print name)
   else
    match attrOf attrs b#"_" with
    | none => some ps
    | some a => (attrString a).bind fun s => (quoteAsC s false).map ps.print).map fun ps =>
      { (ps.print (indexSuffix total used)).print b#"\"" with last := b#'"' }

/-- `json_print_value`, parts/json.c 1103-1155, for a single text. -/
def JP.value (ps : JP) (s : List Byte) (forceString : Bool) : Option JP :=
  if !forceString && (jsonIsNumber s || jsonIsKeyword s) then some ⟨ps.out ++ s, (s.getLast?).getD 0⟩
  else if s.isEmpty then some ⟨ps.out ++ b#"\"\"", b#'"'⟩
  else (quoteAsC s false).map fun q => { ((ps.print b#"\"").print q).print b#"\"" with last := b#'"' }

/-- `json_print_attribute`, parts/json.c 1206-1240, without prefix. -/
def JP.attribute (ps : JP) (a : Attr) : Option JP :=
  if a.name == b#"_" then some ps
  else
    (quoteAsC a.name false).bind fun key =>
      let ps := ((ps.comma.print b#"\"_").print key).print b#"\":"
      if a.value.isEmpty then some (ps.print b#"null")
      else (attrString a).bind fun s => (quoteAsC s true).map ps.print

/-- `json_print_attributes`, parts/json.c 1273-1291. -/
def JP.attributes (ps : JP) (attrs : List Attr) : Option JP := attrs.foldlM JP.attribute ps

/-- `json_print_leaf_node`, parts/json.c 1556-1598. -/
def JP.leaf (ps : JP) (name : List Byte) (attrs : List Attr) (total used : Nat) : Option JP :=
  let ps := ps.comma
  (if name != b#"_" then (ps.elementName name attrs total used).map (·.write b#":") else some ps).bind fun ps =>
    if (attrOf attrs b#"A").isSome then some ⟨ps.out ++ b#"[]", b#']'⟩
    else if !attrs.isEmpty then
      (JP.attributes ⟨ps.out ++ b#"{", b#'{'⟩ attrs).map fun ps => ⟨ps.out ++ b#"}", b#'}'⟩
    else some ⟨ps.out ++ b#"{}", b#'}'⟩

/-- `json_print_key_node`, parts/json.c 1427-1444. -/
def JP.keyNode (ps : JP) (container : Bool) (name : List Byte) (attrs : List Attr) (kids : List Node) (total used : Nat) : Option JP :=
  let ps := ps.comma
  (if container then (ps.elementName name attrs total used).map (·.print b#":") else some ps).bind fun ps =>
    match kids with
    | [.text s] => ps.value s (attrOf attrs b#"S").isSome
    | _ => none

/-- `json_print_comment_node`, parts/json.c 1467-1492, inside an object. -/
def JP.comment (ps : JP) (s : List Byte) (total used : Nat) : Option JP :=
  (((ps.comma.print b#"\"//").print (indexSuffix total used)).print b#"\":").value s true

/-- `json_print_standalone_quote`, parts/json.c 1522-1541. -/
def JP.standaloneQuote (ps : JP) (s : List Byte) (total used : Nat) : Option JP :=
  (quoteAsC s false).map fun q =>
    ⟨((((ps.comma.print b#"\"|").print (if total = 1 then [] else b#"[" ++ decDigits (used + 1) used ++ b#"]")).print b#"\":\"").print q).out
      ++ b#"\"", b#'"'⟩

/-- `json_print_entity_node`, parts/json.c 1511-1520. -/
def JP.entity (ps : JP) (name : List Byte) : JP := ⟨ps.comma.out ++ b#"\"&\":\"&" ++ name ++ b#";\"", b#'"'⟩

/-- `node->name` in libxml2. -/
def jsonNodeName : Node → List Byte
  | .text _ => b#"text"
  | .comment _ => b#"comment"
  | .entity n => n
  | .element n _ _ => n

/-- The counters of `json_print_object_nodes`, parts/json.c 869-899: how many of the names are this one.  `_` is not counted. -/
def nameCount (names : List (List Byte)) (name : List Byte) : Nat := names.count name

mutual
/-- `json_print_node`, parts/json.c 945-1011, with `json_print_array_with_children` (1157-1204) and
    `json_print_element_with_children` (1293-1375). -/
def JP.node (ps : JP) (container : Bool) (total used : Nat) : Node → Option JP
  | .comment s => ps.comment s total used
  | .text s => ps.standaloneQuote s total used
  | .entity n => some (ps.entity n)
  | .element name attrs kids =>
    if kids.isEmpty && container then ps.leaf name attrs total used
    else if (keyValues kids).isSome && (attrs.isEmpty || !hasAttrOtherThanAS attrs) then ps.keyNode container name attrs kids total used
    else if (attrOf attrs b#"A").isSome then
      let ps := ps.comma
      (if container then (ps.elementName name attrs 1 0).map (·.print b#":") else some ps).bind fun ps =>
        (JP.arrayNodes ⟨ps.out ++ b#"[", b#'['⟩ kids).map fun ps => ⟨ps.out ++ b#"]", b#']'⟩
    else
      let ps := ps.comma
      (if container then (ps.elementName name attrs total used).map (·.print b#":") else some ps).bind fun ps =>
        let ps : JP := ⟨ps.out ++ b#"{", b#'{'⟩
        (if !container && name != b#"_" then (ps.comma.print b#"\"_\":").elementName name attrs total used else some ps).bind fun ps =>
          (ps.attributes attrs).bind fun ps =>
            (JP.objectNodes ps true (kids.map jsonNodeName) [] kids).map fun ps => ⟨ps.out ++ b#"}", b#'}'⟩
/-- `json_print_array_nodes`, parts/json.c 908-928.  An element with attribute `S` has its value printed; a text that looks like
    a number has no children, so NULL is used. -/
def JP.arrayNodes (ps : JP) : List Node → Option JP
  | [] => some ps
  | n :: t =>
    let ps := ps.comma
    (match n with
     | .element _ attrs kids =>
       if (attrOf attrs b#"S").isSome then
         match kids with
         | [.text s] => ps.value s true
         | _ => none
       else JP.node ps false 1 0 n
     | .text s => if jsonIsNumber s || jsonIsKeyword s then none else JP.node ps false 1 0 n
     | .comment s => if jsonIsNumber s || jsonIsKeyword s then none else JP.node ps false 1 0 n
     | .entity _ => JP.node ps false 1 0 n).bind fun ps => JP.arrayNodes ps t
/-- `json_print_object_nodes`, parts/json.c 863-905.  `names`: the names of all the nodes, `done`: those of the nodes already
    printed. -/
def JP.objectNodes (ps : JP) (container : Bool) (names done : List (List Byte)) : List Node → Option JP
  | [] => some ps
  | n :: t =>
    let name := jsonNodeName n
    (if name == b#"_" then JP.node ps container 1 0 n
     else JP.node ps container (nameCount names name) (nameCount done name) n).bind fun ps =>
      JP.objectNodes ps container names (name :: done) t
end

/-- `xmq_print_json`, xmq.c 2733-2761, for a document with a single node. -/
def printJson : List Node → Option (List Byte)
  | [n] => (JP.objectNodes ⟨[], 0⟩ false [jsonNodeName n] [] [n]).map fun ps => ps.out ++ b#"\n"
  | _ => none

end Xmq
