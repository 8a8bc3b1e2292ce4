import Verif.Model.CQuote
import Verif.Model.Builder
import Verif.Model.JsonKeys
/-!
# Reading and writing JSON (parts/json.c, xmq.c 2733-2761)

Positions (line and column) are left out: JSON strings are not trimmed (`no_trim_quotes`), so they have no influence on the document.
-/
namespace Xmq

/-- `has_number_ended`, parts/json.c 501-504. -/
def hasNumberEnded (c : Byte) : Bool := c == b#' ' || c == b#'\n' || c == b#',' || c == b#'}' || c == b#']'

/-- `c < '0' || c > '9'` negated. -/
def isDigit (c : Byte) : Bool := c ≥ b#'0' && c ≤ b#'9'

/-- The local variables of `is_jnumber`, parts/json.c 511-515. -/
structure JNum where
  foundE : Bool
  foundESign : Bool
  leadingZero : Bool
  lastIsDigit : Bool
  foundDot : Bool
deriving DecidableEq, Repr

/-- The loop of `is_jnumber`, parts/json.c 518-571, behind the first byte; the result is the number of bytes.  `n`: bytes so far. -/
def jnumLoop (st : JNum) (n : Nat) : List Byte → Option Nat
  | [] => if st.lastIsDigit then some n else none
  | c :: t =>
    let st := { st with lastIsDigit := false }
    if st.leadingZero then
      if hasNumberEnded c then some n
      else if c != b#'.' then none
      else jnumLoop { st with leadingZero := false, foundDot := true } (n + 1) t
    else if c == b#'.' then
      if st.foundDot then none else jnumLoop { st with foundDot := true } (n + 1) t
    else if c == b#'e' || c == b#'E' then
      if st.foundE then none else jnumLoop { st with foundE := true } (n + 1) t
    else if st.foundE && !st.foundESign then
      if hasNumberEnded c then some n
      else if c == b#'+' || c == b#'-' then jnumLoop { st with foundESign := true } (n + 1) t
      else if !isDigit c then none
      else jnumLoop { st with lastIsDigit := true } (n + 1) t
    else if hasNumberEnded c then some n
    else if !isDigit c then none
    else jnumLoop { st with foundESign := false, lastIsDigit := true } (n + 1) t

/-- `is_jnumber`, parts/json.c 506-575: the number of bytes of the number at the start of the buffer, `none` for NULL. -/
def isJnumber (s : List Byte) : Option Nat :=
  match s with
  | [] => none
  | c :: t =>
    if !isDigit c && c != b#'-' then none
    else jnumLoop ⟨false, false, c == b#'0', c != b#'-', false⟩ 1 t

/-- `json_is_number`, parts/json.c 1543-1547. -/
def jsonIsNumber (s : List Byte) : Bool := isJnumber s == some s.length

/-- `json_is_keyword`, parts/json.c 1549-1555. -/
def jsonIsKeyword (s : List Byte) : Bool := s == b#"true" || s == b#"false" || s == b#"null"

/-- A simulated callback of the JSON parser (`DO_CALLBACK_SIM`), or one of its direct actions on the document. -/
inductive JTok
  | tok (kind : Kind) (text : List Byte)
  /-- `xmlNodeSetName(container, name)`, parts/json.c 293. -/
  | rename (name : List Byte)
  /-- A comment next to the root, `"_//"`, parts/json.c 266-276. -/
  | rootComment (text : List Byte)
  /-- `!DOCTYPE`, parts/json.c 319-333. -/
  | doctype (text : List Byte)
deriving DecidableEq, Repr

/-- The parser state: the bytes from `i` on, the callbacks done (latest first), `doctype_found`. -/
structure JSt where
  rest : List Byte
  out : List JTok
  doctypeFound : Bool
deriving DecidableEq, Repr

/-- Outcome of a JSON parser function.  `hang`: `while (c == ',');` with a comma, parts/json.c 1095. -/
inductive JRes
  | ok (st : JSt)
  | err
  | abort
  | hang
  | outOfFuel
deriving DecidableEq, Repr

/-- Sequencing. -/
def JRes.bind (r : JRes) (f : JSt → JRes) : JRes :=
  match r with
  | .ok st => f st
  | .err => .err
  | .abort => .abort
  | .hang => .hang
  | .outOfFuel => .outOfFuel

@[simp] theorem JRes.bind_ok (st : JSt) (f : JSt → JRes) : (JRes.ok st).bind f = f st := rfl
@[simp] theorem JRes.bind_err (f : JSt → JRes) : JRes.err.bind f = .err := rfl
@[simp] theorem JRes.bind_abort (f : JSt → JRes) : JRes.abort.bind f = .abort := rfl
@[simp] theorem JRes.bind_hang (f : JSt → JRes) : JRes.hang.bind f = .hang := rfl
@[simp] theorem JRes.bind_fuel (f : JSt → JRes) : JRes.outOfFuel.bind f = .outOfFuel := rfl

/-- The loop of `eat_xml_whitespace`, parts/xmq_internals.c 187-210; the first argument bounds the iterations. -/
def skipJsonWs : Nat → List Byte → List Byte
  | 0, s => s
  | k + 1, s =>
    if s.isEmpty then s
    else
      let nw := countWhitespace s
      if nw == 0 then s else skipJsonWs k (s.drop nw)

/-- `eat_xml_whitespace`. -/
def JSt.skipWs (st : JSt) : JSt := { st with rest := skipJsonWs st.rest.length st.rest }

/-- Callbacks in order. -/
def JSt.emit (st : JSt) (ts : List JTok) : JSt := { st with out := ts.reverse ++ st.out }

/-- Step over bytes. -/
def JSt.drop (st : JSt) (n : Nat) : JSt := { st with rest := st.rest.drop n }

/-- `is_xmq_element_name`, parts/text.c 410-425. -/
def isXmqElementName (s : List Byte) : Bool :=
  match s with
  | [] => false
  | c :: t => isXmqElementStart c && t.all isXmqTextName

/-- The name to be used for an element, its namespace prefix and the key that could not be used as a name. -/
structure KeyInfo where
  ns : Option (List Byte)
  name : List Byte
  unsafeKey : Option (List Byte)
deriving DecidableEq, Repr

/-- The choice of the element name that all the `parse_json_*` functions start with, e.g. parts/json.c 336-356.  The last colon
    separates the namespace. -/
def keyInfo (key : Option (List Byte)) : KeyInfo :=
  match key.map trimIndexSuffix with
  | none => ⟨none, b#"_", none⟩
  | some [] => ⟨none, b#"_", none⟩
  | some k =>
    if isXmqElementName k then
      if k.tail.any (· == b#':') then
        let name := (k.reverse.takeWhile (· != b#':')).reverse
        ⟨some (k.take (k.length - name.length - 1)), name, none⟩
      else ⟨none, k, none⟩
    else ⟨none, b#"_", some k⟩

/-- The callbacks for the name: `element_ns` and `element_key`. -/
def KeyInfo.nameToks (k : KeyInfo) : List JTok :=
  (match k.ns with | some p => [.tok .element_ns p] | none => []) ++ [.tok .element_key k.name]

/-- The callbacks for the attribute `_` that keeps a key that is no name. -/
def KeyInfo.keyAttr (k : KeyInfo) : List JTok :=
  match k.unsafeKey with
  | some u => [.tok .attr_key b#"_", .tok .attr_value_quote u]
  | none => []

/-- A parenthesised list of attributes, none if there is nothing in it. -/
def parToks (l : List JTok) : List JTok := if l.isEmpty then [] else .tok .apar_left b#"(" :: (l ++ [.tok .apar_right b#")"])

/-- The part of `parse_json_quote`, parts/json.c 336-419, after the special keys. -/
def quoteToks (key : Option (List Byte)) (content : List Byte) : List JTok :=
  let k := keyInfo key
  let isAttr := k.unsafeKey.isNone && (match key.map trimIndexSuffix with | some (c :: _ :: _) => c == b#'_' | _ => false)
  if isAttr then
    let kt := (key.map trimIndexSuffix).getD []
    if kt.take 6 == b#"_xmlns" then
      [.tok .ns_declaration (kt.drop 1), .tok .attr_value_quote content]
    else [.tok .attr_key (kt.drop 1), .tok .attr_value_quote content]
  else
    let needString := !content.isEmpty && (jsonIsKeyword content || jsonIsNumber content)
    k.nameToks ++ parToks (k.keyAttr ++ (if needString then [.tok .attr_key b#"S"] else [])) ++
      [.tok .element_value_text content]

/-- `parse_json_quote`, parts/json.c 236-416, after `eat_json_quote`.  `dtdOk` tells whether libxml2 accepts a doctype. -/
def parseJsonQuote (dtdOk : List Byte → Bool) (key : Option (List Byte)) (content : List Byte) (st : JSt) : JRes :=
  let k := key.map trimIndexSuffix
  if k = some b#"|" then .ok (st.emit [.tok .quote content])
  else if k = some b#"//" then .ok (st.emit [.tok .comment content])
  else if k = some b#"_//" then .ok (st.emit [.rootComment content])
  else if k = some b#"_" ∧ isXmqElementName content then
    .ok (st.emit [if content.any (· == b#':') then .tok .element_ns content else .rename content])
  else if k = some b#"!DOCTYPE" ∧ st.doctypeFound = false then
    if dtdOk content then .ok { st.emit [.doctype content] with doctypeFound := true } else .err
  else .ok (st.emit (quoteToks key content))

/-- `parse_json_null`, parts/json.c 445-499; `parse_json_boolean` (614-655) and `parse_json_number` (676-718) without the
    case for attributes. -/
def literalToks (key : Option (List Byte)) (text : List Byte) : List JTok :=
  let k := keyInfo key
  k.nameToks ++ parToks k.keyAttr ++ [.tok .element_value_text text]

/-- `parse_json_null`, parts/json.c 445-499. -/
def nullToks (key : Option (List Byte)) : List JTok :=
  match key.map trimIndexSuffix with
  | some (c :: d :: t) => if c == b#'_' then [.tok .attr_key (d :: t)] else literalToks key b#"null"
  | _ => literalToks key b#"null"

/-- The callbacks before the loop of `parse_json_array`, parts/json.c 773-812. -/
def arrayToks (key : Option (List Byte)) : List JTok :=
  let k := keyInfo key
  k.nameToks ++ parToks (k.keyAttr ++ [.tok .attr_key b#"A"]) ++ [.tok .brace_left b#"{"]

/-- The callbacks before the loop of `parse_json_object`, parts/json.c 1013-1053. -/
def objectToks (key : Option (List Byte)) : List JTok :=
  let k := keyInfo key
  k.nameToks ++ parToks k.keyAttr ++ [.tok .brace_left b#"{"]

/-- The loop of `parse_json_array` and its end, parts/json.c 818-834; `value` is `parse_json`. -/
def jsonArrayLoop (value : JSt → JRes) : Nat → JSt → JRes
  | 0, _ => .outOfFuel
  | k + 1, st =>
    if st.rest.isEmpty then .abort
    else
      let st := st.skipWs
      if peek st.rest == b#']' then .ok ((st.drop 1).emit [.tok .brace_right b#"}"])
      else
        (value st).bind fun st =>
          if peek st.rest == b#',' then jsonArrayLoop value k (st.drop 1)
          else if peek st.rest == b#']' then .ok ((st.drop 1).emit [.tok .brace_right b#"}"])
          else .abort

/-- The loop of `parse_json_object` and its end, parts/json.c 1059-1100. -/
def jsonObjectLoop (value : Option (List Byte) → JSt → JRes) : Nat → JSt → JRes
  | 0, _ => .outOfFuel
  | k + 1, st =>
    if st.rest.isEmpty then .hang
    else
      let st := st.skipWs
      if peek st.rest == b#'}' then .ok ((st.drop 1).emit [.tok .brace_right b#"}"])
      else if peek st.rest != b#'"' then .err
      else
        match eatJsonQuote (st.rest.drop 1) with
        | none => .err
        | some (key, rest) =>
          let st := { st with rest := rest }.skipWs
          if peek st.rest != b#':' then .err
          else
            (value (some key) (st.drop 1)).bind fun st =>
              if peek st.rest == b#',' then jsonObjectLoop value k (st.drop 1)
              else if peek st.rest == b#'}' then .ok ((st.drop 1).emit [.tok .brace_right b#"}"])
              else .abort

/-- The `if` chain of `parse_json`, parts/json.c 843-853, at the first byte of a value.  `object` and `array` are the loops of
    `parse_json_object` and `parse_json_array`. -/
def parseJsonValue (dtdOk : List Byte → Bool) (object array : JSt → JRes) (key : Option (List Byte)) (st : JSt) : JRes :=
  if peek st.rest == b#'"' then
    match eatJsonQuote (st.rest.drop 1) with
    | none => .err
    | some (content, rest) => parseJsonQuote dtdOk key content { st with rest := rest }
  else if st.rest.take 4 == b#"true" then .ok ((st.drop 4).emit (literalToks key b#"true"))
  else if st.rest.take 5 == b#"false" then .ok ((st.drop 5).emit (literalToks key b#"false"))
  else if st.rest.take 4 == b#"null" then .ok ((st.drop 4).emit (nullToks key))
  else
    match isJnumber st.rest with
    | some n => .ok ((st.drop n).emit (literalToks key (st.rest.take n)))
    | none =>
      if peek st.rest == b#'{' then object ((st.drop 1).emit (objectToks key))
      else if peek st.rest == b#'[' then array ((st.drop 1).emit (arrayToks key))
      else .err

/-- `parse_json`, parts/json.c 837-855. -/
def parseJson (dtdOk : List Byte → Bool) : Nat → Option (List Byte) → JSt → JRes
  | 0, _, _ => .outOfFuel
  | fuel + 1, key, st =>
    (parseJsonValue dtdOk (jsonObjectLoop (parseJson dtdOk fuel) fuel) (jsonArrayLoop (parseJson dtdOk fuel none) fuel) key
      st.skipWs).bind fun st => .ok st.skipWs

/-- `xmq_tokenize_buffer_json`, parts/json.c 720-771. -/
def parseJsonBuffer (dtdOk : List Byte → Bool) (fuel : Nat) (s : List Byte) : JRes :=
  (parseJson dtdOk fuel none ⟨s, [], false⟩).bind fun st => if st.rest.isEmpty then .ok st else .err

/-- What is left of a text that goes through a C string. -/
def cstr (s : List Byte) : List Byte := s.takeWhile (· != 0)

/-- One callback with `no_trim_quotes`; see `buildStep`.  Namespaces, doctypes and comments beside the root are not modelled. -/
def jsonStep (st : List Open) : JTok → Option (List Open)
  | .tok .brace_left _ | .tok .apar_left _ => pushLast st
  | .tok .brace_right _ | .tok .apar_right _ => popLast st
  | .tok .quote s => addTop st (.text (cstr s))
  | .tok .comment s => addTop st (.comment (cstr s))
  | .tok .element_key s => addTop st (.element s [] [])
  | .tok .element_value_text s => addToLast st (.text (cstr s))
  | .tok .attr_value_quote s => addToLast st (.text (cstr s))
  | .tok .attr_key s =>
    match st with
    | [] => none
    | o :: st => some ({ o with attrs := ⟨s, []⟩ :: o.attrs, lastAttr := true } :: st)
  | .rename n =>
    match st with
    | [] => none
    | o :: st => some ({ o with name := n } :: st)
  | _ => none

/-- All callbacks of a parse. -/
def buildJson (toks : List JTok) : Option (List Node) :=
  (toks.foldlM jsonStep [⟨false, [], [], [], false⟩]).bind fun st =>
    match st with
    | [o] => some o.kids.reverse
    | _ => none

/-- `ReadsJson input doc`: parsing `input` as JSON succeeds and gives the document `doc` (there is no doctype in it). -/
def ReadsJson (input : List Byte) (doc : List Node) : Prop :=
  ∃ st, (∀ dtdOk, ∃ fuel, parseJsonBuffer dtdOk fuel input = .ok st) ∧ buildJson st.out.reverse = some doc

end Xmq
