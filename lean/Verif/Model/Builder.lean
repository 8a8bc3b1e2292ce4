import Verif.Model.Tree
import Verif.Model.Trim
import Verif.Model.Parser
/-!
# From tokens to the document tree (the `do_*` callbacks, xmq.c 1943-2664)

libxml2 is represented by the following behaviour of `xmlAddChild`: a text node added behind a text node is merged with it,
every other node is appended.  `state->merge_text` is set (the default), `no_trim_quotes` is not, there is no implicit root.
-/
namespace Xmq

/-- `xmq_un_comment`, xmq.c 1292-1351.  `none`: a failing assert or an out of bounds access of `xmq_trim_quote`. -/
def unComment (indent : Nat) (space next : Byte) (s : List Byte) : Option (List Byte) :=
  let i := s.dropWhile (· == b#'/')
  if s.isEmpty then none
  else if i.isEmpty then trimQuote indent space next (s.drop 2)
  else if peek i != b#'*' then
    let i := if peek i == b#' ' then i.drop 1 else i
    let t := (i.reverse.dropWhile (· == b#' ')).reverse
    trimQuote indent space (if t.length = i.length then next else b#' ') t
  else
    let r := stripDelims b#'/' s
    let s := r.2
    if peek s != b#'*' || s.getLast? != some b#'*' then none
    else if s.length < 2 then none
    else
      let s := (s.drop 1).take (s.length - 2)
      let indent := indent + r.1 + 1
      let lead := peek s == b#' '
      let s := if lead then s.drop 1 else s
      let indent := if lead then indent + 1 else indent
      let trail := s.getLast? == some b#' '
      trimQuote indent space (if trail then b#' ' else b#'*') (if trail then s.take (s.length - 1) else s)

/-- Digits as read by `strtol`: value of the longest prefix of digits in the given base. -/
def readDigits (base : Nat) : List Byte → Nat → Nat
  | [], acc => acc
  | c :: t, acc =>
    let d := if c ≥ b#'0' && c ≤ b#'9' then c.toNat - 48
      else if c ≥ b#'a' && c ≤ b#'f' then c.toNat - 87
      else if c ≥ b#'A' && c ≤ b#'F' then c.toNat - 55
      else 16
    if d < base then readDigits base t (acc * base + d) else acc

/-- The characters of a character entity, xmq.c 2021-2030, `tmp+2` being `s`.  Signs and a second `0x` are not modelled,
    nor numbers that do not fit an `int` (`none`).  The result is a C string, so it ends before a NUL. -/
def charEntityText (s : List Byte) : Option (List Byte) :=
  let v := if peek s == b#'x' then readDigits 16 (s.drop 1) 0 else readDigits 10 s 0
  if s.contains b#'-' || (peek s == b#'x' && (peek (s.drop 2) == b#'x' || peek (s.drop 2) == b#'X')) || v ≥ 2 ^ 31 then none
  else (encodeUtf8 v).map fun l => l.takeWhile (· != 0)

/-- The node made by `create_entity`, xmq.c 2001-2042. -/
def entityVal (s : List Byte) : Option Val :=
  if peek (s.drop 1) == b#'#' then (charEntityText (s.drop 2)).map Val.text
  else
    let name := s.drop 1
    some (.entity (if name.getLast? == some b#';' then name.dropLast else name))

/-- The text made by `create_quote`, xmq.c 1960-1962. -/
def quoteVal (col : Nat) (s : List Byte) : Option Val := (unQuote (col - 1) b#' ' 0 s true).map Val.text

/-- `xmlAddChild` on the children, latest first. -/
def addChild (kids : List Node) (n : Node) : List Node :=
  match n, kids with
  | .text b, .text a :: t => .text (a ++ b) :: t
  | n, kids => n :: kids

/-- A node on `state->element_stack` with what has been added to it so far, latest first.  The document has an empty
    name.  `lastAttr`: `state->element_last` is the latest attribute and not the latest child.  (The callbacks keep
    `element_last` pointing at the node added last to the top of the stack.) -/
structure Open where
  isAttr : Bool
  name : List Byte
  attrs : List Attr
  kids : List Node
  lastAttr : Bool
deriving Repr

/-- Push `state->element_last`, `do_brace_left` and friends, xmq.c 2606-2654.  Only elements and attributes are pushed. -/
def pushLast (st : List Open) : Option (List Open) :=
  match st with
  | [] => none
  | o :: st =>
    if o.lastAttr then
      match o.attrs with
      | [] => none
      | a :: as => some (⟨true, a.name, [], (a.value.map Val.node).reverse, false⟩ :: { o with attrs := as } :: st)
    else
      match o.kids with
      | .element name attrs kids :: ks =>
        some (⟨false, name, attrs.reverse, kids.reverse, false⟩ :: { o with kids := ks } :: st)
      | _ => none

/-- Pop the stack, `do_brace_right` and friends, xmq.c 2616-2664: the popped node is `element_last` again. -/
def popLast (st : List Open) : Option (List Open) :=
  match st with
  | o :: p :: st =>
    if o.isAttr then
      (o.kids.reverse.mapM Node.val?).map fun v => { p with attrs := ⟨o.name, v⟩ :: p.attrs, lastAttr := true } :: st
    else some ({ p with kids := .element o.name o.attrs.reverse o.kids.reverse :: p.kids, lastAttr := false } :: st)
  | _ => none

/-- Add a child to the top of the stack; it is the new `element_last`. -/
def addTop (st : List Open) (n : Node) : Option (List Open) :=
  match st with
  | [] => none
  | o :: st => some ({ o with kids := addChild o.kids n, lastAttr := false } :: st)

/-- Add a text or entity to `element_last`. -/
def addToLast (st : List Open) (v : Val) : Option (List Open) :=
  match st with
  | [] => none
  | o :: st =>
    if o.lastAttr then
      match o.attrs with
      | [] => none
      | a :: as =>
        ((addChild (a.value.map Val.node).reverse v.node).reverse.mapM Node.val?).map fun w =>
          { o with attrs := ⟨a.name, w⟩ :: as } :: st
    else
      match o.kids with
      | .element name attrs kids :: ks =>
        some ({ o with kids := .element name attrs (addChild kids.reverse v.node).reverse :: ks } :: st)
      | _ => none

/-- One callback: `do_whitespace` (xmq.c 1943), `do_quote` (1990), `do_entity` (2044), `do_comment` (2054),
    `do_comment_continuation` (2084), `do_element_value_*` (2112-2240), `do_attr_key` (2347), `do_attr_value_*` (2413-2480),
    `create_node` (2482), `do_brace_left` and so on (2606-2664).  Namespaces, doctypes and processing instructions are
    not modelled (`none`). -/
def buildStep (st : List Open) (t : Tok) : Option (List Open) :=
  match t.kind with
  | .whitespace | .equals | .ns_colon => some st
  | .brace_left | .apar_left | .cpar_left => pushLast st
  | .brace_right | .apar_right | .cpar_right => popLast st
  | .quote | .element_value_compound_quote | .attr_value_compound_quote =>
    (quoteVal t.col t.text).bind fun v => addTop st v.node
  | .entity | .element_value_compound_entity | .attr_value_compound_entity =>
    (entityVal t.text).bind fun v => addTop st v.node
  | .comment => (unComment (t.col - 1) b#' ' 0 t.text).bind fun s => addTop st (.comment s)
  | .comment_continuation =>
    let n := (t.text.drop 1).reverse.takeWhile (· == b#'/')
    (unComment (t.col - 1) b#' ' 0 (n ++ t.text)).bind fun s =>
      match st with
      | o :: st =>
        match o.kids with
        | .comment c :: ks => some ({ o with kids := .comment (c ++ b#'\n' :: s) :: ks } :: st)
        | _ => none
      | [] => none
  | .element_name | .element_key =>
    if peek t.text == b#'!' || peek t.text == b#'?' then none else addTop st (.element t.text [] [])
  | .element_value_text | .attr_value_text => addToLast st (.text t.text)
  | .element_value_quote | .attr_value_quote => (quoteVal t.col t.text).bind (addToLast st)
  | .element_value_entity | .attr_value_entity => (entityVal t.text).bind (addToLast st)
  | .attr_key =>
    match st with
    | [] => none
    | o :: st => some ({ o with attrs := ⟨t.text, []⟩ :: o.attrs, lastAttr := true } :: st)
  | .element_ns | .attr_ns | .ns_declaration => none

/-- All callbacks of a parse. -/
def buildTree (toks : List Tok) : Option (List Node) :=
  (toks.foldlM buildStep [⟨false, [], [], [], false⟩]).bind fun st =>
    match st with
    | [o] => some o.kids.reverse
    | _ => none

/-- `xmqParseBuffer`, xmq.c 1827-1864: the children of the resulting document; `none` for errors and for what is not
    modelled. -/
def readDoc (fuel : Nat) (input : List Byte) : Option (List Node) :=
  match parseBuffer fuel input with
  | .ok st => buildTree st.out.reverse
  | _ => none

/-- `Reads input doc`: parsing `input` succeeds and gives the document `doc`. -/
def Reads (input : List Byte) (doc : List Node) : Prop := ∃ toks, Tokenizes input toks ∧ buildTree toks = some doc

end Xmq
