import Verif.Model.Builder
/-!
# From tokens to the document tree with namespaces, processing instructions and doctypes (xmq.c 1943-2664)

`Verif.Model.Builder` leaves them out; this is the same part of the code with them.  `xmlNs` structures are kept in a list in
the order of their creation; pointers to them are positions in that list.  The first one is libxml2's declaration of the
prefix `xml`.

Used of libxml2 (tree.c): `xmlNewNs` gives NULL when the element has a declaration of the prefix already and otherwise adds
one at the end; `xmlSearchNs` looks for the prefix in the declarations of the element, then for each ancestor in its
declarations and in its own namespace, and **skips entries without href**; `xmlGetNsList` lists the nearest declarations
first; `xmlNewNsProp` with a NULL namespace makes an attribute without namespace.

`none` is also the result for what is not modelled: doctypes in quotes (`parse_doctype_raw` is libxml2's parser), and values
declarations of the prefix `xml`, a second doctype (`xmlNewDtd` gives NULL), and values
or children when `state->element_last` is not an element or an attribute just made.  There is no implicit root.
-/
namespace Xmq

/-- `xmlNs`. -/
structure Ns where
  pre : Option (List Byte)
  href : Option (List Byte)
deriving DecidableEq, Repr

/-- `xmlAttr` with a pointer to its namespace. -/
structure NAttr where
  name : List Byte
  ns : Option Nat
  value : List Val
deriving DecidableEq, Repr

/-- `xmlNode`; an element has a pointer to its namespace and its declarations (`nsDef`). -/
inductive NNode
  | text (s : List Byte)
  | entity (name : List Byte)
  | comment (s : List Byte)
  | pi (target content : List Byte)
  | dtd (name : List Byte)
  | element (name : List Byte) (ns : Option Nat) (defs : List Nat) (attrs : List NAttr) (kids : List NNode)
deriving Repr

/-- A text or entity reference as a node. -/
def Val.nnode : Val → NNode
  | .text s => .text s
  | .entity n => .entity n

/-- The other direction. -/
def NNode.val? : NNode → Option Val
  | .text s => some (.text s)
  | .entity n => some (.entity n)
  | _ => none

/-- A node on `state->element_stack`, as `Open` of `Verif.Model.Builder`. -/
structure NOpen where
  isAttr : Bool
  name : List Byte
  ns : Option Nat
  defs : List Nat
  attrs : List NAttr
  kids : List NNode
  lastAttr : Bool
deriving Repr

/-- The part of `XMQParseState` (parts/xmq_internals.h 275) used by the callbacks: `element_namespace`,
    `attribute_namespace`, `default_namespace`, `declaring_xmlns` with `declaring_xmlns_namespace`, `parsing_pi` with
    `pi_name`, `parsing_doctype`, `doctype_found`. -/
structure NSt where
  heap : List Ns
  stack : List NOpen
  elemPre : Option (List Byte)
  attrPre : Option (List Byte)
  dflt : Option Nat
  decl : Option Nat
  pi : Option (List Byte)
  doctype : Bool
  found : Bool
deriving Repr

/-- The prefix `xml`. -/
def xmlPrefix : List Byte := b#"xml"

/-- `XML_XML_NAMESPACE` of libxml2. -/
def xmlNamespace : List Byte := b#"http://www.w3.org/XML/1998/namespace"

/-- The state at the beginning: the document on the stack. -/
def NSt.init : NSt := ⟨[⟨some xmlPrefix, some xmlNamespace⟩], [⟨false, [], none, [], [], [], false⟩], none, none, none, none, none, false, false⟩

/-- The entry declares the prefix and has an href. -/
def nsMatch (heap : List Ns) (p : List Byte) (i : Nat) : Bool :=
  match heap[i]? with
  | some ⟨some q, some _⟩ => q == p
  | _ => false

/-- The loop of `xmlSearchNs` for a prefix; `own` for the node the search begins at. -/
def searchUp (heap : List Ns) (p : List Byte) : Bool → List NOpen → Option Nat
  | _, [] => none
  | own, o :: st =>
    match o.defs.find? (nsMatch heap p) with
    | some i => some i
    | none =>
      match (if own then none else o.ns.filter (nsMatch heap p)) with
      | some i => some i
      | none => searchUp heap p false st

/-- `xmlSearchNs` of libxml2 for a prefix. -/
def searchNs (heap : List Ns) (p : List Byte) (own : Bool) (st : List NOpen) : Option Nat :=
  if p == xmlPrefix then some 0 else searchUp heap p own st

/-- The own declaration of a prefix (or of the default namespace). -/
def ownDef (heap : List Ns) (pre : Option (List Byte)) (defs : List Nat) : Option Nat :=
  defs.find? fun i => match heap[i]? with | some n => n.pre == pre | none => false

/-- `xmlAddChild` on the children, latest first. -/
def addNChild (kids : List NNode) (n : NNode) : List NNode :=
  match n, kids with
  | .text b, .text a :: t => .text (a ++ b) :: t
  | n, kids => n :: kids

/-- `do_brace_left` and friends, xmq.c 2606-2654. -/
def pushNLast (st : List NOpen) : Option (List NOpen) :=
  match st with
  | [] => none
  | o :: st =>
    if o.lastAttr then
      match o.attrs with
      | [] => none
      | a :: as => some (⟨true, a.name, a.ns, [], [], (a.value.map Val.nnode).reverse, false⟩ :: { o with attrs := as } :: st)
    else
      match o.kids with
      | .element name ns defs attrs kids :: ks =>
        some (⟨false, name, ns, defs, attrs.reverse, kids.reverse, false⟩ :: { o with kids := ks } :: st)
      | _ => none

/-- `do_brace_right` and friends, xmq.c 2616-2664. -/
def popNLast (st : List NOpen) : Option (List NOpen) :=
  match st with
  | o :: p :: st =>
    if o.isAttr then
      (o.kids.reverse.mapM NNode.val?).map fun v => { p with attrs := ⟨o.name, o.ns, v⟩ :: p.attrs, lastAttr := true } :: st
    else some ({ p with kids := .element o.name o.ns o.defs o.attrs.reverse o.kids.reverse :: p.kids, lastAttr := false } :: st)
  | _ => none

/-- Add a child to the top of the stack; it is the new `element_last`. -/
def addNTop (st : List NOpen) (n : NNode) : Option (List NOpen) :=
  match st with
  | [] => none
  | o :: st => some ({ o with kids := addNChild o.kids n, lastAttr := false } :: st)

/-- Add a text or entity to `element_last`. -/
def addToNLast (st : List NOpen) (v : Val) : Option (List NOpen) :=
  match st with
  | [] => none
  | o :: st =>
    if o.lastAttr then
      match o.attrs with
      | [] => none
      | a :: as =>
        ((addNChild (a.value.map Val.nnode).reverse v.nnode).reverse.mapM NNode.val?).map fun w =>
          { o with attrs := ⟨a.name, a.ns, w⟩ :: as } :: st
    else
      match o.kids with
      | .element name ns defs attrs kids :: ks =>
        some ({ o with kids := .element name ns defs attrs (addNChild kids.reverse v.nnode).reverse :: ks } :: st)
      | _ => none

/-- `create_node`, xmq.c 2482-2555. -/
def createNode (s : NSt) (name : List Byte) : Option NSt :=
  if name == b#"!DOCTYPE" then some { s with doctype := true }
  else if peek name == b#'?' then some { s with pi := some (name.drop 1) }
  else
    match s.stack with
    | [] => none
    | o :: st =>
      let add (ns : Option Nat) (defs : List Nat) : List NOpen :=
        { o with kids := .element name ns defs [] [] :: o.kids, lastAttr := false } :: st
      match s.elemPre with
      | some p =>
        match searchNs s.heap p false (o :: st) with
        | some i => some { s with stack := add (some i) [], elemPre := none }
        | none => some { s with heap := s.heap ++ [⟨some p, none⟩], stack := add (some s.heap.length) [s.heap.length], elemPre := none }
      | none => some { s with stack := add s.dflt [] }

/-- `do_ns_declaration`, xmq.c 2263-2345.  `pre`: the name behind the colon, taken from the buffer up to `suffix`. -/
def declareNs (s : NSt) (pre : Option (List Byte)) : Option NSt :=
  if pre == some xmlPrefix then none else
  match s.stack with
  | [] => none
  | o :: st =>
    let old := ownDef s.heap pre o.defs
    let i := old.getD s.heap.length
    let heap := if old.isSome then s.heap else s.heap ++ [⟨pre, none⟩]
    let defs := if old.isSome then o.defs else o.defs ++ [i]
    match pre with
    | none =>
      some { s with heap := heap, stack := { o with defs := defs, ns := if o.ns.isNone then some i else o.ns } :: st, dflt := some i, decl := some i }
    | some _ => some { s with heap := heap, stack := { o with defs := defs } :: st, decl := some i }

/-- `do_attr_key`, xmq.c 2347-2390. -/
def attrKey (s : NSt) (key : List Byte) : Option NSt :=
  match s.stack with
  | [] => none
  | o :: st =>
    let add (o : NOpen) (ns : Option Nat) : List NOpen := { o with attrs := ⟨key, ns, []⟩ :: o.attrs, lastAttr := true } :: st
    match s.attrPre with
    | none => some { s with stack := add o none }
    | some p =>
      match searchNs s.heap p true (o :: st) with
      | some i => some { s with stack := add o (some i), attrPre := none }
      | none =>
        if (ownDef s.heap (some p) o.defs).isSome then some { s with stack := add o none, attrPre := none }
        else
          let own : NOpen := { o with defs := o.defs ++ [s.heap.length] }
          some { s with heap := s.heap ++ [⟨some p, none⟩], stack := add own (some s.heap.length), attrPre := none }

/-- `update_namespace_href`, xmq.c 2392-2411, and the end of the declaration (2424-2426, 2444-2445).  `empty`: `start[0] == 0`. -/
def updateHref (s : NSt) (i : Nat) (href : List Byte) (empty : Bool) : Option NSt :=
  let s := { s with heap := s.heap.modify i fun n => { n with href := some href }, decl := none }
  if empty && s.dflt == some i then
    match s.stack with
    | [] => none
    | o :: st => some { s with stack := { o with ns := none } :: st, dflt := none }
  else some s

/-- `potentially_add_leading_ending_space`, parts/text.c 600-627.  `none`: the byte before an empty string is read. -/
def addEdgeSpaces (s : List Byte) : Option (List Byte) :=
  if s.isEmpty then none
  else some ((if peek s == b#'\'' then [b#' '] else []) ++ s ++ (if s.getLast? == some b#'\'' then [b#' '] else []))

/-- The node of a processing instruction, xmq.c 2119-2131 and 2161-2171.  It does not become `element_last`. -/
def addPi (s : NSt) (target content : List Byte) : Option NSt :=
  match addEdgeSpaces content, s.stack with
  | some c, o :: st => some { s with stack := { o with kids := .pi target c :: o.kids } :: st, pi := none }
  | _, _ => none

/-- The node is an element. -/
def NNode.isElement : NNode → Bool
  | .element .. => true
  | _ => false

/-- `do_element_value_text`, xmq.c 2112-2151.  `xmlNewDtd` of libxml2 puts the doctype into the document before the first
    element, whatever the top of the stack is; `xmlAddChild` then links it a second time if the top is not the document.  Only
    doctypes beside each other and before the first element are modelled. -/
def elementText (s : NSt) (t : List Byte) : Option NSt :=
  match s.pi with
  | some target => addPi s target t
  | none =>
    if s.doctype then
      match s.found, s.stack with
      | false, [o] =>
        if o.kids.any NNode.isElement then none
        else some { s with stack := [{ o with kids := .dtd t :: o.kids }], doctype := false, found := true }
      | _, _ => none
    else (addToNLast s.stack (.text t)).map fun st => { s with stack := st }

/-- `do_element_value_quote`, xmq.c 2153-2210, without doctypes. -/
def elementQuote (s : NSt) (v : Val) : Option NSt :=
  match s.pi, v with
  | some target, .text t => addPi s target t
  | some _, .entity _ => none
  | none, v => if s.doctype then none else (addToNLast s.stack v).map fun st => { s with stack := st }

/-- One callback.  `rest` are the tokens that follow: `do_ns_declaration` looks ahead for the prefix, in the buffer up to
    `suffix`.  (Here white space is skipped; the parser delivers the colon directly behind `xmlns`.) -/
def nsStep (s : NSt) (t : Tok) (rest : List Tok) : Option NSt :=
  let onStack (st : Option (List NOpen)) : Option NSt := st.map fun st => { s with stack := st }
  match t.kind with
  | .whitespace | .equals | .ns_colon => some s
  | .brace_left | .apar_left | .cpar_left => if s.pi.isSome || s.doctype then none else onStack (pushNLast s.stack)
  | .brace_right | .apar_right | .cpar_right => onStack (popNLast s.stack)
  | .quote | .element_value_compound_quote | .attr_value_compound_quote =>
    (quoteVal t.col t.text).bind fun v => onStack (addNTop s.stack v.nnode)
  | .entity | .element_value_compound_entity | .attr_value_compound_entity =>
    (entityVal t.text).bind fun v => onStack (addNTop s.stack v.nnode)
  | .comment => (unComment (t.col - 1) b#' ' 0 t.text).bind fun c => onStack (addNTop s.stack (.comment c))
  | .comment_continuation =>
    let n := (t.text.drop 1).reverse.takeWhile (· == b#'/')
    (unComment (t.col - 1) b#' ' 0 (n ++ t.text)).bind fun c =>
      match s.stack with
      | o :: st =>
        match o.kids with
        | .comment b :: ks => some { s with stack := { o with kids := .comment (b ++ b#'\n' :: c) :: ks } :: st }
        | _ => none
      | [] => none
  | .element_ns => some { s with elemPre := some t.text }
  | .element_name | .element_key => createNode s t.text
  | .element_value_text => elementText s t.text
  | .element_value_quote => (quoteVal t.col t.text).bind (elementQuote s)
  | .element_value_entity => (entityVal t.text).bind fun v => onStack (addToNLast s.stack v)
  | .attr_ns => some (if s.decl.isSome then s else { s with attrPre := some t.text })
  | .ns_declaration =>
    declareNs s (match rest.filter fun t => t.kind != .whitespace with
      | c :: p :: _ => if c.kind = .ns_colon then some p.text else none
      | _ => none)
  | .attr_key => attrKey s t.text
  | .attr_value_text =>
    match s.decl with
    | some i => updateHref s i t.text false
    | none => onStack (addToNLast s.stack (.text t.text))
  | .attr_value_quote =>
    (quoteVal t.col t.text).bind fun v =>
      match s.decl, v with
      | some i, .text u => updateHref s i u u.isEmpty
      | some _, .entity _ => none
      | none, v => onStack (addToNLast s.stack v)
  | .attr_value_entity => (entityVal t.text).bind fun v => onStack (addToNLast s.stack v)

/-- All callbacks of a parse. -/
def nsRun : NSt → List Tok → Option NSt
  | s, [] => some s
  | s, t :: rest => (nsStep s t rest).bind fun s => nsRun s rest

/-- The namespaces and the children of the document. -/
def nsBuild (toks : List Tok) : Option (List Ns × List NNode) :=
  (nsRun NSt.init toks).bind fun s =>
    match s.stack with
    | [o] => some (s.heap, o.kids.reverse)
    | _ => none

end Xmq
