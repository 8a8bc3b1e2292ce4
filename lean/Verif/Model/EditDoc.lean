import Verif.Model.Builder
/-!
# The commands select, delete, add and add-root on a document (xmq-cli.c 2193-2257, 2301-2363 and 2556-2588)

The nodes an XPath finds are given as a list of places, in the order of `nodesetval`: how they are found is not modelled.  The
functions of libxml2 that are called (`xmlCopyNode`, `xmlUnlinkNode`, `xmlFreeNode`, `xmlFreeDoc`, `xmlAddChild`, `xmlAddSibling`,
`xmlDocSetRootElement`) are modelled after their documentation and known source, which is not part of /repo.  Left out: CDATA nodes,
processing instructions, the doctype and namespaces (`Node`); that `xmlXPathFreeObject` looks at the type of the nodes of the set,
xmq-cli.c 2250 and 2584, although they have been freed.
-/
namespace Xmq.EditDoc

/-- From a node to one of its attributes (`properties`) or children. -/
inductive Hop
  | attr (i : Nat)
  | kid (i : Nat)
deriving DecidableEq, Repr

/-- The way from the document to a node. -/
abbrev Place := List Hop

/-- A node in memory.  A node that has been unlinked and freed is `gone`, and what points to it still does. -/
inductive Cell
  | gone
  | text (s : List Byte)
  | entity (name : List Byte)
  | comment (s : List Byte)
  | element (name : List Byte) (attrs : List (Option Attr)) (kids : List Cell)
deriving Repr

/-- A document between two commands.  `linked`: the `parent` of its top nodes is the document (it is not for the nodes given to
    `xml_add_root_child`, parts/xml.c 289-303).  `last`: the index of the node that `doc->last` points to, `none` if that has been
    freed; it says something only if the nodes are not linked, else `doc->last` is the last node. -/
structure Doc where
  top : List Node
  linked : Bool
  last : Option Nat
deriving DecidableEq, Repr

/-- A document that has been loaded. -/
def loaded (top : List Node) : Doc := ⟨top, true, none⟩

mutual
/-- A node in memory when a command begins. -/
def cell : Node → Cell
  | .text s => .text s
  | .entity n => .entity n
  | .comment s => .comment s
  | .element n as ks => .element n (as.map some) (cells ks)
/-- Siblings in memory when a command begins. -/
def cells : List Node → List Cell
  | [] => []
  | k :: ks => cell k :: cells ks
end

mutual
/-- The node with what is still linked below it: what `xmlCopyNode(n, 1)` copies. -/
def node? : Cell → Option Node
  | .gone => none
  | .text s => some (.text s)
  | .entity n => some (.entity n)
  | .comment s => some (.comment s)
  | .element n as ks => some (.element n (as.filterMap id) (nodes ks))
/-- The siblings that are still linked. -/
def nodes : List Cell → List Node
  | [] => []
  | c :: cs =>
    match node? c with
    | none => nodes cs
    | some k => k :: nodes cs
end

/-- A cell has been freed. -/
def isGone : Cell → Bool
  | .gone => true
  | _ => false

/-- The node at a place, `none` if it has been freed.  An attribute is not a `Cell`: see `attrAt`. -/
def look : List Cell → Place → Option Cell
  | cs, [.kid i] =>
    match cs[i]? with
    | some c => if isGone c then none else some c
    | none => none
  | cs, .kid i :: p =>
    match cs[i]? with
    | some (.element _ _ ks) => look ks p
    | _ => none
  | _, _ => none

/-- The attribute number `j` of the element at a place, `none` if it has been freed. -/
def attrAt (cs : List Cell) (p : Place) (j : Nat) : Option Attr :=
  match look cs p with
  | some (.element _ as _) => as[j]?.join
  | _ => none

/-- `xmlUnlinkNode` and `xmlFreeNode`, xmq-cli.c 2246-2247 and 2580-2581, for a node or an attribute.  `none`: it has been freed
    before, or it is the document. -/
def free : List Cell → Place → Option (List Cell)
  | cs, [.kid i] =>
    match cs[i]? with
    | some c => if isGone c then none else some (cs.set i .gone)
    | none => none
  | cs, [.kid i, .attr j] =>
    match cs[i]? with
    | some (.element n as ks) =>
      match as[j]? with
      | some (some _) => some (cs.set i (.element n (as.set j none) ks))
      | _ => none
    | _ => none
  | cs, .kid i :: p =>
    match cs[i]? with
    | some (.element n as ks) => (free ks p).map fun ks' => cs.set i (.element n as ks')
    | _ => none
  | _, _ => none

/-- The loop in `delete_xpath`, xmq-cli.c 2576-2582; the places are in the order of the loop. -/
def freeAll : List Cell → List Place → Option (List Cell)
  | cs, [] => some cs
  | cs, p :: ps =>
    match free cs p with
    | none => none
    | some cs' => freeAll cs' ps

/-- What `doc->last` is after nodes have been freed. -/
def lastAfter (cs : List Cell) : Option Nat → Option Nat
  | none => none
  | some i =>
    match cs[i]? with
    | none => none
    | some c => if isGone c then none else some ((cs.take i).filter fun c => !isGone c).length

/-- `doc->children` points to freed memory: `xmlUnlinkNode` changes it only if the `parent` of the node is the document. -/
def headFreed (linked : Bool) (cs : List Cell) : Bool :=
  !linked && match cs with
    | c :: _ => isGone c
    | [] => false

/-- `delete_xpath`, xmq-cli.c 2556-2588.  `none`: memory is used after it has been freed, here or when the document is used (at the
    latest by `xmlFreeDoc`). -/
def delete (ps : List Place) (d : Doc) : Option Doc :=
  match freeAll (cells d.top) ps.reverse with
  | none => none
  | some cs => if headFreed d.linked cs then none else some ⟨nodes cs, d.linked, lastAfter cs d.last⟩

/-- The loop `while (n && !is_element_node(n) && !is_content_node(n))` in `cmd_select`, xmq-cli.c 2238-2242: the place of the node
    it ends with, `[]` standing for NULL, as the document has no parent.  `none`: the node has been freed. -/
def climb (cs : List Cell) (p : Place) : Option Place :=
  match p.getLast? with
  | none => some []
  | some (.attr j) => (attrAt cs p.dropLast j).map fun _ => p.dropLast
  | some (.kid _) =>
    match look cs p with
    | none => none
    | some .gone => none
    | some (.text _) => some p
    | some (.element _ _ _) => some p
    | some (.entity _) => some p.dropLast
    | some (.comment _) => some p.dropLast

/-- The loop in `cmd_select`, xmq-cli.c 2232-2248; the places are in the order of the loop.  `new`: the nodes in the new document.
    NULL is copied to NULL, and `xml_add_root_child` with NULL does nothing if the new document is empty, else it uses NULL. -/
def selectLoop : List Cell → List Node → List Place → Option (List Cell × List Node)
  | cs, new, [] => some (cs, new)
  | cs, new, p :: ps =>
    match climb cs p with
    | none => none
    | some [] => if new.isEmpty then selectLoop cs new ps else none
    | some q =>
      match (look cs q).bind node?, free cs q with
      | some k, some cs' => selectLoop cs' (new ++ [k]) ps
      | _, _ => none

/-- `cmd_select`, xmq-cli.c 2210-2257.  `none`: as in `delete`, or NULL is used.  `xmlFreeDoc` begins at `doc->children`. -/
def select (ps : List Place) (d : Doc) : Option Doc :=
  match selectLoop (cells d.top) [] ps.reverse with
  | none => none
  | some (cs, new) => if headFreed d.linked cs then none else some ⟨new, new.isEmpty, if new.isEmpty then none else some (new.length - 1)⟩

/-- The loop in `cmd_add`, xmq-cli.c 2320-2333, for the nodes of what is added: `xmlAddSibling` goes to the last sibling and joins
    two texts; the nodes of the document are given latest first. -/
def addAll : List Node → List Node → List Node
  | top, [] => top
  | top, k :: ks => addAll (addChild top k) ks

/-- `cmd_add`, xmq-cli.c 2301-2339, after the text has been parsed (2308-2318).  A node that is added gets the parent of the node
    before it, and `doc->last` is changed only if that is the document.  `none`: `doc->last` has been freed. -/
def add (new : List Node) (d : Doc) : Option Doc :=
  if d.linked then some ⟨(addAll d.top.reverse new).reverse, true, none⟩
  else
    match d.last with
    | none => none
    | some i => some ⟨(addAll d.top.reverse new).reverse, false, some i⟩

/-- `cmd_add_root`, xmq-cli.c 2340-2363: copies of the nodes are added by `xmlAddChild`. -/
def addRoot (name : List Byte) (d : Doc) : Option Doc :=
  some ⟨[.element name [] (addAll [] d.top).reverse], true, none⟩

/-- A command that changes the document; an XPath is a function from the document to the places it finds. -/
inductive Edit
  | delete (xpath : List Node → List Place)
  | select (xpath : List Node → List Place)
  | add (new : List Node)
  | addRoot (name : List Byte)

/-- One command. -/
def edit : Edit → Doc → Option Doc
  | .delete x, d => delete (x d.top) d
  | .select x, d => select (x d.top) d
  | .add new, d => add new d
  | .addRoot name, d => addRoot name d

/-- The commands of a command line, one after the other. -/
def edits : List Edit → Doc → Option Doc
  | [], d => some d
  | e :: es, d => (edit e d).bind (edits es)

end Xmq.EditDoc
