import Verif.Model.JsonPrint
/-!
# JSON with comments beside the root (parts/json.c 266-276, 1293-1375, 1647-1685, xmq.c 2060-2085, 2733-2761)

The same functions as in `JsonPrint` and `Json`, now with the stacks `pre_nodes` and `post_nodes` of comments before and behind the
root, which are written into the first object that has no containing node.  Doctypes are still left out.
-/
namespace Xmq

/-! ## Writing -/

/-- The members of `XMQPrintState` used: as `JP`, and the comments in `pre_nodes` and `post_nodes` in the order in which they are
    taken from the bottom of the stack (`stack_rock`, parts/stack.c 101-120), `pre_post_num_comments_total` and
    `pre_post_num_comments_used`. -/
structure JPS where
  p : JP
  pre : List (List Byte)
  post : List (List Byte)
  total : Nat
  used : Nat
deriving DecidableEq, Repr

/-- Something else is written. -/
def JPS.put (ps : JPS) (p : JP) : JPS := { ps with p := p }

/-- `json_print_comment_node` with `prefix_ul`, parts/json.c 1467-1492. -/
def JPS.sideComment (ps : JPS) (s : List Byte) : Option JPS :=
  ((((ps.p.comma.print b#"\"_//").print (indexSuffix ps.total ps.used)).print b#"\":").value s true).map fun p =>
    { ps with p := p, used := ps.used + 1 }

/-- The loop over `pre_nodes`, parts/json.c 1315-1331. -/
def JPS.takePre (ps : JPS) (container : Bool) : Option JPS :=
  if container then some ps else (ps.pre.foldlM JPS.sideComment ps).map fun ps => { ps with pre := [] }

/-- The loop over `post_nodes`, parts/json.c 1356-1368. -/
def JPS.takePost (ps : JPS) (container : Bool) : Option JPS :=
  if container then some ps else (ps.post.foldlM JPS.sideComment ps).map fun ps => { ps with post := [] }

mutual
/-- `json_print_node`, parts/json.c 945-1011, with `json_print_array_with_children` (1157-1204) and
    `json_print_element_with_children` (1293-1375). -/
def JPS.node (ps : JPS) (container : Bool) (total used : Nat) : Node → Option JPS
  | .comment s => (ps.p.comment s total used).map ps.put
  | .text s => (ps.p.standaloneQuote s total used).map ps.put
  | .entity n => some (ps.put (ps.p.entity n))
  | .element name attrs kids =>
    if kids.isEmpty && container then (ps.p.leaf name attrs total used).map ps.put
    else if (keyValues kids).isSome && (attrs.isEmpty || !hasAttrOtherThanAS attrs) then
      (ps.p.keyNode container name attrs kids total used).map ps.put
    else if (attrOf attrs b#"A").isSome then
      (if container then (ps.p.comma.elementName name attrs 1 0).map (·.print b#":") else some ps.p.comma).bind fun p =>
        (JPS.arrayNodes (ps.put ⟨p.out ++ b#"[", b#'['⟩) kids).map fun ps => ps.put ⟨ps.p.out ++ b#"]", b#']'⟩
    else
      (if container then (ps.p.comma.elementName name attrs total used).map (·.print b#":") else some ps.p.comma).bind fun p =>
        ((ps.put ⟨p.out ++ b#"{", b#'{'⟩).takePre container).bind fun ps =>
          (if !container && name != b#"_" then (ps.p.comma.print b#"\"_\":").elementName name attrs total used else some ps.p).bind fun p =>
            (p.attributes attrs).bind fun p =>
              (JPS.objectNodes (ps.put p) true (kids.map jsonNodeName) [] kids).bind fun ps =>
                (ps.takePost container).map fun ps => ps.put ⟨ps.p.out ++ b#"}", b#'}'⟩
/-- `json_print_array_nodes`, parts/json.c 908-928; see `JP.arrayNodes`. -/
def JPS.arrayNodes (ps : JPS) : List Node → Option JPS
  | [] => some ps
  | n :: t =>
    let ps := ps.put ps.p.comma
    (match n with
     | .element _ attrs kids =>
       if (attrOf attrs b#"S").isSome then
         match kids with
         | [.text s] => (ps.p.value s true).map ps.put
         | _ => none
       else JPS.node ps false 1 0 n
     | .text s => if jsonIsNumber s || jsonIsKeyword s then none else JPS.node ps false 1 0 n
     | .comment s => if jsonIsNumber s || jsonIsKeyword s then none else JPS.node ps false 1 0 n
     | .entity _ => JPS.node ps false 1 0 n).bind fun ps => JPS.arrayNodes ps t
/-- `json_print_object_nodes`, parts/json.c 863-905; see `JP.objectNodes`. -/
def JPS.objectNodes (ps : JPS) (container : Bool) (names done : List (List Byte)) : List Node → Option JPS
  | [] => some ps
  | n :: t =>
    let name := jsonNodeName n
    (if name == b#"_" then JPS.node ps container 1 0 n
     else JPS.node ps container (nameCount names name) (nameCount done name) n).bind fun ps =>
      JPS.objectNodes ps container names (name :: done) t
end

/-- The text of a comment, `is_comment_node`. -/
def commentText? : Node → Option (List Byte)
  | .comment s => some s
  | _ => none

/-- Whether the node is a comment. -/
def isCommentNode (n : Node) : Bool := (commentText? n).isSome

/-- The first loop of `collect_leading_ending_comments_doctype`, parts/json.c 1653-1669: the leading comments; it stops at the last
    node. -/
def leadingComments (doc : List Node) : List Node := doc.dropLast.takeWhile isCommentNode

/-- The second loop, parts/json.c 1671-1680, on the nodes from the new first one on: the ending comments, last one first; it stops
    at the first node. -/
def endingComments (rest : List Node) : List Node := rest.tail.reverse.takeWhile isCommentNode

/-- `xmq_print_json`, xmq.c 2733-2761, for the nodes of a document without doctype. -/
def printJsonDoc (doc : List Node) : Option (List Byte) :=
  if doc.isEmpty then some []
  else
    let pre := leadingComments doc
    let rest := doc.drop pre.length
    let post := endingComments rest
    let mid := rest.take (rest.length - post.length)
    (JPS.objectNodes ⟨⟨[], 0⟩, pre.filterMap commentText?, post.filterMap commentText?, pre.length + post.length, 0⟩ false
      (mid.map jsonNodeName) [] mid).map fun ps => ps.p.out ++ b#"\n"

/-! ## Reading -/

/-- The builder state: the stack, for each node on it the comments that have been put behind it, and `root_found`. -/
structure JB where
  stack : List Open
  after : List (List Node)
  found : Bool
deriving Repr

/-- One callback.  A comment beside the node on top of the stack is put directly before it (`xmlAddPrevSibling`, as long as no
    object has been given a name) or directly behind it (`xmlAddNextSibling`), xmq.c 2066-2075.  What stands behind a node gets into its
    parent when the node is closed. -/
def jsonSideStep (b : JB) : JTok → Option JB
  | .rootComment s =>
    if b.found then
      match b.after with
      | [] => none
      | a :: t => some { b with after := (.comment (cstr s) :: a) :: t }
    else
      match b.stack with
      | o :: p :: st => some { b with stack := o :: { p with kids := .comment (cstr s) :: p.kids } :: st }
      | _ => none
  | .tok .brace_left x => (jsonStep b.stack (.tok .brace_left x)).map fun st => { b with stack := st, after := [] :: b.after }
  | .tok .apar_left x => (jsonStep b.stack (.tok .apar_left x)).map fun st => { b with stack := st, after := [] :: b.after }
  | .tok .brace_right x =>
    (jsonStep b.stack (.tok .brace_right x)).bind fun st =>
      match st, b.after with
      | p :: st, a :: t => some { b with stack := { p with kids := a.reverse ++ p.kids } :: st, after := t }
      | _, _ => none
  | .tok .apar_right x =>
    (jsonStep b.stack (.tok .apar_right x)).bind fun st =>
      match st, b.after with
      | p :: st, a :: t => some { b with stack := { p with kids := a.reverse ++ p.kids } :: st, after := t }
      | _, _ => none
  | .rename n => (jsonStep b.stack (.rename n)).map fun st => { b with stack := st, found := true }
  | t => (jsonStep b.stack t).map fun st => { b with stack := st }

/-- All callbacks of a parse. -/
def buildJsonDoc (toks : List JTok) : Option (List Node) :=
  (toks.foldlM jsonSideStep ⟨[⟨false, [], [], [], false⟩], [[]], false⟩).bind fun b =>
    match b.stack with
    | [o] => some o.kids.reverse
    | _ => none

/-- `ReadsJsonDoc input doc`: parsing `input` as JSON succeeds and gives the document `doc`, with the comments beside its root. -/
def ReadsJsonDoc (input : List Byte) (doc : List Node) : Prop :=
  ∃ st, (∀ dtdOk, ∃ fuel, parseJsonBuffer dtdOk fuel input = .ok st) ∧ buildJsonDoc st.out.reverse = some doc

end Xmq
