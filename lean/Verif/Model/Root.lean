import Verif.Model.NsBuild
/-!
# Reading with an implicit root (xmq.c 1840-1842 and `create_node`, xmq.c 2482-2526)

`xmqParseBuffer` takes the name of a root that the text may leave out.  `create_node` puts it on the stack when the first
element is created, **if `state->element_last` is still NULL**; comments, quotes and entities before that element set
`element_last` as well (`do_quote` 1990, `do_entity` 2044, `do_comment` 2054; inside parentheses 2222-2250 and 2453-2480), processing instructions and doctypes do not.
-/
namespace Xmq

/-- The state of the parse.  `last`: `state->element_last` is not NULL.  `rooted`: the implicit root is on the stack. -/
structure RSt where
  ns : NSt
  last : Bool
  rooted : Bool
deriving Repr

/-- The token makes `create_node` create an element, xmq.c 2487-2498. -/
def Tok.makesElement (t : Tok) : Bool :=
  (t.kind == .element_name || t.kind == .element_key) && !(t.text == b#"!DOCTYPE") && !(peek t.text == b#'?')

/-- The token sets `state->element_last`, other than by closing what is open. -/
def Tok.setsLast (t : Tok) : Bool :=
  match t.kind with
  | .quote | .element_value_compound_quote | .attr_value_compound_quote | .entity | .element_value_compound_entity
  | .attr_value_compound_entity | .comment => true
  | _ => t.makesElement

/-- The implicit root before anything is added to it, xmq.c 2512-2516. -/
def newRoot (r : List Byte) : NOpen := ⟨false, r, none, [], [], [], false⟩

/-- The implicit root is created by this token, xmq.c 2499-2517. -/
def Tok.makesRoot (t : Tok) (r : List Byte) (x : RSt) : Bool := t.makesElement && !x.last && t.text != r

/-- One callback with the implicit root `r`. -/
def rootStep (r : List Byte) (x : RSt) (t : Tok) (rest : List Tok) : Option RSt :=
  let s := if t.makesRoot r x then { x.ns with stack := newRoot r :: x.ns.stack } else x.ns
  (nsStep s t rest).map fun s => ⟨s, x.last || t.setsLast, x.rooted || t.makesRoot r x⟩

/-- All callbacks of a parse. -/
def rootRun (r : List Byte) : RSt → List Tok → Option RSt
  | x, [] => some x
  | x, t :: rest => (rootStep r x t rest).bind fun x => rootRun r x rest

/-- The namespaces and the children of the document.  An empty name is no root, xmq.c 1840. -/
def rootBuild (r : List Byte) (toks : List Tok) : Option (List Ns × List NNode) :=
  if r.isEmpty then nsBuild toks
  else (rootRun r ⟨NSt.init, false, false⟩ toks).bind fun x =>
    (if x.rooted then popNLast x.ns.stack else some x.ns.stack).bind fun st =>
      match st with
      | [o] => some (x.ns.heap, o.kids.reverse)
      | _ => none

end Xmq
