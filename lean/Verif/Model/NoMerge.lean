import Verif.Model.Builder
/-!
# Reading with `XMQ_FLAG_NOMERGE` (`--no-merge`): the callbacks with `state->merge_text` off (xmq.c 1836)

`create_quote` then links the new text behind the last child by hand, so that it is not merged (xmq.c 1967-1984), and
`create_entity` makes a reference of a character entity (2014-2018).  Every other callback is as in `buildStep`.
-/
namespace Xmq.NoMerge

/-- The node made by `create_entity`, xmq.c 2011-2039: `xmlNewCharRef` and `xmlNewReference` both drop a leading `&` and a trailing
    `;`. -/
def entityVal (s : List Byte) : Val :=
  let name := s.drop 1
  .entity (if name.getLast? == some b#';' then name.dropLast else name)

/-- Link a child behind the last child of the top of the stack, xmq.c 1971-1983 (a text), or `xmlAddChild` of what is not a text
    (2039, 2076, 2578). -/
def addTop (st : List Open) (n : Node) : Option (List Open) :=
  match st with
  | [] => none
  | o :: st => some ({ o with kids := n :: o.kids, lastAttr := false } :: st)

/-- The same for a text or a reference below `element_last`. -/
def addToLast (st : List Open) (v : Val) : Option (List Open) :=
  match st with
  | [] => none
  | o :: st =>
    if o.lastAttr then
      match o.attrs with
      | [] => none
      | a :: as => some ({ o with attrs := ⟨a.name, a.value ++ [v]⟩ :: as } :: st)
    else
      match o.kids with
      | .element name attrs kids :: ks => some ({ o with kids := .element name attrs (kids ++ [v.node]) :: ks } :: st)
      | _ => none

/-- One callback, as `buildStep`.  `do_element_value_quote` (2204-2206), `do_element_value_text` (2135-2137) and
    `do_attr_value_text` (2430-2431) use `xmlAddChild`, which merges, also with this flag. -/
def buildStep (st : List Open) (t : Tok) : Option (List Open) :=
  match t.kind with
  | .quote | .element_value_compound_quote | .attr_value_compound_quote =>
    (quoteVal t.col t.text).bind fun v => addTop st v.node
  | .entity | .element_value_compound_entity | .attr_value_compound_entity => addTop st (entityVal t.text).node
  | .attr_value_quote => (quoteVal t.col t.text).bind (addToLast st)
  | .element_value_entity | .attr_value_entity => addToLast st (entityVal t.text)
  | _ => Xmq.buildStep st t

/-- All callbacks of a parse. -/
def buildTree (toks : List Tok) : Option (List Node) :=
  (toks.foldlM buildStep [⟨false, [], [], [], false⟩]).bind fun st =>
    match st with
    | [o] => some o.kids.reverse
    | _ => none

/-- `xmqParseBuffer` with `XMQ_FLAG_NOMERGE`, xmq.c 1827-1864. -/
def readDoc (fuel : Nat) (input : List Byte) : Option (List Node) :=
  match parseBuffer fuel input with
  | .ok st => buildTree st.out.reverse
  | _ => none

/-- Parsing `input` with the flag succeeds and gives the document `doc`. -/
def Reads (input : List Byte) (doc : List Node) : Prop := ∃ toks, Tokenizes input toks ∧ buildTree toks = some doc

end Xmq.NoMerge
