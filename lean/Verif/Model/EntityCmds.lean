import Verif.Model.Tree
import Verif.Model.Collapse
/-!
# The commands delete-entity, replace-entity, substitute-entity and substitute-char-entities (xmq-cli.c 2511-2764)

A document is the list of its top nodes.  CDATA nodes, processing instructions and the doctype are left out (`Node`).
-/
namespace Xmq.EntityCmds

/-- `is_element_node`, parts/xml.c 138-141. -/
def isElement : Node → Bool
  | .element _ _ _ => true
  | _ => false

mutual
/-- `delete_all_entities` for something that is not a reference, xmq-cli.c 2524-2530. -/
def deleteNode (e : List Byte) : Node → Node
  | .element t as ks => .element t as (deleteEntities e ks)
  | k => k
/-- The loops over siblings, xmq-cli.c 2524-2530 and 2539-2544 (`delete_entities`), with the test in xmq-cli.c 2513-2522. -/
def deleteEntities (e : List Byte) : List Node → List Node
  | [] => []
  | .entity n :: ks => if e == n then deleteEntities e ks else .entity n :: deleteEntities e ks
  | k :: ks => deleteNode e k :: deleteEntities e ks
end

/-- `replace_entity` over the children of an attribute, xmq-cli.c 2590-2632 and 2640-2644.  `done`: the siblings before, the last
    one first.  `none`: the attribute gets a child that is neither a text nor a reference. -/
def replaceVals (e : List Byte) (rep : Node) : List Val → List Val → Option (List Val)
  | done, [] => some done.reverse
  | done, .text s :: vs => replaceVals e rep (.text s :: done) vs
  | done, .entity n :: vs =>
    match if n == e then rep.val? else some (.entity n) with
    | none => none
    | some (.entity m) => replaceVals e rep (.entity m :: done) vs
    | some (.text c) =>
      match done with
      | .text p :: done' =>
        match vs with
        | .text q :: vs' => replaceVals e rep (.text (p ++ c ++ q) :: done') vs'
        | vs => replaceVals e rep (.text (p ++ c) :: done') vs
      | done => replaceVals e rep (.text c :: done) vs

/-- The loop over the attributes, xmq-cli.c 2634-2647. -/
def replaceAttrs (e : List Byte) (rep : Node) : List Attr → Option (List Attr)
  | [] => some []
  | a :: as =>
    match replaceVals e rep [] a.value, replaceAttrs e rep as with
    | some v, some as' => some (⟨a.name, v⟩ :: as')
    | _, _ => none

mutual
/-- `replace_entity` for something that is not a reference, xmq-cli.c 2634-2655. -/
def replaceNode (e : List Byte) (rep : Node) : Node → Option Node
  | .element t as ks =>
    match replaceAttrs e rep as, replaceSibs e rep [] ks with
    | some as', some ks' => some (.element t as' ks')
    | _, _ => none
  | k => some k
/-- The loop over the children, xmq-cli.c 2649-2653, with the case of a reference, xmq-cli.c 2596-2632: it is replaced by a text
    or by a copy of the node; a text is joined with a text before it, and then with a text behind it.  `done`: the siblings before,
    the last one first. -/
def replaceSibs (e : List Byte) (rep : Node) : List Node → List Node → Option (List Node)
  | done, [] => some done.reverse
  | .text p :: done, .entity n :: .text q :: ks =>
    match if n == e then rep else .entity n with
    | .text c => replaceSibs e rep (.text (p ++ c ++ q) :: done) ks
    | k => replaceSibs e rep (k :: .text p :: done) (.text q :: ks)
  | .text p :: done, .entity n :: ks =>
    match if n == e then rep else .entity n with
    | .text c => replaceSibs e rep (.text (p ++ c) :: done) ks
    | k => replaceSibs e rep (k :: .text p :: done) ks
  | done, .entity n :: ks => replaceSibs e rep ((if n == e then rep else .entity n) :: done) ks
  | done, k :: ks =>
    match replaceNode e rep k with
    | some k' => replaceSibs e rep (k' :: done) ks
    | none => none
end

/-- `replace_entities`, xmq-cli.c 2658-2668.  `none`: `i->next` is read although the node has been freed, or as in `replaceVals`.
    `cmd_replace`, xmq-cli.c 2670-2691, uses NULL when there is no root element. -/
def replaceEntities (e : List Byte) (rep : Node) (doc : List Node) : Option (List Node) :=
  if doc.any isElement then top doc else none
where
  /-- The loop, xmq-cli.c 2663-2667. -/
  top : List Node → Option (List Node)
    | [] => some []
    | .entity n :: ks => if n == e then none else (top ks).map (.entity n :: ·)
    | k :: ks =>
      match replaceNode e rep k, top ks with
      | some k', some ks' => some (k' :: ks')
      | _, _ => none

/-- `command->node_content`, xmq-cli.c 1012-1014, for `--with-file`: the first node of the document. -/
def withFile (doc : List Node) : Option Node := doc.head?

mutual
/-- `substitute_entity`, xmq-cli.c 2693-2738.  `none`: the assertion in `encode_utf8` fails.  The text is a C string.  A reference
    to an entity is never a content node, so nothing happens to it in 2715-2727. -/
def substitute (entity : Option (List Byte)) : Node → Option Node
  | .entity n =>
    if entity == none || entity == some n then
      if peek n == b#'#' then (encodeUtf8 (decodeEntityRef n)).map (fun u => .text (u.takeWhile (· != 0)))
      else some (.entity n)
    else some (.entity n)
  | .element t as ks => (substituteIn entity ks).map (.element t as ·)
  | k => some k
/-- The loop over the children, xmq-cli.c 2732-2737. -/
def substituteIn (entity : Option (List Byte)) : List Node → Option (List Node)
  | [] => some []
  | k :: ks =>
    match substitute entity k, substituteIn entity ks with
    | some k', some ks' => some (k' :: ks')
    | _, _ => none
end

/-- `cmd_substitute`, xmq-cli.c 2740-2764: it goes back to the first node of the document and calls `substitute_entity` for that
    one.  `none`: there is no root element, NULL is used; or as in `substitute`. -/
def cmdSubstitute (entity : Option (List Byte)) (doc : List Node) : Option (List Node) :=
  if doc.any isElement then
    match doc with
    | [] => none
    | k :: ks => (substitute entity k).map (· :: ks)
  else none

end Xmq.EntityCmds
