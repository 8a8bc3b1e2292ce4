import Verif.Model.Ixml
/-!
# All parses of a text in one document (parts/yaep.c 6399-6433, xmq.c 4442-4592)

With `--ixml-all-parses` the Earley parser puts every reading of a part of the text into the same place; the second and later ones
make a chain of `YAEP_ALT` nodes.  The document then gets an element AMBIGUOUS with all of them.  A failing assertion is `none`.
`YAEP_NIL` and `YAEP_ERROR` do not occur: all rules of ixml have a node and there is no error recovery.  Sharing of nodes is not
seen here, see Model/FreeTree.
-/
namespace Xmq.Forest

open Xmq.Ixml

/-- A `YaepTreeNode *`, parts/yaep.h: `null` is the null pointer. -/
inductive Forest where
  | null
  | term (mark : Byte) (code : Nat)
  | node (name : List Byte) (mark : Byte) (children : List Forest)
  | alt (this : Forest) (next : Forest)
deriving Repr

/-- `place_translation`, parts/yaep.c 6399-6433: the content of the place afterwards. -/
def place : Forest → Forest → Forest
  | .null, n => n
  | .alt a b, n => .alt n (.alt a b)
  | p, n => .alt n (.alt p .null)

/-- The readings put into an empty place one after the other, parts/yaep.c 6399-6433. -/
def placeAll (ns : List Forest) : Forest := ns.foldl place .null

mutual
/-- `collect_text`, xmq.c 4444-4472: fails for an ambiguous node. -/
def collect : Forest → Option (List Byte)
  | .null => some []
  | .term m c => some (if m ≠ b#'-' then codeBytes c else [])
  | .node _ _ ks => collects ks
  | .alt _ _ => none
/-- The loop over the children, xmq.c 4450-4454: it ends at the first null pointer. -/
def collects : List Forest → Option (List Byte)
  | [] => some []
  | .null :: _ => some []
  | k :: ks => match collect k with
    | none => none
    | some a => (collects ks).map (a ++ ·)
end

mutual
/-- `generate_dom_from_yaep_node`, xmq.c 4474-4592: what is added to the node, in order. -/
def gen : Forest → Option (List Piece)
  | .null => some []
  | .term m c => some (if m ≠ b#'-' then [.text (codeBytes c)] else [])
  | .node nm m ks =>
    if nm.take 2 = b#"|+" then some [.text (nm.drop 2)]
    else if m = b#'-' then gens ks
    else if m = b#'@' then (collects ks).map fun v => [.attr nm v]
    else (gens ks).map fun ps => [.elem nm ps]
  | .alt n nx => match gen n with
    | none => none
    | some a => (genAlts nx).map fun b => [.elem b#"AMBIGUOUS" (a ++ b)]
/-- The loops over the children, xmq.c 4522-4526 and 4532-4536: they end at the first null pointer. -/
def gens : List Forest → Option (List Piece)
  | [] => some []
  | .null :: _ => some []
  | k :: ks => match gen k with
    | none => none
    | some a => (gens ks).map (a ++ ·)
/-- The loop over the further alternatives, xmq.c 4556-4562. -/
def genAlts : Forest → Option (List Piece)
  | .alt n nx => match gen n with
    | none => none
    | some a => (genAlts nx).map (a ++ ·)
  | _ => some []
end

end Xmq.Forest
