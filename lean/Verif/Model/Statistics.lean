import Verif.Model.ColourDef
import Verif.Model.Tree
/-!
# The command statistics (xmq-cli.c 2365-2509)

The numbers are without bound (`size_t` in C).  The content of a text, comment or CDATA node is never NULL here.
-/
namespace Xmq.Statistics

/-- A node with the kinds that the command tells apart; `other`: for example a processing instruction. -/
inductive Any
  | element (name : List Byte) (attrs : List (List Byte × List Any)) (kids : List Any)
  | text (s : List Byte)
  | comment (s : List Byte)
  | cdata (s : List Byte)
  | entity (name : List Byte)
  | doctype (name : List Byte)
  | other
  deriving Repr

/-- The fields of `Stats`, xmq-cli.c 250-274, that are used. -/
structure Stats where
  numElements : Nat
  sizeElementNames : Nat
  numTextNodes : Nat
  sizeTextNodes : Nat
  numEntities : Nat
  sizeEntities : Nat
  numAttributes : Nat
  sizeAttributeNames : Nat
  sizeAttributeContent : Nat
  numComments : Nat
  sizeComments : Nat
  hasDoctype : Nat
  sizeDoctype : Nat
  numCdataNodes : Nat
  sizeCdataNodes : Nat
  deriving DecidableEq, Repr

/-- `memset(&stats, 0, sizeof(stats))`, xmq-cli.c 2477. -/
def Stats.zero : Stats := ⟨0, 0, 0, 0, 0, 0, 0, 0, 0, 0, 0, 0, 0, 0, 0⟩

/-- `accumulate_attribute_content`, xmq-cli.c 2442-2449. -/
def attributeContent (st : Stats) : Any → Stats
  | .text s => { st with sizeAttributeContent := st.sizeAttributeContent + s.length }
  | _ => st

/-- `accumulate_attribute`, xmq-cli.c 2384-2397. -/
def oneAttribute (st : Stats) (a : List Byte × List Any) : Stats :=
  a.2.foldl attributeContent
    { st with numAttributes := st.numAttributes + 1, sizeAttributeNames := st.sizeAttributeNames + a.1.length }

mutual
/-- `accumulate_statistics`, xmq-cli.c 2399-2440; for an element with `accumulate_children`, xmq-cli.c 2365-2382. -/
def accumulate (st : Stats) : Any → Stats
  | .element n as ks =>
    accumulateAll (as.foldl oneAttribute
      { st with numElements := st.numElements + 1, sizeElementNames := st.sizeElementNames + n.length }) ks
  | .text s => { st with numTextNodes := st.numTextNodes + 1, sizeTextNodes := st.sizeTextNodes + s.length }
  | .comment s => { st with numComments := st.numComments + 1, sizeComments := st.sizeComments + s.length }
  | .cdata s => { st with numCdataNodes := st.numCdataNodes + 1, sizeCdataNodes := st.sizeCdataNodes + s.length }
  | .entity n => { st with numEntities := st.numEntities + 1, sizeEntities := st.sizeEntities + n.length }
  | .doctype n => { st with hasDoctype := st.hasDoctype + 1, sizeDoctype := st.sizeDoctype + n.length }
  | .other => st
/-- The loops over siblings, xmq-cli.c 2375-2381 and 2455-2460 (`count_statistics`). -/
def accumulateAll (st : Stats) : List Any → Stats
  | [] => st
  | k :: ks => accumulateAll (accumulate st k) ks
end

/-- `add_key_value`, xmq-cli.c 2463-2471. -/
def keyValue (key : List Byte) (value : Nat) : Node := .element key [] [.text (decimal value)]

/-- A line `if (value) add_key_value(…)`. -/
def ifAny (key : List Byte) (value : Nat) : List Node := if value ≠ 0 then [keyValue key value] else []

/-- `cmd_statistics`, xmq-cli.c 2473-2509: the new document.  `source` is `xmqGetOriginalSize`. -/
def cmdStatistics (source : Nat) (doc : List Any) : List Node :=
  let st := accumulateAll Stats.zero doc
  [.element b#"statistics" [] (
    [keyValue b#"size_source" source] ++
    ifAny b#"num_elements" st.numElements ++
    ifAny b#"size_element_names" st.sizeElementNames ++
    ifAny b#"num_text_nodes" st.numTextNodes ++
    ifAny b#"size_text_nodes" st.sizeTextNodes ++
    ifAny b#"num_attributes" st.numAttributes ++
    ifAny b#"size_attribute_names" st.sizeAttributeNames ++
    ifAny b#"size_attribute_content" st.sizeAttributeContent ++
    ifAny b#"num_comments" st.numComments ++
    ifAny b#"size_comments" st.sizeComments ++
    ifAny b#"size_doctype" st.sizeDoctype ++
    ifAny b#"num_cdata_nodes" st.numCdataNodes ++
    ifAny b#"size_cdata_nodes" st.sizeCdataNodes ++
    [keyValue b#"sum_meta" (st.sizeElementNames + st.sizeAttributeNames + st.sizeAttributeContent + st.sizeDoctype)] ++
    [keyValue b#"sum_text" st.sizeTextNodes])]

end Xmq.Statistics
