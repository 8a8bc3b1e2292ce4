import Verif.Model.Earley
/-!
# Reading a content with a grammar in invisible XML

`xmqParseBufferWithIXML`, xmq.c 4594-4654, without error recovery and with one parse.
-/
namespace Xmq.Ixml
open Xmq.Yaep (parseWith dress)

/-- What is kept with a grammar that has been read: `ixml_rules`, the sets among `ixml_non_terminals`, and `yaep_j_`, the number of rules
which have been handed to the Earley parser (parts/xmq_internals.h 360-381). -/
structure Kept where
  rules : List Rule
  sets : List CSet
  handed : Nat
deriving Repr

/-- After `ixml_build_yaep_grammar`, parts/ixml.c 1510-1562. -/
def Kept.fresh (st : St) : Kept := ⟨st.rules, st.sets, 0⟩

/-- The outcome of `xmqParseBufferWithIXML`. -/
inductive Outcome where
  /-- The content is not UTF-8, or a set has an unknown category: `exit(1)`. -/
  | exits
  /-- `used[uc]` is written outside of its memory. -/
  | outside
  /-- The grammar is refused by yaep: `longjmp`, xmq.c 4613-4619. -/
  | refused
  /-- The Earley parser comes to no result. -/
  | stopped
  /-- There is a parse: what is added to the document, and whether the warning about ambiguity is printed. -/
  | document (ps : List Piece) (warning : Bool)
  /-- There is no parse: the document is left as it is. -/
  | nothing (token : Nat)
deriving Repr

/-- The value that `xmqParseBufferWithIXML` returns, if it returns: `rc` of `yaepParse` is 0 also after a syntax error, xmq.c 4638-4653. -/
def Outcome.returned : Outcome → Option Bool
  | .document .. => some true
  | .nothing _ => some true
  | _ => none

/-- `xmqParseBufferWithIXML`: `scan_content_fixup_charsets` (parts/ixml.c 1715-1868) adds rules for the sets; `ixml_to_yaep_read_rule` (1444-1504)
hands over the rules from `yaep_j_` on; then `yaepParse` and `generate_dom_from_yaep_node`. -/
def parseBuffer (k : Kept) (content : List Byte) : Outcome × Kept :=
  match scanContent content with
  | .broken => (.exits, k)
  | .outside _ => (.outside, k)
  | .used w =>
    match k.sets.mapM (setRules fun c => w.contains c) with
    | none => (.exits, k)
    | some l =>
      let rules := k.rules ++ l.flatten
      let given := rules.drop k.handed
      (match parseWith given (w.map Int.ofNat) with
        | none => .refused
        | some (.stopped _) => .stopped
        | some (.noTree i) => .nothing i
        | some (.tree t amb) => .document (pieces (dress given 0 t)) amb,
       ⟨rules, k.sets, rules.length⟩)

end Xmq.Ixml
