import Verif.Model.Printer
/-!
# The document tree and how it is printed as xmq (parts/xmq_printer.c 153-499, parts/xml.c)

The tree is what libxml2 keeps: elements with attributes and children, texts, entity references and comments.  Left out are
namespaces, processing instructions and doctypes (their printed text comes out of libxml2), and CDATA nodes.
-/
namespace Xmq

/-- An attribute with its child nodes (`xmlAttr`). -/
structure Attr where
  name : List Byte
  value : List Val
deriving DecidableEq, Repr

/-- A node of the document (`xmlNode`). -/
inductive Node
  | text (s : List Byte)
  | entity (name : List Byte)
  | comment (s : List Byte)
  | element (name : List Byte) (attrs : List Attr) (kids : List Node)
deriving Repr

mutual
/-- Equality of nodes is decidable (a means to compute with concrete documents). -/
def Node.decEq : (a b : Node) → Decidable (a = b)
  | .text s, .text t => if h : s = t then isTrue (h ▸ rfl) else isFalse (fun e => h (Node.text.inj e))
  | .entity s, .entity t => if h : s = t then isTrue (h ▸ rfl) else isFalse (fun e => h (Node.entity.inj e))
  | .comment s, .comment t => if h : s = t then isTrue (h ▸ rfl) else isFalse (fun e => h (Node.comment.inj e))
  | .element n as ks, .element m bs ls =>
    if h : n = m ∧ as = bs then
      match Node.decEqs ks ls with
      | isTrue hk => isTrue (by rw [h.1, h.2, hk])
      | isFalse hk => isFalse (fun e => hk (Node.element.inj e).2.2)
    else isFalse (fun e => h ⟨(Node.element.inj e).1, (Node.element.inj e).2.1⟩)
  | .text _, .entity _ => isFalse (fun e => nomatch e)
  | .text _, .comment _ => isFalse (fun e => nomatch e)
  | .text _, .element _ _ _ => isFalse (fun e => nomatch e)
  | .entity _, .text _ => isFalse (fun e => nomatch e)
  | .entity _, .comment _ => isFalse (fun e => nomatch e)
  | .entity _, .element _ _ _ => isFalse (fun e => nomatch e)
  | .comment _, .text _ => isFalse (fun e => nomatch e)
  | .comment _, .entity _ => isFalse (fun e => nomatch e)
  | .comment _, .element _ _ _ => isFalse (fun e => nomatch e)
  | .element _ _ _, .text _ => isFalse (fun e => nomatch e)
  | .element _ _ _, .entity _ => isFalse (fun e => nomatch e)
  | .element _ _ _, .comment _ => isFalse (fun e => nomatch e)
/-- Equality of lists of nodes. -/
def Node.decEqs : (a b : List Node) → Decidable (a = b)
  | [], [] => isTrue rfl
  | [], _ :: _ => isFalse (fun e => nomatch e)
  | _ :: _, [] => isFalse (fun e => nomatch e)
  | a :: as, b :: bs =>
    match Node.decEq a b, Node.decEqs as bs with
    | isTrue h, isTrue k => isTrue (by rw [h, k])
    | isFalse h, _ => isFalse (fun e => h (List.cons.inj e).1)
    | _, isFalse k => isFalse (fun e => k (List.cons.inj e).2)
end

instance : DecidableEq Node := Node.decEq

/-- A text or entity reference node as child of an attribute. -/
def Val.node : Val → Node
  | .text s => .text s
  | .entity n => .entity n

/-- The other direction. -/
def Node.val? : Node → Option Val
  | .text s => some (.text s)
  | .entity n => some (.entity n)
  | _ => none

/-- `is_key_value_node`, parts/xml.c 153-178, with the children as values: there are children and all of them are texts
    or entity references. -/
def keyValues (kids : List Node) : Option (List Val) := if kids.isEmpty then none else kids.mapM Node.val?

/-- `print_comment_lines` and its loops, parts/xmq_printer.c 208-252: the lines behind the first newline.  `prevNl` tells
    whether the byte before this line's end position belongs to the previous newline, i.e. whether the line is empty.
    The first line has been printed. -/
def PS.commentRest (cfg : OutCfg) (numSlashes : Nat) : Nat → PS → List Byte → PS
  | 0, ps, _ => ps
  | k + 1, ps, s =>
    match s with
    | [] => ps
    | _ :: _ =>
      let line := s.takeWhile (· != b#'\n')
      let rest := s.drop line.length
      let ps :=
        if cfg.compact then ps.write (b#'*' :: (List.replicate numSlashes b#'/' ++ [b#'*']))
        else if !rest.isEmpty && line.isEmpty && rest.length > 1 then ps.nl
        else ps.nlIndent cfg
      PS.commentRest cfg numSlashes k (ps.printSpan line) (rest.drop 1)

/-- `print_comment_lines`, parts/xmq_printer.c 191-257, for a text with a newline. -/
def PS.commentLines (cfg : OutCfg) (ps : PS) (s : List Byte) : PS :=
  let n := countNecessarySlashes s
  let ps := ps.write (List.replicate n b#'/' ++ [b#'*'])
  let addSpaces := ps.cur + 1 + n
  let ps := if !cfg.compact && peek s != b#'\n' then ps.whiteSpaces cfg 1 else ps
  let prev := ps.line
  let ps := { ps with line := if !cfg.compact then addSpaces + 1 else addSpaces }
  let line := s.takeWhile (· != b#'\n')
  let ps := PS.commentRest cfg n s.length (ps.printSpan line) (s.drop (line.length + 1))
  let ps := if !cfg.compact then ps.whiteSpaces cfg 1 else ps
  { ps.write (b#'*' :: List.replicate n b#'/') with last := b#'/', line := prev }

/-- `print_comment_node`, parts/xmq_printer.c 259-286. -/
def PS.commentNode (cfg : OutCfg) (ps : PS) (s : List Byte) : PS :=
  let ps := ps.beforeComment cfg
  if !hasNewlines s then
    if cfg.compact then { ((ps.print b#"/*").printSpan s).print b#"*/" with last := b#'/' }
    else { (ps.print b#"// ").printSpan s with last := 1 }
  else { ps.commentLines cfg s with last := b#'/' }

/-- Number of characters of a name, `str_b_u_len`, parts/text.c 367-391. -/
def nameWidth (s : List Byte) : Nat := (s.filter fun c => !isCont c).length

/-- `is_single_empty_text_node(a->children)` or no children, parts/xmq_printer.c 876 and parts/xml.c 180-187.  Only the
    first child is looked at. -/
def noAttrValue : List Val → Bool
  | [] => true
  | .text [] :: _ => true
  | _ => false

/-- `print_attribute`, parts/xmq_printer.c 859-886. -/
def PS.attribute (cfg : OutCfg) (align : Nat) (ps : PS) (a : Attr) : PS :=
  let ps := (ps.beforeAttribute cfg).print a.name
  if noAttrValue a.value then ps
  else
    let ps := if !cfg.compact then ps.whiteSpaces cfg (1 + align - nameWidth a.name) else ps
    let ps := ps.print b#"="
    let ps := if !cfg.compact then ps.whiteSpaces cfg 1 else ps
    ps.value cfg a.value .attrValue

/-- `print_attributes`, parts/xmq_printer.c 924-950, without namespace declarations. -/
def PS.attributes (cfg : OutCfg) (ps : PS) (attrs : List Attr) : PS :=
  let max := if !cfg.compact then attrs.foldl (fun m a => max m (nameWidth a.name)) 0 else 0
  let line := ps.line
  { attrs.foldl (PS.attribute cfg max) { ps with line := ps.cur } with line := line }

/-- `print_element_name_and_attributes`, parts/xmq_printer.c 288-337, without namespaces. -/
def PS.nameAndAttributes (cfg : OutCfg) (ps : PS) (name : List Byte) (attrs : List Attr) : PS :=
  let ps := (ps.beforeKey cfg).print name
  if attrs.isEmpty then ps else ((ps.print b#"(").attributes cfg attrs).print b#")"

/-- `print_key_node`, parts/xmq_printer.c 345-362, behind the name and the attributes.  `current_indent - line_indent` may
    wrap around to a large number, which prints one space like the subtraction in `Nat` with a test. -/
def PS.keyValue (cfg : OutCfg) (ps : PS) (align : Nat) (v : List Val) : PS :=
  let ps := if !cfg.compact then
      let pad := if ps.line ≤ ps.cur ∧ ps.cur - ps.line < align then 1 + align - (ps.cur - ps.line) else 1
      ps.whiteSpaces cfg pad
    else ps
  let ps := ps.print b#"="
  let ps := if !cfg.compact then ps.whiteSpaces cfg 1 else ps
  ps.value cfg v .elementValue

/-- The node is suited for the alignment of the equal signs, parts/xmq_internals.c 559: the width of its name. -/
def alignWidth : Node → Option Nat
  | .element name [] kids => if (keyValues kids).isSome then some (nameWidth name) else none
  | _ => none

/-- `find_element_key_max_width`, parts/xmq_internals.c 553-575: the width and the distance to the node where the search is
    to be restarted (`none` for NULL). -/
def keyMaxWidth : List Node → Nat → Nat → Nat × Option Nat
  | [], max, _ => (max, none)
  | n :: t, max, dist =>
    match alignWidth n with
    | none => (max, some (if dist = 0 then 1 else dist))
    | some w => keyMaxWidth t (if w > max then w else max) (dist + 1)

mutual
/-- `print_node`, parts/xmq_printer.c 453-499. -/
def PS.node (cfg : OutCfg) (ps : PS) (align : Nat) : Node → PS
  | .text s => ps.value cfg [.text s] .xmq
  | .entity name => ps.entityNode cfg name
  | .comment s => ps.commentNode cfg s
  | .element name attrs kids =>
    let ps := ps.nameAndAttributes cfg name attrs
    if kids.isEmpty then ps
    else
      match keyValues kids with
      | some v => ps.keyValue cfg align v
      | none =>
        let ps := (ps.beforeOpeningBrace cfg).print b#"{"
        let line := ps.line
        let ps := PS.nodes cfg { ps with line := line + cfg.addIndent } (some 0) 0 kids
        ({ ps with line := line }.beforeClosingBrace cfg).print b#"}"
/-- `print_nodes`, parts/xmq_printer.c 153-170.  `restart` is the distance to `restart_find_at_node`, `max` the current
    width of the names. -/
def PS.nodes (cfg : OutCfg) (ps : PS) (restart : Option Nat) (max : Nat) : List Node → PS
  | [] => ps
  | n :: t =>
    let r : Nat × Option Nat := if !cfg.compact && restart == some 0 then keyMaxWidth (n :: t) 0 0 else (max, restart)
    PS.nodes cfg (PS.node cfg ps r.1 n) (r.2.map (· - 1)) r.1 t
end

/-- `xmq_print_xmq`, xmq.c 2925-2956, without a theme.  Nothing is printed for an empty document. -/
def printDoc (cfg : OutCfg) (nodes : List Node) : List Byte :=
  let cfg := if cfg.compact then { cfg with escapeNewlines := true } else cfg
  if nodes.isEmpty then [] else (PS.nodes cfg ⟨[], 0, 0, 0⟩ (some 0) 0 nodes).out ++ [b#'\n']

/-- The settings of `xmqNewOutputSettings` (xmq.c 675-690), pretty printing. -/
def prettyCfg : OutCfg := ⟨false, false, false, false, 4, [b#' ']⟩

/-- The same with compact printing (`xmqSetCompact`). -/
def compactCfg : OutCfg := ⟨true, true, false, false, 4, [b#' ']⟩

end Xmq
