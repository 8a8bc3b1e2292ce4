import Verif.Model.Tree
import Verif.Model.NsBuild
/-!
# How a document with namespaces, processing instructions and a doctype is printed as xmq (parts/xmq_printer.c 153-499, 859-950)

`Verif.Model.Tree` leaves them out; this is the same part of the code with them.  The tree is that of `Verif.Model.NsBuild`.

Used of libxml2: `xmlNodeDump` writes a processing instruction as `<?target content?>` and a doctype without identifiers and
declarations as `<!DOCTYPE name>`.  The content of a processing instruction must not be empty: behind `<?target?>` and
`<?target ?>` the code looks at bytes outside of the content (`printNs` is `none` then).  CDATA nodes and doctypes with
identifiers or declarations are not modelled.
-/
namespace Xmq

/-- `node->ns->prefix`, parts/xml.c 93-97. -/
def nsPrefix (heap : List Ns) (ns : Option Nat) : Option (List Byte) := (ns.bind (heap[·]?)).bind (·.pre)

/-- A name behind its prefix, parts/xmq_printer.c 302-325 and 869-874. -/
def PS.prefixed (ps : PS) (pre : Option (List Byte)) (name : List Byte) : PS :=
  match pre with
  | some p => ((ps.print p).print b#":").print name
  | none => ps.print name

/-- `total_u_len` of `attr_strlen_name_prefix` and `element_strlen_name_prefix`, parts/xmq_internals.c 408-483. -/
def prefixedWidth (pre : Option (List Byte)) (name : List Byte) : Nat :=
  match pre with
  | some p => nameWidth name + nameWidth p + 1
  | none => nameWidth name

/-- `total_u_len` of `namespace_strlen_prefix`, parts/xmq_internals.c 433-452. -/
def declWidth (n : Ns) : Nat :=
  match n.pre with
  | some p => 5 + nameWidth p + 1
  | none => 5

/-- `print_attribute`, parts/xmq_printer.c 859-886. -/
def PS.nsAttribute (cfg : OutCfg) (heap : List Ns) (align : Nat) (ps : PS) (a : NAttr) : PS :=
  let pre := nsPrefix heap a.ns
  let ps := (ps.beforeAttribute cfg).prefixed pre a.name
  if noAttrValue a.value then ps
  else
    let ps := if !cfg.compact then ps.whiteSpaces cfg (1 + align - prefixedWidth pre a.name) else ps
    let ps := ps.print b#"="
    let ps := if !cfg.compact then ps.whiteSpaces cfg 1 else ps
    ps.value cfg a.value .attrValue

/-- `print_namespace_declaration`, parts/xmq_printer.c 888-921. -/
def PS.nsDeclaration (cfg : OutCfg) (align : Nat) (ps : PS) (n : Ns) : PS :=
  let ps := (ps.beforeAttribute cfg).print b#"xmlns"
  let ps := match n.pre with
    | some p => (ps.print b#":").print p
    | none => ps
  match n.href with
  | none => ps
  | some v =>
    let ps := if !cfg.compact then ps.whiteSpaces cfg (1 + align - declWidth n) else ps
    let ps := ps.print b#"="
    let ps := if !cfg.compact then ps.whiteSpaces cfg 1 else ps
    PS.internalText cfg .attrValue (v.length + 1) ps v

/-- `print_attributes`, parts/xmq_printer.c 924-950: the attributes, then the declarations. -/
def PS.nsAttributes (cfg : OutCfg) (heap : List Ns) (ps : PS) (attrs : List NAttr) (decls : List Ns) : PS :=
  let max := if !cfg.compact then
      decls.foldl (fun m n => max m (declWidth n)) (attrs.foldl (fun m a => max m (prefixedWidth (nsPrefix heap a.ns) a.name)) 0)
    else 0
  let line := ps.line
  { decls.foldl (PS.nsDeclaration cfg max) (attrs.foldl (PS.nsAttribute cfg heap max) { ps with line := ps.cur }) with line := line }

/-- `print_element_name_and_attributes`, parts/xmq_printer.c 288-337. -/
def PS.nsName (cfg : OutCfg) (heap : List Ns) (ps : PS) (name : List Byte) (ns : Option Nat) (defs : List Nat) (attrs : List NAttr) : PS :=
  let ps := (ps.beforeKey cfg).prefixed (nsPrefix heap ns) name
  if attrs.isEmpty && defs.isEmpty then ps
  else ((ps.print b#"(").nsAttributes cfg heap attrs (defs.filterMap (heap[·]?))).print b#")"

/-- `is_key_value_node`, parts/xml.c 153-178, with the children as values. -/
def nsKeyValues (kids : List NNode) : Option (List Val) := if kids.isEmpty then none else kids.mapM NNode.val?

/-- The node is suited for the alignment of the equal signs, parts/xmq_internals.c 559: declarations do not count as attributes. -/
def nsAlignWidth (heap : List Ns) : NNode → Option Nat
  | .element name ns _ [] kids => if (nsKeyValues kids).isSome then some (prefixedWidth (nsPrefix heap ns) name) else none
  | _ => none

/-- `find_element_key_max_width`, parts/xmq_internals.c 553-575, as `keyMaxWidth`. -/
def nsKeyMaxWidth (heap : List Ns) : List NNode → Nat → Nat → Nat × Option Nat
  | [], max, _ => (max, none)
  | n :: t, max, dist =>
    match nsAlignWidth heap n with
    | none => (max, some (if dist = 0 then 1 else dist))
    | some w => nsKeyMaxWidth heap t (if w > max then w else max) (dist + 1)

/-- What follows the name of a processing instruction or doctype, parts/xmq_printer.c 393-395 and 419-421. -/
def PS.plainEquals (cfg : OutCfg) (ps : PS) : PS :=
  let ps := if !cfg.compact then ps.whiteSpaces cfg 1 else ps
  let ps := ps.print b#"="
  if !cfg.compact then ps.whiteSpaces cfg 1 else ps

/-- In compact output newlines become spaces, parts/xmq_printer.c 400-408 and 435-441. -/
def flatLines (cfg : OutCfg) (s : List Byte) : List Byte :=
  if cfg.compact then s.map fun c => if c == b#'\n' then b#' ' else c else s

/-- `print_doctype`, parts/xmq_printer.c 387-411. -/
def PS.doctype (cfg : OutCfg) (ps : PS) (name : List Byte) : PS :=
  let v := flatLines cfg name
  PS.internalText cfg .elementValue (v.length + 1) (((ps.beforeKey cfg).print b#"!DOCTYPE").plainEquals cfg) v

/-- `print_pi_node`, parts/xmq_printer.c 413-451.  For an empty content see above. -/
def PS.piNode (cfg : OutCfg) (ps : PS) (target content : List Byte) : PS :=
  let v := flatLines cfg ((addEdgeSpaces content).getD [])
  PS.internalText cfg .elementValue (v.length + 1) ((((ps.beforeKey cfg).print b#"?").print target).plainEquals cfg) v

mutual
/-- `print_node`, parts/xmq_printer.c 453-499. -/
def PS.nsNode (cfg : OutCfg) (heap : List Ns) (ps : PS) (align : Nat) : NNode → PS
  | .text s => ps.value cfg [.text s] .xmq
  | .entity name => ps.entityNode cfg name
  | .comment s => ps.commentNode cfg s
  | .pi target content => ps.piNode cfg target content
  | .dtd name => ps.doctype cfg name
  | .element name ns defs attrs kids =>
    let ps := ps.nsName cfg heap name ns defs attrs
    if kids.isEmpty then ps
    else
      match nsKeyValues kids with
      | some v => ps.keyValue cfg align v
      | none =>
        let ps := (ps.beforeOpeningBrace cfg).print b#"{"
        let line := ps.line
        let ps := PS.nsNodes cfg heap { ps with line := line + cfg.addIndent } (some 0) 0 kids
        ({ ps with line := line }.beforeClosingBrace cfg).print b#"}"
/-- `print_nodes`, parts/xmq_printer.c 153-170, as `PS.nodes`. -/
def PS.nsNodes (cfg : OutCfg) (heap : List Ns) (ps : PS) (restart : Option Nat) (max : Nat) : List NNode → PS
  | [] => ps
  | n :: t =>
    let r : Nat × Option Nat := if !cfg.compact && restart == some 0 then nsKeyMaxWidth heap (n :: t) 0 0 else (max, restart)
    PS.nsNodes cfg heap (PS.nsNode cfg heap ps r.1 n) (r.2.map (· - 1)) r.1 t
end

mutual
/-- There is a processing instruction without content. -/
def emptyPi : NNode → Bool
  | .pi _ c => c.isEmpty
  | .element _ _ _ _ kids => emptyPis kids
  | _ => false
/-- The same for a list of nodes. -/
def emptyPis : List NNode → Bool
  | [] => false
  | n :: t => emptyPi n || emptyPis t
end

/-- `xmq_print_xmq`, xmq.c 2925-2956, as `printDoc`; `none` is undefined behaviour. -/
def printNs (cfg : OutCfg) (heap : List Ns) (nodes : List NNode) : Option (List Byte) :=
  let cfg := if cfg.compact then { cfg with escapeNewlines := true } else cfg
  if emptyPis nodes then none
  else if nodes.isEmpty then some []
  else some ((PS.nsNodes cfg heap ⟨[], 0, 0, 0⟩ (some 0) 0 nodes).out ++ [b#'\n'])

end Xmq
