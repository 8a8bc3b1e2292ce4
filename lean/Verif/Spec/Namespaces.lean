import Verif.Spec.Syntax
/-!
# What a document with namespaces, processing instructions and a doctype means

The meaning follows "Namespaces in XML": a declaration counts for the element it stands on and everything below, unless an
element in between declares the same prefix again; elements without prefix are in the default namespace; attributes without
prefix are in no namespace; `xml` is always bound.
-/
namespace Xmq.Spec

/-- A name: its namespace, its prefix and the name itself. -/
structure QName where
  uri : Option (List Byte)
  pre : Option (List Byte)
  name : List Byte
deriving DecidableEq, Repr

/-- What is declared: `none` is the default namespace. -/
abbrev Env := Option (List Byte) → Option (List Byte)

/-- A node of the document that is meant. -/
inductive XNode
  | text (s : List Byte)
  | entity (name : List Byte)
  | comment (s : List Byte)
  | pi (target content : List Byte)
  | doctype (name : List Byte)
  | element (name : QName) (decls : Env) (attrs : List (QName × List Val)) (kids : List XNode)

/-- A text or a reference as a node. -/
def valNode : Val → XNode
  | .text s => .text s
  | .entity n => .entity n

/-- Neighbouring texts are one text. -/
def joinNodes : List XNode → List XNode
  | [] => []
  | .text a :: ns =>
    match joinNodes ns with
    | .text b :: ms => .text (a ++ b) :: ms
    | ms => .text a :: ms
  | n :: ns => n :: joinNodes ns

/-- The same inside the value of an attribute. -/
def joinValues : List Val → List Val
  | [] => []
  | .text a :: vs =>
    match joinValues vs with
    | .text b :: ws => .text (a ++ b) :: ws
    | ws => .text a :: ws
  | v :: vs => v :: joinValues vs

/-- The text of a bare or quoted value. -/
def SVal.text? : SVal → Option (List Byte)
  | .plain s => some s
  | .quoted s => some s
  | _ => none

/-- The texts and entities of a value, if there is one. -/
def valsOf : Option SVal → List Val
  | none => []
  | some v => v.vals

/-- The declarations of an attribute list. -/
def declared (attrs : List SAttr) : Env := fun p =>
  attrs.findSome? fun
    | .decl q v => if q = p then v.bind SVal.text? else none
    | .attr .. => none

/-- What is declared inside the element.  An empty value takes a declaration back. -/
def extend (env : Env) (attrs : List SAttr) : Env := fun p =>
  match declared attrs p with
  | some u => if u.isEmpty then none else some u
  | none => env p

/-- The name of an element. -/
def elementName (env : Env) (pre : Option (List Byte)) (name : List Byte) : QName :=
  match env pre with
  | some u => ⟨some u, pre, name⟩
  | none => ⟨none, none, name⟩

/-- The name of an attribute. -/
def attributeQName (env : Env) (pre : Option (List Byte)) (name : List Byte) : QName :=
  match pre with
  | none => ⟨none, none, name⟩
  | some p => elementName env (some p) name

/-- The attributes of an element. -/
def attributesOf (env : Env) (attrs : List SAttr) : List (QName × List Val) :=
  attrs.filterMap fun
    | .decl .. => none
    | .attr p n v => some (attributeQName env p n, joinValues (valsOf v))

/-- `!DOCTYPE`. -/
def isDoctype (pre : Option (List Byte)) (name : List Byte) : Bool := pre == none && name == b#"!DOCTYPE"

/-- A processing instruction. -/
def isPi (pre : Option (List Byte)) (name : List Byte) : Bool := pre == none && name.head? == some b#'?'

mutual
/-- The meaning of a node. -/
def resolveNode (env : Env) : SNode → XNode
  | .val v => valNode v
  | .comment s => .comment s
  | .element pre name attrs value kids =>
    if isDoctype pre name then .doctype ((value.bind SVal.text?).getD [])
    else if isPi pre name then .pi (name.drop 1) ((value.bind SVal.text?).getD [])
    else .element (elementName (extend env (attrs.getD [])) pre name) (declared (attrs.getD []))
      (attributesOf (extend env (attrs.getD [])) (attrs.getD []))
      (joinNodes ((valsOf value).map valNode ++ resolveNodes (extend env (attrs.getD [])) kids))
/-- The meaning of each node of a list. -/
def resolveNodes (env : Env) : List SNode → List XNode
  | [] => []
  | n :: ns => resolveNode env n :: resolveNodes env ns
end

/-- What is declared outside of the document. -/
def topEnv : Env := fun p => if p = some b#"xml" then some b#"http://www.w3.org/XML/1998/namespace" else none

/-- The meaning of a document. -/
def resolve (d : List SNode) : List XNode := joinNodes (resolveNodes topEnv d)

/-! ## Documents that avoid the places where the code does something else -/

/-- The attributes `seen` declare the prefix. -/
def declares (seen : List SAttr) (p : Option (List Byte)) : Bool :=
  seen.any fun
    | .decl q _ => q == p
    | .attr .. => false

/-- One of the attributes `seen` has the prefix. -/
def uses (seen : List SAttr) (p : List Byte) : Bool :=
  seen.any fun
    | .decl .. => false
    | .attr q _ _ => q == some p

/-- The declaration has a bare or quoted, not empty value, and says nothing else than what is known of the prefix. -/
def tameDecl (root : Bool) (env : Env) (p : Option (List Byte)) (v : Option SVal) : Bool :=
  match v.bind SVal.text? with
  | some u => !u.isEmpty && p != some b#"xml" &&
    (match p with
     | none => root
     | some q => env (some q) == none || env (some q) == some u)
  | none => false

/-- Each prefix is declared once.  A prefixed attribute comes after the declaration, which may be on an outer element, or it is
    the first to use a prefix that is declared behind it. -/
def tameAttrs (root : Bool) (env : Env) (pre : Option (List Byte)) : List SAttr → List SAttr → Bool
  | _, [] => true
  | seen, .decl p v :: as => !declares seen p && tameDecl root env p v && tameAttrs root env pre (seen ++ [.decl p v]) as
  | seen, .attr none n v :: as => tameAttrs root env pre (seen ++ [.attr none n v]) as
  | seen, .attr (some p) n v :: as =>
    ((env (some p)).isSome || declares seen (some p) || (pre != some p && !uses seen p && declares as (some p))) &&
      tameAttrs root env pre (seen ++ [.attr (some p) n v]) as

/-- A processing instruction has just a value, which is not empty and has no quote at its ends. -/
def tamePi (attrs : Option (List SAttr)) (value : Option SVal) (kids : List SNode) : Bool :=
  attrs.isNone && kids.isEmpty &&
    match value.bind SVal.text? with
    | some u => !u.isEmpty && u.head? != some b#'\'' && u.getLast? != some b#'\''
    | none => false

mutual
/-- A node below the root, or the root. -/
def tameNode (root : Bool) (env : Env) : SNode → Bool
  | .val _ => true
  | .comment _ => true
  | .element pre name attrs value kids =>
    if isPi pre name then tamePi attrs value kids
    else name != b#"!DOCTYPE" && name.head? != some b#'?' &&
      (match pre with | none => true | some p => (env (some p)).isSome || declares (attrs.getD []) (some p)) &&
      tameAttrs root env pre [] (attrs.getD []) && tameNodes (extend env (attrs.getD [])) kids
/-- Nodes below the root. -/
def tameNodes (env : Env) : List SNode → Bool
  | [] => true
  | n :: ns => tameNode false env n && tameNodes env ns
end

/-- The document: at most one doctype, with a bare value and before the element, and at most one element at the top. -/
def tameTop (doctype root : Bool) : List SNode → Bool
  | [] => true
  | .element pre name attrs value kids :: ns =>
    if isDoctype pre name then
      (match value with | some (.plain _) => attrs.isNone && kids.isEmpty && (doctype && root) | _ => false) && tameTop false root ns
    else if isPi pre name then tameNode true topEnv (.element pre name attrs value kids) && tameTop doctype root ns
    else root && tameNode true topEnv (.element pre name attrs value kids) && tameTop doctype false ns
  | _ :: ns => tameTop doctype root ns

/-- The guard. -/
def Tame (d : List SNode) : Prop := tameTop true true d = true

end Xmq.Spec
