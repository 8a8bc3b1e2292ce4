import Verif.Spec.NsTree
import Verif.Spec.Document
/-!
# Documents with namespaces that survive printing
-/
namespace Xmq.Spec

/-- The prefix of the namespace a node points to. -/
def prefixOf (heap : List Ns) (ns : Option Nat) : Option (List Byte) := (ns.bind (heap[·]?)).bind (·.pre)

/-- The attribute as it is written. -/
def writtenAttr (heap : List Ns) (a : NAttr) : SAttr :=
  .attr (prefixOf heap a.ns) a.name (if a.value = [] ∨ a.value = [.text []] then none else some (.many a.value))

/-- The declaration as it is written. -/
def writtenDecl (n : Ns) : SAttr := .decl n.pre (n.href.map .quoted)

mutual
/-- A node written down: each name with the prefix of its namespace, attributes before declarations. -/
def asWritten (heap : List Ns) : NNode → SNode
  | .text s => .val (.text s)
  | .entity n => .val (.entity n)
  | .comment s => .comment s
  | .pi t c => .element none (63 :: t) none (some (.quoted c)) []
  | .dtd n => .element none b#"!DOCTYPE" none (some (.plain n)) []
  | .element name ns defs attrs kids =>
    .element (prefixOf heap ns) name (some (attrs.map (writtenAttr heap) ++ (defs.filterMap (heap[·]?)).map writtenDecl)) none (allWritten heap kids)
/-- Nodes written down. -/
def allWritten (heap : List Ns) : List NNode → List SNode
  | [] => []
  | n :: ns => asWritten heap n :: allWritten heap ns
end

/-! ## Trees in which every prefix stands for the namespace it is declared to be -/

/-- What is declared inside an element with these declarations. -/
def inScope (env decls : Env) : Env := fun p =>
  match decls p with
  | some u => if u.isEmpty then none else some u
  | none => env p

/-- The name of an element or attribute points to the namespace that its prefix is declared to be.  An element without a
    namespace is not where a default namespace is declared; an attribute in a namespace has a prefix. -/
def boundName (env : Env) (heap : List Ns) (attr : Bool) (ns : Option Nat) : Bool :=
  match ns.bind (heap[·]?) with
  | none => attr || (env none).isNone
  | some n => n.href.isSome && env n.pre == n.href && (n.pre.isSome || !attr)

/-- No two texts are next to each other. -/
def apart : List Val → Bool
  | .text _ :: .text _ :: _ => false
  | _ :: vs => apart vs
  | [] => true

/-- The same for nodes. -/
def apartNodes : List NNode → Bool
  | .text _ :: .text _ :: _ => false
  | _ :: ns => apartNodes ns
  | [] => true

mutual
/-- All names in a node are bound, declarations have values, and texts are apart. -/
def boundNode (env : Env) (heap : List Ns) : NNode → Bool
  | .element _ ns defs attrs kids =>
    boundName (inScope env (nsDecls heap defs)) heap false ns &&
    attrs.all (fun a => boundName (inScope env (nsDecls heap defs)) heap true a.ns && a.value != [.text []] && apart a.value) &&
    (defs.filterMap (heap[·]?)).all (·.href.isSome) &&
    apartNodes kids && boundNodes (inScope env (nsDecls heap defs)) heap kids
  | _ => true
/-- The same for a list of nodes. -/
def boundNodes (env : Env) (heap : List Ns) : List NNode → Bool
  | [] => true
  | n :: ns => boundNode env heap n && boundNodes env heap ns
end

/-- The document is bound. -/
def BoundTree (heap : List Ns) (doc : List NNode) : Prop := (apartNodes doc && boundNodes topEnv heap doc) = true

/-- A text of one line that is printed bare or as one quote: not empty, not blank, no stray continuation byte,
    nothing to escape, no quote at its ends, no three quotes in a row, and if it need not be quoted it does not end in `=` or, in compact output, in `/` or `;`. -/
structure LineSafe (cfg : OutCfg) (s : List Byte) : Prop where
  noStray : NoStray s
  ne : s ≠ []
  line : (10 : Byte) ∉ s
  plain : ∀ b ∈ s, ¬ EscapedByte cfg b
  notBlank : ∃ b ∈ s, ¬ White b
  head : s.head? ≠ some 39
  last : s.getLast? ≠ some 39
  noTriple : ¬ [39, 39, 39] <:+: s
  bare : HasDelimiter s ∨ ∀ c, s.getLast? = some c → c ≠ 61 ∧ (cfg.compact = true → c ≠ 47 ∧ c ≠ 59)

/-- The name of an element with its prefix. -/
def ElementNameNs (pre : Option (List Byte)) (name : List Byte) : Prop :=
  match pre with
  | none => ElementName name
  | some p => ElementName p ∧ name ≠ [] ∧ ∀ b ∈ name, LocalNameByte b

/-- The name of an attribute with its prefix. -/
def AttrNameNs (pre : Option (List Byte)) (name : List Byte) : Prop :=
  match pre with
  | none => AttrName name
  | some p => AttrName p ∧ name ≠ [] ∧ ∀ b ∈ name, LocalNameByte b

/-- The prefix of a declaration. -/
def DeclSafe (cfg : OutCfg) (n : Ns) : Prop :=
  (∀ p, n.pre = some p → p ≠ [] ∧ ∀ b ∈ p, LocalNameByte b) ∧ ∀ u, n.href = some u → LineSafe cfg u

/-- A processing instruction. -/
def PiSafe (cfg : OutCfg) (target content : List Byte) : Prop :=
  target ≠ [] ∧ (∀ b ∈ target, LocalNameByte b) ∧ LineSafe cfg content

/-- A name of a doctype that is printed bare. -/
def DoctypeSafe (cfg : OutCfg) (name : List Byte) : Prop :=
  LineSafe cfg name ∧ (∀ b ∈ name, LocalNameByte b)

/-- Values of attributes and elements in compact output. -/
def CompactValuesSafe (cfg : OutCfg) (vs : List Val) : Prop :=
  (∀ s, Val.text s ∈ vs → CompactTextSafe cfg s) ∧ (∀ n, Val.entity n ∈ vs → EntityName n) ∧ ∀ s, vs = [.text s] → CompactValueSafe cfg s

/-- Values of attributes and elements in pretty output. -/
def PrettyValuesSafe (cfg : OutCfg) (vs : List Val) : Prop :=
  (∀ s, Val.text s ∈ vs → PrettyTextSafe cfg s) ∧ (∀ n, Val.entity n ∈ vs → EntityName n) ∧ ∀ s, vs = [.text s] → PrettyValueSafe cfg s

/-- Names, attributes and declarations of an element. -/
def HeadSafe (cfg : OutCfg) (heap : List Ns) (values : List Val → Prop) (name : List Byte) (ns : Option Nat) (defs : List Nat)
    (attrs : List NAttr) : Prop :=
  ElementNameNs (prefixOf heap ns) name ∧
    (∀ a ∈ attrs, AttrNameNs (prefixOf heap a.ns) a.name ∧ (∀ t, a.value = .text [] :: t → t = []) ∧ values a.value) ∧
    ∀ d ∈ defs, ∃ n, heap[d]? = some n ∧ DeclSafe cfg n

mutual
/-- A node that survives compact printing. -/
def NsCompactNode (cfg : OutCfg) (heap : List Ns) : NNode → Prop
  | .text s => CompactTextSafe cfg s
  | .entity n => EntityName n
  | .comment s => CompactCommentSafe s
  | .pi t c => PiSafe cfg t c
  | .dtd n => DoctypeSafe cfg n
  | .element name ns defs attrs kids => HeadSafe cfg heap (CompactValuesSafe cfg) name ns defs attrs ∧
    NsCompact cfg heap kids ∧ ∀ s, kids = [.text s] → CompactValueSafe cfg s
/-- Every node survives compact printing. -/
def NsCompact (cfg : OutCfg) (heap : List Ns) : List NNode → Prop
  | [] => True
  | n :: t => NsCompactNode cfg heap n ∧ NsCompact cfg heap t
end

mutual
/-- A node that survives pretty printing.  The last condition: texts over several lines are not the value of an element with
    attributes or declarations. -/
def NsPrettyNode (cfg : OutCfg) (heap : List Ns) : NNode → Prop
  | .text s => PrettyTextSafe cfg s
  | .entity n => EntityName n
  | .comment s => PrettyCommentSafe s
  | .pi t c => PiSafe cfg t c
  | .dtd n => DoctypeSafe cfg n
  | .element name ns defs attrs kids => HeadSafe cfg heap (PrettyValuesSafe cfg) name ns defs attrs ∧
    NsPretty cfg heap kids ∧ (∀ s, kids = [.text s] → PrettyValueSafe cfg s) ∧
    ((attrs = [] ∧ defs = []) ∨ (∀ s, NNode.text s ∈ kids → (10 : Byte) ∉ s) ∨ ∃ k ∈ kids, k.val? = none)
/-- Every node survives pretty printing. -/
def NsPretty (cfg : OutCfg) (heap : List Ns) : List NNode → Prop
  | [] => True
  | n :: t => NsPrettyNode cfg heap n ∧ NsPretty cfg heap t
end

end Xmq.Spec
