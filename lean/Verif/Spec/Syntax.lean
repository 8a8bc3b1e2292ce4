import Verif.Model.Builder
/-!
# The grammar of the delivered tokens and the document as it is written

`Doc ts d`: the tokens `ts`, without white space, are those of the document `d`.  The texts of quotes, entities and comments
are what C13, C14, C36 and C51 say about them.
-/
namespace Xmq.Spec

/-- A value as written: bare, in quotes, a reference, or several quotes and references in parentheses. -/
inductive SVal
  | plain (s : List Byte)
  | quoted (s : List Byte)
  | ref (v : Val)
  | many (vs : List Val)
deriving DecidableEq, Repr

/-- The texts and entities of a value. -/
def SVal.vals : SVal → List Val
  | .plain s => [.text s]
  | .quoted s => [.text s]
  | .ref v => [v]
  | .many vs => vs

/-- An entry of an attribute list: the declaration of a default namespace or of a prefix, or an attribute. -/
inductive SAttr
  | decl (pre : Option (List Byte)) (value : Option SVal)
  | attr (pre : Option (List Byte)) (name : List Byte) (value : Option SVal)
deriving DecidableEq, Repr

/-- A node as written.  Processing instructions and doctypes are elements whose names start with `?` and `!`. -/
inductive SNode
  | val (v : Val)
  | comment (s : List Byte)
  | element (pre : Option (List Byte)) (name : List Byte) (attrs : Option (List SAttr)) (value : Option SVal) (kids : List SNode)
deriving Repr

/-- The text of a comment. -/
def commentVal (t : Tok) : Option (List Byte) := unComment (t.col - 1) 32 0 t.text

/-- The text of the continuation of a comment, which starts with its asterisk: the slashes at its end are put before it. -/
def continuationVal (t : Tok) : Option (List Byte) :=
  unComment (t.col - 1) 32 0 ((t.text.drop 1).reverse.takeWhile (· == 47) ++ t.text)

/-- Quotes and references between parentheses. -/
inductive Compound (attr : Bool) : List Tok → List Val → Prop
  | nil : Compound attr [] []
  | quote (t : Tok) (v : Val) (ts : List Tok) (vs : List Val) :
      t.kind = (if attr then .attr_value_compound_quote else .element_value_compound_quote) → quoteVal t.col t.text = some v →
      Compound attr ts vs → Compound attr (t :: ts) (v :: vs)
  | entity (t : Tok) (v : Val) (ts : List Tok) (vs : List Val) :
      t.kind = (if attr then .attr_value_compound_entity else .element_value_compound_entity) → entityVal t.text = some v →
      Compound attr ts vs → Compound attr (t :: ts) (v :: vs)

/-- A value behind the equal sign. -/
inductive Value (attr : Bool) : List Tok → SVal → Prop
  | plain (t : Tok) : t.kind = (if attr then .attr_value_text else .element_value_text) → Value attr [t] (.plain t.text)
  | quoted (t : Tok) (s : List Byte) : t.kind = (if attr then .attr_value_quote else .element_value_quote) →
      quoteVal t.col t.text = some (.text s) → Value attr [t] (.quoted s)
  | ref (t : Tok) (v : Val) : t.kind = (if attr then .attr_value_entity else .element_value_entity) →
      entityVal t.text = some v → Value attr [t] (.ref v)
  | many (l r : Tok) (ts : List Tok) (vs : List Val) : l.kind = .cpar_left → r.kind = .cpar_right → Compound attr ts vs →
      Value attr (l :: (ts ++ [r])) (.many vs)

/-- A value or nothing. -/
inductive MaybeValue (attr : Bool) : List Tok → Option SVal → Prop
  | none : MaybeValue attr [] none
  | some (e : Tok) (ts : List Tok) (v : SVal) : e.kind = .equals → Value attr ts v → MaybeValue attr (e :: ts) (some v)

/-- An entry of an attribute list. -/
inductive Attribute : List Tok → SAttr → Prop
  | plain (k : Tok) (ts : List Tok) (v : Option SVal) : k.kind = .attr_key → MaybeValue true ts v →
      Attribute (k :: ts) (.attr none k.text v)
  | prefixed (p c k : Tok) (ts : List Tok) (v : Option SVal) : p.kind = .attr_ns → c.kind = .ns_colon → k.kind = .attr_key →
      MaybeValue true ts v → Attribute (p :: c :: k :: ts) (.attr (some p.text) k.text v)
  | declDefault (x : Tok) (ts : List Tok) (v : Option SVal) : x.kind = .ns_declaration → MaybeValue true ts v →
      Attribute (x :: ts) (.decl none v)
  | declPrefix (x c p : Tok) (ts : List Tok) (v : Option SVal) : x.kind = .ns_declaration → c.kind = .ns_colon →
      p.kind = .attr_ns → MaybeValue true ts v → Attribute (x :: c :: p :: ts) (.decl (some p.text) v)

/-- Entries of an attribute list. -/
inductive Attributes : List Tok → List SAttr → Prop
  | nil : Attributes [] []
  | cons (ts us : List Tok) (a : SAttr) (as : List SAttr) : Attribute ts a → Attributes us as → Attributes (ts ++ us) (a :: as)

/-- An attribute list with its parentheses, or nothing. -/
inductive MaybeAttributes : List Tok → Option (List SAttr) → Prop
  | none : MaybeAttributes [] none
  | some (l r : Tok) (ts : List Tok) (as : List SAttr) : l.kind = .apar_left → r.kind = .apar_right → Attributes ts as →
      MaybeAttributes (l :: (ts ++ [r])) (some as)

/-- The name of an element. -/
inductive ElemNameToks : List Tok → Option (List Byte) → List Byte → Prop
  | plain (k : Tok) : k.kind = .element_name ∨ k.kind = .element_key → ElemNameToks [k] none k.text
  | prefixed (p c k : Tok) : p.kind = .element_ns → c.kind = .ns_colon → k.kind = .element_name ∨ k.kind = .element_key →
      ElemNameToks [p, c, k] (some p.text) k.text

/-- The continuations of a comment. -/
inductive Continuations : List Tok → List (List Byte) → Prop
  | nil : Continuations [] []
  | cons (t : Tok) (s : List Byte) (ts : List Tok) (ss : List (List Byte)) : t.kind = .comment_continuation →
      continuationVal t = some s → Continuations ts ss → Continuations (t :: ts) (s :: ss)

/-- The tokens of a document. -/
inductive Doc : List Tok → List SNode → Prop
  | nil : Doc [] []
  | quote (t : Tok) (v : Val) (ts : List Tok) (d : List SNode) : t.kind = .quote → quoteVal t.col t.text = some v → Doc ts d →
      Doc (t :: ts) (.val v :: d)
  | entity (t : Tok) (v : Val) (ts : List Tok) (d : List SNode) : t.kind = .entity → entityVal t.text = some v → Doc ts d →
      Doc (t :: ts) (.val v :: d)
  | comment (t : Tok) (c : List Byte) (cs : List Tok) (ss : List (List Byte)) (ts : List Tok) (d : List SNode) :
      t.kind = .comment → commentVal t = some c →
      Continuations cs ss → Doc ts d →
      Doc (t :: (cs ++ ts)) (.comment (ss.foldl (fun c s => c ++ 10 :: s) c) :: d)
  | plain (ns as vs : List Tok) (pre : Option (List Byte)) (name : List Byte) (attrs : Option (List SAttr)) (value : Option SVal)
      (ts : List Tok) (d : List SNode) : ElemNameToks ns pre name → MaybeAttributes as attrs → MaybeValue false vs value →
      Doc ts d → Doc (ns ++ (as ++ (vs ++ ts))) (.element pre name attrs value [] :: d)
  | braces (ns as : List Tok) (pre : Option (List Byte)) (name : List Byte) (attrs : Option (List SAttr)) (l r : Tok) (bs : List Tok)
      (kids : List SNode) (ts : List Tok) (d : List SNode) : ElemNameToks ns pre name → MaybeAttributes as attrs →
      l.kind = .brace_left → r.kind = .brace_right → Doc bs kids → Doc ts d →
      Doc (ns ++ (as ++ (l :: (bs ++ r :: ts)))) (.element pre name attrs none kids :: d)

/-- The text of the token can be computed: no undefined behaviour in the functions that unquote and decode. -/
def Evaluates (t : Tok) : Prop :=
  match t.kind with
  | .quote | .element_value_quote | .element_value_compound_quote | .attr_value_quote | .attr_value_compound_quote =>
    (quoteVal t.col t.text).isSome
  | .entity | .element_value_entity | .element_value_compound_entity | .attr_value_entity | .attr_value_compound_entity =>
    (entityVal t.text).isSome
  | .comment => (commentVal t).isSome
  | .comment_continuation => (continuationVal t).isSome
  | _ => True

/-- The tokens without white space. -/
def noWs (ts : List Tok) : List Tok := ts.filter fun t => t.kind != .whitespace

end Xmq.Spec
