import Verif.Model.Tree
import Verif.Spec.Dedent
import Verif.Spec.Utf8
/-!
# Documents that keep their content, independent of printer and parser
-/
namespace Xmq.Spec

/-- Neighbouring texts are one text (libxml2 never keeps two text nodes next to each other). -/
def joinTexts : List Node → List Node
  | [] => []
  | .text a :: t =>
    match joinTexts t with
    | .text b :: u => .text (a ++ b) :: u
    | u => .text a :: u
  | n :: t => n :: joinTexts t

/-- The same for the children of an attribute. -/
def joinVals : List Val → List Val
  | [] => []
  | .text a :: t =>
    match joinVals t with
    | .text b :: u => .text (a ++ b) :: u
    | u => .text a :: u
  | n :: t => n :: joinVals t

/-- An attribute: a single empty text is the same as no value at all. -/
def canonAttr (a : Attr) : Attr := ⟨a.name, if a.value = [.text []] then [] else joinVals a.value⟩

mutual
/-- A node with its texts joined. -/
def canonNode : Node → Node
  | .element name attrs kids => .element name (attrs.map canonAttr) (joinTexts (canonNodes kids))
  | n => n
/-- Every node with its texts joined. -/
def canonNodes : List Node → List Node
  | [] => []
  | n :: t => canonNode n :: canonNodes t
end

/-- The document with neighbouring texts joined everywhere. -/
def canon (doc : List Node) : List Node := joinTexts (canonNodes doc)

/-- A byte of a name. -/
def LocalNameByte (b : Byte) : Prop :=
  (97 ≤ b ∧ b ≤ 122) ∨ (65 ≤ b ∧ b ≤ 90) ∨ (48 ≤ b ∧ b ≤ 57) ∨ b = 45 ∨ b = 95 ∨ b = 46 ∨ b = 35

/-- A name of an attribute without a namespace prefix. -/
def AttrName (s : List Byte) : Prop := s ≠ [] ∧ (∀ b ∈ s, LocalNameByte b) ∧ s ≠ b#"xmlns"

/-- A name of an element without a namespace prefix: starts with a letter or `_`. -/
def ElementName (s : List Byte) : Prop :=
  (∀ b ∈ s, LocalNameByte b) ∧ ∃ c t, s = c :: t ∧ ((97 ≤ c ∧ c ≤ 122) ∨ (65 ≤ c ∧ c ≤ 90) ∨ c = 95)

/-- A name of an entity, not a numeric character reference. -/
def EntityName (s : List Byte) : Prop := (∀ b ∈ s, LocalNameByte b ∨ b = 58) ∧ s.head? ≠ some 35

/-- No UTF-8 continuation byte directly behind a space or a tab.  In proper UTF-8 there is none. -/
def NoStray (s : List Byte) : Prop := ∀ a p c b, s = a ++ p :: c :: b → p = 32 ∨ p = 9 → ¬ (0x80 ≤ c ∧ c < 0xC0)

/-- A text that survives compact printing as one of several children: no NUL, no three quotes in a row, not only quotes,
    no stray continuation byte, and proper UTF-8 if it is to be escaped. -/
structure CompactTextSafe (cfg : OutCfg) (s : List Byte) : Prop where
  noStray : NoStray s
  noNul : (0 : Byte) ∉ s
  noTriple : ¬ [39, 39, 39] <:+: s
  notOnlyQuotes : s ≠ [] → ∃ c ∈ s, c ≠ 39
  utf8 : cfg.escapeNon7bit = true → ValidUtf8 s

/-- A text that must be quoted: it contains a space, a newline, a tab, a carriage return or one of `'"(){}`. -/
def HasDelimiter (s : List Byte) : Prop := ∃ c ∈ s, c ∈ ([32, 10, 9, 13, 39, 34, 40, 41, 123, 125] : List Byte)

/-- A text that survives compact printing as the only child: in addition it is not made of spaces and tabs with at least
    one tab and two bytes, and it does not end in `/`, `;` or `=` unless it must be quoted. -/
structure CompactValueSafe (cfg : OutCfg) (s : List Byte) : Prop where
  tabs : ¬ ((∀ b ∈ s, b = 32 ∨ b = 9) ∧ (9 : Byte) ∈ s ∧ 2 ≤ s.length ∧ cfg.escapeTabs = false)
  last : HasDelimiter s ∨ ∀ c, s.getLast? = some c → c ∉ ([47, 59, 61] : List Byte)

/-- A text that `xmqCompactQuote` keeps: no NUL, no stray continuation byte, no three quotes in a row, not only quotes, not
    made of spaces and tabs with at least one tab and two bytes, and not white space with a newline, then a space, then a byte that is not white space. -/
structure CompactQuoteSafe (s : List Byte) : Prop where
  noStray : NoStray s
  noNul : (0 : Byte) ∉ s
  noTriple : ¬ [39, 39, 39] <:+: s
  notOnlyQuotes : s ≠ [] → ∃ c ∈ s, c ≠ 39
  tabs : ¬ ((∀ b ∈ s, b = 32 ∨ b = 9) ∧ (9 : Byte) ∈ s ∧ 2 ≤ s.length)
  lead : ∀ a b, s = a ++ 32 :: b → (∀ x ∈ a, x ∈ ([32, 10, 9, 13] : List Byte)) → (10 : Byte) ∈ a →
    ∀ c, b.head? = some c → c ∈ ([32, 10, 9, 13] : List Byte)

/-- A comment that survives compact printing: no stray continuation byte, no carriage return, no line starts or ends with a
    space, the last line is not empty (unless there is only one), and if there is only one line then it does not contain the closing `*/`. -/
structure CompactCommentSafe (s : List Byte) : Prop where
  noStray : NoStray s
  noCr : (13 : Byte) ∉ s
  lead : ∀ l ∈ splitLines s, l.head? ≠ some 32
  trail : ∀ l ∈ splitLines s, l.getLast? ≠ some 32
  final : s.getLast? ≠ some 10
  close : (10 : Byte) ∉ s → ¬ [42, 47] <:+: s

/-- The children of an attribute: nothing, or something that does not start with an empty text (a single empty text is
    allowed), with texts and entities that survive compact printing. -/
def CompactAttrSafe (cfg : OutCfg) (a : Attr) : Prop :=
  AttrName a.name ∧ (∀ t, a.value = .text [] :: t → t = []) ∧ (∀ s, Val.text s ∈ a.value → CompactTextSafe cfg s) ∧
    (∀ n, Val.entity n ∈ a.value → EntityName n) ∧ ∀ s, a.value = [.text s] → CompactValueSafe cfg s

mutual
/-- A node that survives compact printing. -/
def CompactNodeSafe (cfg : OutCfg) : Node → Prop
  | .text s => CompactTextSafe cfg s
  | .entity n => EntityName n
  | .comment s => CompactCommentSafe s
  | .element name attrs kids =>
    ElementName name ∧ (∀ a ∈ attrs, CompactAttrSafe cfg a) ∧ CompactSafe cfg kids ∧
      ∀ s, kids = [.text s] → CompactValueSafe cfg s
/-- Every node survives compact printing. -/
def CompactSafe (cfg : OutCfg) : List Node → Prop
  | [] => True
  | n :: t => CompactNodeSafe cfg n ∧ CompactSafe cfg t
end

/-- The bytes that libxml2 calls blank. -/
def White (c : Byte) : Prop := c = 32 ∨ c = 10 ∨ c = 9 ∨ c = 13

/-- A byte that cannot be inside a quote: control characters other than tab and newline, and what the settings ask for. -/
def EscapedByte (cfg : OutCfg) (c : Byte) : Prop :=
  (c < 32 ∧ c ≠ 9 ∧ c ≠ 10) ∨ (c = 10 ∧ cfg.escapeNewlines = true) ∨ (c = 9 ∧ cfg.escapeTabs = true) ∨
    (126 < c ∧ cfg.escapeNon7bit = true)

/-- A piece of text that survives as a quote over several lines: the whole piece starts and ends with something that is not
    blank, or there are no three quotes in a row and every quote has other text on both sides; and no line but the first and
    last blank ones ends in a space or tab. -/
structure PieceSafe (p : List Byte) : Prop where
  edge : (¬ [39, 39, 39] <:+: p ∧ ∀ a b, p = a ++ 39 :: b → (∃ x ∈ a, ¬ White x) ∧ ∃ x ∈ b, ¬ White x) ∨
    ((∀ c, p.head? = some c → ¬ White c) ∧ ∀ c, p.getLast? = some c → ¬ White c)
  trail : ∀ a b x, p = a ++ x :: 10 :: b → x = 32 ∨ x = 9 → (∀ y ∈ a, White y) ∨ ∀ y ∈ b, White y

/-- A text that survives as one quote over several lines: no carriage return, white space with newlines at the beginning and
    end is made of newlines, and it is a safe piece. -/
structure MultiLineSafe (s : List Byte) : Prop where
  noStray : NoStray s
  newline : (10 : Byte) ∈ s
  noCr : (13 : Byte) ∉ s
  lead : ∀ w r, s = w ++ r → (∀ b ∈ w, White b) → (10 : Byte) ∈ w → ∀ b ∈ w, b = 10
  tail : ∀ w r, s = r ++ w → (∀ b ∈ w, White b) → (10 : Byte) ∈ w → ∀ b ∈ w, b = 10
  piece : PieceSafe s

/-- Every piece between two escaped bytes is safe. -/
def PiecesSafe (cfg : OutCfg) (s : List Byte) : Prop :=
  ∀ a p b, s = a ++ (p ++ b) → (∀ x ∈ p, ¬ EscapedByte cfg x) → (∀ c, a.getLast? = some c → EscapedByte cfg c) →
    (∀ c, b.head? = some c → EscapedByte cfg c) → PieceSafe p

/-- A text that survives pretty printing as one of several children. -/
structure PrettyTextSafe (cfg : OutCfg) (s : List Byte) : Prop where
  noStray : NoStray s
  noNul : (0 : Byte) ∉ s
  notOnlyQuotes : s ≠ [] → ∃ c ∈ s, c ≠ 39
  utf8 : cfg.escapeNon7bit = true → ValidUtf8 s
  pieces : PiecesSafe cfg s

/-- A text that survives pretty printing as the only child: in addition it is not made of spaces and tabs with at least one
    tab and two bytes, and it does not end in `=` unless it must be quoted. -/
structure PrettyValueSafe (cfg : OutCfg) (s : List Byte) : Prop where
  tabs : ¬ ((∀ b ∈ s, b = 32 ∨ b = 9) ∧ (9 : Byte) ∈ s ∧ 2 ≤ s.length ∧ cfg.escapeTabs = false)
  last : HasDelimiter s ∨ s.getLast? ≠ some 61

/-- A comment that survives pretty printing: no stray continuation byte, no carriage return and no space or tab at the end of
    a line (but possibly at the end of the last of several lines); if there are several lines then the first and the last one are not blank. -/
structure PrettyCommentSafe (s : List Byte) : Prop where
  noStray : NoStray s
  noCr : (13 : Byte) ∉ s
  trail : ¬ [32, 10] <:+: s ∧ ¬ [9, 10] <:+: s
  one : (10 : Byte) ∉ s → s.getLast? ≠ some 32 ∧ s.getLast? ≠ some 9
  many : (10 : Byte) ∈ s → ∀ l, (splitLines s).head? = some l ∨ (splitLines s).getLast? = some l → BlankLine l = false

/-- The same for an attribute. -/
def PrettyAttrSafe (cfg : OutCfg) (a : Attr) : Prop :=
  AttrName a.name ∧ (∀ t, a.value = .text [] :: t → t = []) ∧ (∀ s, Val.text s ∈ a.value → PrettyTextSafe cfg s) ∧
    (∀ n, Val.entity n ∈ a.value → EntityName n) ∧ ∀ s, a.value = [.text s] → PrettyValueSafe cfg s

/-- Attributes behind which a value over several lines may follow: there is none, or the last one has no value, or its value
    is a text of one line, which is not escaped, not blank and does not start with a UTF-8 continuation byte. -/
def ColumnKept (cfg : OutCfg) (attrs : List Attr) : Prop :=
  ∀ a, attrs.getLast? = some a → a.value = [] ∨ ∃ s, a.value = [.text s] ∧ (10 : Byte) ∉ s ∧ (∀ b ∈ s, ¬ EscapedByte cfg b) ∧
    (s = [] ∨ ∃ b ∈ s, ¬ White b) ∧ ∀ c, s.head? = some c → c < 0x80 ∨ 0xC0 ≤ c

mutual
/-- A node that survives pretty printing.  The last condition: where there is a `key = value` with a text over several lines,
    the printer must know the column behind the attributes. -/
def PrettyNodeSafe (cfg : OutCfg) : Node → Prop
  | .text s => PrettyTextSafe cfg s
  | .entity n => EntityName n
  | .comment s => PrettyCommentSafe s
  | .element name attrs kids =>
    ElementName name ∧ (∀ a ∈ attrs, PrettyAttrSafe cfg a) ∧ PrettySafe cfg kids ∧
      (∀ s, kids = [.text s] → PrettyValueSafe cfg s) ∧
      (ColumnKept cfg attrs ∨ (∀ s, Node.text s ∈ kids → (10 : Byte) ∉ s) ∨ ∃ k ∈ kids, ∀ v : Val, k ≠ v.node)
/-- Every node survives pretty printing. -/
def PrettySafe (cfg : OutCfg) : List Node → Prop
  | [] => True
  | n :: t => PrettyNodeSafe cfg n ∧ PrettySafe cfg t
end

/-- No two texts next to each other. -/
def NoTextPair (isText : α → Bool) (l : List α) : Prop := ∀ a b p q, l = p ++ a :: b :: q → ¬ (isText a = true ∧ isText b = true)

/-- Tells texts from other nodes. -/
def isTextNode : Node → Bool | .text _ => true | _ => false

/-- Tells texts from entity references. -/
def isTextVal : Val → Bool | .text _ => true | _ => false

mutual
/-- A node as libxml2 would hold it after parsing. -/
def CanonicalNode : Node → Prop
  | .element _ attrs kids =>
    (∀ a ∈ attrs, a.value ≠ [.text []] ∧ NoTextPair isTextVal a.value) ∧ NoTextPair isTextNode kids ∧ CanonicalNodes kids
  | _ => True
/-- Every node is as libxml2 would hold it. -/
def CanonicalNodes : List Node → Prop
  | [] => True
  | n :: t => CanonicalNode n ∧ CanonicalNodes t
end

/-- A document as libxml2 would hold it after parsing: no two texts next to each other, no attribute with an empty text. -/
def Canonical (doc : List Node) : Prop := NoTextPair isTextNode doc ∧ CanonicalNodes doc

/-- No line feed and no carriage return. -/
def OneLine (w : List Byte) : Prop := (10 : Byte) ∉ w ∧ (13 : Byte) ∉ w

/-- Values that fit on one line: no text has three quotes in a row, no name has a line break. -/
def ValsLine (vs : List Val) : Prop := (∀ s, Val.text s ∈ vs → ¬ [39, 39, 39] <:+: s) ∧ ∀ n, Val.entity n ∈ vs → OneLine n

/-- The same for an attribute. -/
def AttrLine (a : Attr) : Prop := OneLine a.name ∧ ValsLine a.value

mutual
/-- The same for a node; in addition a comment has no carriage return (line feeds are allowed everywhere). -/
def NodeLine : Node → Prop
  | .text s => ¬ [39, 39, 39] <:+: s
  | .entity n => OneLine n
  | .comment s => (13 : Byte) ∉ s
  | .element name attrs kids => OneLine name ∧ (∀ a ∈ attrs, AttrLine a) ∧ NodesLine kids
/-- The same for every node. -/
def NodesLine : List Node → Prop
  | [] => True
  | n :: t => NodeLine n ∧ NodesLine t
end

end Xmq.Spec
