import Verif.Model.Lexer
import Verif.Spec.Runs
/-!
# What a delivered token promises: text, position, nesting

Byte values: 10 line feed, 13 carriage return, 32 space, 38 `&`, 39 `'`, 40 `(`, 41 `)`, 42 `*`, 47 `/`,
58 `:`, 59 `;`, 61 `=`, 123 `{`, 125 `}`.
-/
namespace Xmq.Spec

/-- Line of the byte that follows the bytes `p`: one more than the line feeds in `p`. -/
def lineAfter (p : List Byte) : Nat := 1 + p.count 10

/-- Column of the byte that follows the bytes `p`: one more than the number of characters since the
    last line feed, where a character is counted by its first byte: bytes 0x80..0xBF only continue
    a UTF-8 character. -/
def colAfter (p : List Byte) : Nat :=
  1 + (p.reverse.takeWhile (fun b => b ≠ 10)).countP (fun b => b.toNat < 0x80 ∨ 0xC0 ≤ b.toNat)

/-- The concatenated texts of tokens. -/
def textOf (toks : List Tok) : List Byte := (toks.map Tok.text).flatten

/-- A complete quote: two quote characters, or `d ≠ 2` quote characters, a non-empty content that
    neither starts nor ends with a quote and has no `d` quotes in a row, and `d` quotes again. -/
inductive QuoteText : List Byte → Prop
  | empty : QuoteText [39, 39]
  | full (d : Nat) (body : List Byte) : 0 < d → d ≠ 2 → body ≠ [] → body.head? ≠ some 39 →
      body.getLast? ≠ some 39 → NoRun 39 d body →
      QuoteText (List.replicate d 39 ++ (body ++ List.replicate d 39))

/-- A complete comment: two slashes up to and including the end of the line (or the end of the
    buffer), with something else than an asterisk behind the slashes, or `n` slashes, an asterisk, a text without an asterisk followed by `n` slashes,
    an asterisk and `n` slashes. -/
inductive CommentText : List Byte → Prop
  | line (body : List Byte) : 10 ∉ body → (body.dropWhile (· == 47)).head? ≠ some 42 → CommentText (47 :: 47 :: body)
  | lineNl (body : List Byte) : 10 ∉ body → (body.dropWhile (· == 47)).head? ≠ some 42 → CommentText (47 :: 47 :: (body ++ [10]))
  | block (n : Nat) (body : List Byte) : 0 < n → ¬ (42 :: List.replicate n 47) <:+: body →
      CommentText (List.replicate n 47 ++ 42 :: (body ++ 42 :: List.replicate n 47))

/-- The continuation of a comment: it starts directly with the asterisk. -/
inductive CommentContinuationText : List Byte → Prop
  | mk (n : Nat) (body : List Byte) : 0 < n → ¬ (42 :: List.replicate n 47) <:+: body →
      CommentContinuationText (42 :: (body ++ 42 :: List.replicate n 47))

/-- Letters, digits and `- _ . : #`. -/
def NameByte (b : Byte) : Prop :=
  (97 ≤ b.toNat ∧ b.toNat ≤ 122) ∨ (65 ≤ b.toNat ∧ b.toNat ≤ 90) ∨ (48 ≤ b.toNat ∧ b.toNat ≤ 57) ∨
    b = 45 ∨ b = 95 ∨ b = 46 ∨ b = 58 ∨ b = 35

/-- Lower case hexadecimal digit. -/
def LowerHexByte (b : Byte) : Prop := (97 ≤ b.toNat ∧ b.toNat ≤ 102) ∨ (48 ≤ b.toNat ∧ b.toNat ≤ 57)

/-- An entity: `&name;`, or (an oddity of the parser) `&` and lower case hexadecimal digits without
    a semicolon. -/
inductive EntityText : List Byte → Prop
  | closed (name : List Byte) : (∀ b ∈ name, NameByte b) → EntityText (38 :: (name ++ [59]))
  | bare (name : List Byte) : (∀ b ∈ name, LowerHexByte b) → EntityText (38 :: name)

/-- The bytes of a value written without quotes: no ASCII whitespace, parentheses, braces, quotes. -/
def PlainByte (b : Byte) : Prop :=
  b ≠ 32 ∧ b ≠ 10 ∧ b ≠ 9 ∧ b ≠ 13 ∧ b ≠ 40 ∧ b ≠ 41 ∧ b ≠ 39 ∧ b ≠ 34 ∧ b ≠ 123 ∧ b ≠ 125

/-- Token whitespace: line feeds, carriage returns, spaces and the spaces U+00A0 (C2 A0) and
    U+2000..U+2003 (E2 80 80 .. E2 80 83). -/
inductive WhitespaceText : List Byte → Prop
  | nil : WhitespaceText []
  | one (b : Byte) (s : List Byte) : b = 32 ∨ b = 10 ∨ b = 13 → WhitespaceText s → WhitespaceText (b :: s)
  | two (s : List Byte) : WhitespaceText s → WhitespaceText (0xc2 :: 0xa0 :: s)
  | three (b : Byte) (s : List Byte) : b = 0x80 ∨ b = 0x81 ∨ b = 0x82 ∨ b = 0x83 → WhitespaceText s →
      WhitespaceText (0xe2 :: 0x80 :: b :: s)

/-- The form of the text of a token of each kind. -/
def TokenText : Kind → List Byte → Prop
  | .whitespace, s => WhitespaceText s
  | .equals, s => s = [61]
  | .brace_left, s => s = [123]
  | .brace_right, s => s = [125]
  | .apar_left, s => s = [40]
  | .apar_right, s => s = [41]
  | .cpar_left, s => s = [40]
  | .cpar_right, s => s = [41]
  | .quote, s => QuoteText s
  | .element_value_quote, s => QuoteText s
  | .element_value_compound_quote, s => QuoteText s
  | .attr_value_quote, s => QuoteText s
  | .attr_value_compound_quote, s => QuoteText s
  | .entity, s => EntityText s
  | .element_value_entity, s => EntityText s
  | .element_value_compound_entity, s => EntityText s
  | .attr_value_entity, s => EntityText s
  | .attr_value_compound_entity, s => EntityText s
  | .comment, s => CommentText s
  | .comment_continuation, s => CommentContinuationText s
  | .element_value_text, s => ∀ b ∈ s, PlainByte b
  | .attr_value_text, s => ∀ b ∈ s, PlainByte b
  | .ns_colon, s => s = [58]
  | .element_ns, s => ∀ b ∈ s, NameByte b
  | .attr_ns, s => ∀ b ∈ s, NameByte b
  | .attr_key, s => ∀ b ∈ s, NameByte b
  | .ns_declaration, s => ∀ b ∈ s, NameByte b
  | .element_name, s => (∀ b ∈ s, NameByte b) ∨ ∃ t, (s = 33 :: t ∨ s = 63 :: t) ∧ ∀ b ∈ t, NameByte b
  | .element_key, s => (∀ b ∈ s, NameByte b) ∨ ∃ t, (s = 33 :: t ∨ s = 63 :: t) ∧ ∀ b ∈ t, NameByte b

/-- What follows a token of each kind, when the token is the longest one: behind whitespace there is no further
    whitespace, a value without quotes goes up to the end, to a byte it cannot have or to whitespace, a name goes up to a
    byte that names do not have (`:` behind a prefix), and a line comment without its line feed ends the text. -/
def EndsAt : Kind → List Byte → List Byte → Prop
  | .whitespace, _, r => ∀ a b, r = a ++ b → WhitespaceText a → a = []
  | .element_value_text, _, r => ValueEnds r
  | .attr_value_text, _, r => ValueEnds r
  | .comment, s, r => ∀ body, s = 47 :: 47 :: body → 10 ∉ body → (body.dropWhile (· == 47)).head? ≠ some 42 → r = []
  | .element_name, _, r => NameEnds r
  | .element_key, _, r => NameEnds r
  | .attr_key, _, r => NameEnds r
  | .element_ns, _, r => r.head? = some 58
  | .attr_ns, _, r => r.head? = some 58 ∨ NameEnds r
  | .ns_declaration, _, r => r.head? = some 58 ∨ NameEnds r
  | _, _, _ => True
where
  /-- The end of a value without quotes. -/
  ValueEnds (r : List Byte) : Prop :=
    r = [] ∨ (∃ b t, r = b :: t ∧ ¬ PlainByte b) ∨ ∃ a b, r = a ++ b ∧ a ≠ [] ∧ WhitespaceText a
  /-- The end of a name. -/
  NameEnds (r : List Byte) : Prop := ∀ b, r.head? = some b → ¬ NameByte b

/-- The bracket tokens. -/
def IsBracket : Kind → Prop
  | .brace_left | .brace_right | .apar_left | .apar_right | .cpar_left | .cpar_right => True
  | _ => False

/-- Well nested sequences: every opening bracket is closed by the bracket of the same kind,
    with a well nested sequence in between. -/
inductive WellNested : List Kind → Prop
  | nil : WellNested []
  | plain (k : Kind) : ¬ IsBracket k → WellNested [k]
  | braces (l : List Kind) : WellNested l → WellNested (.brace_left :: (l ++ [.brace_right]))
  | attributes (l : List Kind) : WellNested l → WellNested (.apar_left :: (l ++ [.apar_right]))
  | compound (l : List Kind) : WellNested l → WellNested (.cpar_left :: (l ++ [.cpar_right]))
  | append (l m : List Kind) : WellNested l → WellNested m → WellNested (l ++ m)

end Xmq.Spec

namespace Xmq.Spec

/-- A tab, or a byte that is neither whitespace, nor part of a name, nor one of `'"(){}/=&`. -/
def StuckByte (c : Byte) : Prop :=
  c = 9 ∨ ¬ (NameByte c ∨ c = 32 ∨ c = 10 ∨ c = 13 ∨ c = 39 ∨ c = 34 ∨ c = 40 ∨ c = 41 ∨ c = 123 ∨ c = 125 ∨
    c = 47 ∨ c = 61 ∨ c = 38)

/-- The sequence leaves a parenthesis open: behind it only well nested tokens follow. -/
def ParenOpen (ks : List Kind) : Prop :=
  ∃ a k b, ks = a ++ k :: b ∧ (k = .apar_left ∨ k = .cpar_left) ∧ WellNested b

end Xmq.Spec

namespace Xmq.Spec
instance (b : Byte) : Decidable (NameByte b) := by unfold NameByte; infer_instance
instance (b : Byte) : Decidable (LowerHexByte b) := by unfold LowerHexByte; infer_instance
instance (b : Byte) : Decidable (PlainByte b) := by unfold PlainByte; infer_instance
instance (b : Byte) : Decidable (StuckByte b) := by unfold StuckByte; infer_instance
end Xmq.Spec
