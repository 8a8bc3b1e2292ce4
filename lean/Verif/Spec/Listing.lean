import Verif.Spec.Clines
import Verif.Model.Lexer
/-!
# Reading a listing of tokens
-/
namespace Xmq.Spec

/-- The number that decimal digits stand for. -/
def decNumber (ds : List Byte) : Nat := ds.foldl (fun n d => 10 * n + (d.toNat - 48)) 0

/-- Decimal digits for a number. -/
def IsDecimal (ds : List Byte) (n : Nat) : Prop := ds ≠ [] ∧ (∀ d ∈ ds, 48 ≤ d ∧ d ≤ 57) ∧ decNumber ds = n

/-- The names of the kinds of tokens. -/
def tokenName (k : Kind) : String :=
  match k with
  | .whitespace => "whitespace" | .equals => "equals" | .brace_left => "brace_left" | .brace_right => "brace_right"
  | .apar_left => "apar_left" | .apar_right => "apar_right" | .cpar_left => "cpar_left" | .cpar_right => "cpar_right"
  | .quote => "quote" | .entity => "entity" | .comment => "comment" | .comment_continuation => "comment_continuation"
  | .element_ns => "element_ns" | .element_name => "element_name" | .element_key => "element_key"
  | .element_value_text => "element_value_text" | .element_value_quote => "element_value_quote"
  | .element_value_entity => "element_value_entity" | .element_value_compound_quote => "element_value_compound_quote"
  | .element_value_compound_entity => "element_value_compound_entity"
  | .attr_ns => "attr_ns" | .attr_key => "attr_key" | .attr_value_text => "attr_value_text"
  | .attr_value_quote => "attr_value_quote" | .attr_value_entity => "attr_value_entity"
  | .attr_value_compound_quote => "attr_value_compound_quote" | .attr_value_compound_entity => "attr_value_compound_entity"
  | .ns_declaration => "ns_declaration" | .ns_colon => "ns_colon"

/-- The entry for a token: `[kind "text as in C" line:column]`. -/
def EntryFor (t : Tok) (entry : List Byte) : Prop :=
  ∃ q l c, CChars q t.text ∧ IsDecimal l t.line ∧ IsDecimal c t.col ∧
    entry = 91 :: ((tokenName t.kind).toUTF8.data.toList ++ 32 :: 34 :: (q ++ 34 :: 32 :: (l ++ 58 :: (c ++ [93]))))

/-- The entries one after the other, and a line feed. -/
inductive ListingFor : List Tok → List Byte → Prop
  | nil : ListingFor [] [10]
  | cons (t : Tok) (entry : List Byte) (ts : List Tok) (out : List Byte) : EntryFor t entry → ListingFor ts out →
      ListingFor (t :: ts) (entry ++ out)

end Xmq.Spec
