import Verif.Basic
/-!
# What kind of content a buffer holds, by its first significant bytes
-/
namespace Xmq.Spec

/-- XML white space. -/
def xmlSpace (c : Byte) : Bool := c ∈ ([32, 10, 9, 13] : List Byte)

/-- The buffer without leading white space. -/
def significant (s : List Byte) : List Byte := s.dropWhile xmlSpace

/-- ASCII letters and digits. -/
def letterOrDigit (c : Byte) : Bool := (97 ≤ c && c ≤ 122) || (65 ≤ c && c ≤ 90) || (48 ≤ c && c ≤ 57)

/-- ASCII lower case. -/
def lower (c : Byte) : Byte := if 65 ≤ c && c ≤ 90 then c + 32 else c

/-- Not continued by a letter or a digit. -/
def WordEnd (r : List Byte) : Prop := ∀ c, r.head? = some c → letterOrDigit c = false

/-- White space, then `html` in any case as a word of its own. -/
def HtmlWord (s : List Byte) : Prop :=
  ∃ w t r, s = w ++ t ++ r ∧ (∀ c ∈ w, xmlSpace c = true) ∧ t.map lower = b#"html" ∧ WordEnd r

/-- `<html` or `<!doctype html`. -/
def HtmlStart (s : List Byte) : Prop :=
  (∃ r, s = 60 :: r ∧ HtmlWord r) ∨
    ∃ d b r, s = d ++ b :: r ∧ d.map lower = b#"<!doctype" ∧ letterOrDigit b = false ∧ HtmlWord r

/-- A JSON value by its first byte: object, string, array or a number without sign. -/
def JsonStart (s : List Byte) : Prop := ∃ c t, s = c :: t ∧ (c = 123 ∨ c = 34 ∨ c = 91 ∨ (48 ≤ c ∧ c ≤ 57))

/-- The whole buffer is one of the three JSON literals, perhaps followed by one newline. -/
def JsonLiteral (s : List Byte) : Prop :=
  ∃ w, w ∈ ([b#"true", b#"false", b#"null"] : List (List Byte)) ∧ (s = w ∨ s = w ++ [10])

/-- Starts with an XML declaration or a comment. -/
def XmlPrologue (s : List Byte) : Prop := b#"<?xml" <+: s ∨ b#"<!--" <+: s

end Xmq.Spec
