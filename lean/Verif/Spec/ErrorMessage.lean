import Verif.Spec.Tokens
import Verif.Spec.Listing
/-!
# What an error message must say

Byte values: 9 tab, 10 line feed, 32 space, 39 `'`, 40 `(`, 41 `)`, 42 `*`, 47 `/`, 61 `=`, 94 `^`, 123 `{`, 125 `}`.
-/
namespace Xmq.Spec

/-- The bytes from `a` to `b` are the line around the place `pos`. -/
structure LineAt (s : List Byte) (pos a b : Nat) : Prop where
  begins : a ≤ pos
  ends : pos ≤ b
  inside : b ≤ s.length
  before : a = 0 ∨ s[a - 1]? = some 10
  after : b = s.length ∨ s[b]? = some 10
  one : ∀ i, a ≤ i → i < b → s[i]? ≠ some 10

/-- The line, and on the next line a mark below the place. -/
def picture (s : List Byte) (pos a b : Nat) : List Byte :=
  [10] ++ (s.drop a).take (b - a) ++ [10] ++ List.replicate (pos - a) 32 ++ [94]

/-- What stands at the place which is reported: the beginning of what is not closed, or what was not expected. -/
def Fits : Err → List Byte → Prop
  | .bodyNotClosed, r => r.head? = some 123
  | .attributesNotClosed, r => r.head? = some 40
  | .quoteNotClosed, r => r.head? = some 39
  | .quoteClosedWithTooManyQuotes, r => r.head? = some 39
  | .entityNotClosed, r => r.head? = some 38
  | .commentNotClosed, r => r.head? = some 47 ∨ r.head? = some 42
  | .commentClosedWithTooManySlashes, r => r.head? = some 47 ∨ r.head? = some 42
  | .expectedContentAfterEquals, r => r.head? = some 61
  | .unexpectedClosingBrace, r => r.head? = some 125
  | .unexpectedTab, r => r.head? = some 9
  | .compoundMayNotContain, r => ∃ c, r.head? = some c ∧ c ≠ 39 ∧ c ≠ 38 ∧ c ≠ 41
  | .valueCannotStartWith, r => r.head? = some 61 ∨ r.take 2 = [47, 42] ∨ r.take 2 = [47, 47]
  | .invalidChar, r => ∃ c, r.head? = some c ∧ ¬ (97 ≤ c.toNat ∧ c.toNat ≤ 122) ∧ ¬ (65 ≤ c.toNat ∧ c.toNat ≤ 90) ∧
      c ∉ ([9, 10, 13, 32, 38, 39, 95, 125] : List Byte)
  | .compoundNotClosed, r => r.head? ≠ some 41
  | .notXmq, _ => False

/-- The value of upper case hexadecimal digits. -/
def upperHex (ds : List Byte) : Nat := ds.foldl (fun n d => 16 * n + (if d.toNat < 58 then d.toNat - 48 else d.toNat - 55)) 0

/-- Digits as `%X` writes them: no zero in front. -/
def IsHex (ds : List Byte) (n : Nat) : Prop :=
  ds ≠ [] ∧ (∀ d ∈ ds, (48 ≤ d.toNat ∧ d.toNat ≤ 57) ∨ (65 ≤ d.toNat ∧ d.toNat ≤ 70)) ∧ upperHex ds = n ∧
    (ds.head? = some 48 → ds = [48])

end Xmq.Spec
