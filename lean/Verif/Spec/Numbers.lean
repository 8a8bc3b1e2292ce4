import Verif.Basic
/-!
# Numerals as in C
-/
namespace Xmq.Spec

/-- Value of one digit. -/
def DigitIs (c : Byte) (d : Nat) : Prop :=
  (d < 10 ∧ c.toNat = 48 + d) ∨ (10 ≤ d ∧ d < 16 ∧ (c.toNat = 87 + d ∨ c.toNat = 55 + d))

/-- `Digits b s v`: the digits `s` in base `b` have the value `v`. -/
inductive Digits (b : Nat) : List Byte → Nat → Prop
  | one {c d} : DigitIs c d → d < b → Digits b [c] d
  | snoc {s c v d} : Digits b s v → DigitIs c d → d < b → Digits b (s ++ [c]) (v * b + d)

/-- A number without sign: decimal not starting with 0, octal starting with 0, hexadecimal starting with `0x` or `0X`. -/
inductive Magnitude : List Byte → Nat → Prop
  | dec {s v} : Digits 10 s v → s.head? ≠ some 48 → Magnitude s v
  | oct {s v} : Digits 8 s v → s.head? = some 48 → Magnitude s v
  | hex {s v x} : Digits 16 s v → x = 120 ∨ x = 88 → Magnitude (48 :: x :: s) v

/-- A number with an optional sign. -/
inductive Numeral : List Byte → Int → Prop
  | plain {s v} : Magnitude s v → Numeral s v
  | plus {s v} : Magnitude s v → Numeral (43 :: s) v
  | minus {s v} : Magnitude s v → Numeral (45 :: s) (-v)

/-- White space of the C library. -/
def CSpace (c : Byte) : Prop := c = 32 ∨ (9 ≤ c ∧ c ≤ 13)

end Xmq.Spec
