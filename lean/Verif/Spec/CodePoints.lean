import Verif.Spec.Utf8
/-!
# Texts as sequences of code points, and positions in them
-/
namespace Xmq.Spec

/-- The UTF-8 bytes of a sequence of code points. -/
def utf8Text (cps : List Nat) : List Byte := cps.flatMap fun cp => (rfc3629 cp).map UInt8.ofNat

/-- Line, counted from 1, behind the given characters. -/
def lineBehind (before : List Nat) : Nat := 1 + before.count 10

/-- The characters behind the last line break. -/
def sinceNewline (before : List Nat) : Nat := (before.reverse.takeWhile (· ≠ 10)).length

/-- Column, counted from 1, behind the given characters. -/
def columnBehind (before : List Nat) : Nat := 1 + sinceNewline before

end Xmq.Spec
