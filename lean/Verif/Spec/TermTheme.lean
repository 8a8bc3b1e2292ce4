import Verif.Basic
/-!
# What a terminal answers
-/
namespace Xmq.Spec

/-- A hexadecimal digit and its value. -/
def Digit16 (c : Byte) (d : Nat) : Prop :=
  (b#"0123456789abcdef")[d]? = some c ∨ (b#"0123456789ABCDEF")[d]? = some c

/-- A component with four digits and its value. -/
def Component (t : List Byte) (v : Nat) : Prop :=
  ∃ c1 c2 c3 c4 d1 d2 d3 d4, t = [c1, c2, c3, c4] ∧ Digit16 c1 d1 ∧ Digit16 c2 d2 ∧ Digit16 c3 d3 ∧ Digit16 c4 d4 ∧
    v = 4096 * d1 + 256 * d2 + 16 * d3 + d4

/-- The answer of a terminal with the given components, closed by BEL or by ESC \. -/
def answer (r g b : List Byte) (bel : Bool) : List Byte :=
  0x1b :: b#"]11;rgb:" ++ r ++ b#"/" ++ g ++ b#"/" ++ b ++ (if bel then [7] else [0x1b, 0x5c])

/-- Brighter than 60% (of 0xff00), as the eye sees it (in ten thousandths). -/
def Bright (r g b : Nat) : Prop := 2126 * r + 7152 * g + 722 * b > 10000 * 0x9900

end Xmq.Spec
