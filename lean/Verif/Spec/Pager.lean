import Verif.Model.Pager
/-!
# What a pager should do

Lines end with a line feed; what is drawn is a part of the text; going on a page loses nothing.
-/
namespace Xmq.Spec.Pager
open Xmq.Pager

/-- A line begins here. -/
def LineStart (s : List Byte) (p : Nat) : Prop := p = 0 ∨ (0 < p ∧ s[p - 1]? = some 10)

/-- The line from `q` ends with a line feed just before `p`. -/
def LineFromTo (s : List Byte) (q p : Nat) : Prop :=
  LineStart s q ∧ q < p ∧ s[p - 1]? = some 10 ∧ ∀ i, q ≤ i → i < p - 1 → s[i]? ≠ some 10

/-- The byte at `n` is on the screen for a place. -/
def Shown (s : List Byte) (width height : Nat) (p : Place) (n : Nat) : Prop :=
  p.lo ≤ n ∧ n < p.lo + (screen s width height p).length

/-- A place is inside the text. -/
def Inside (s : List Byte) (p : Place) : Prop := p.lo ≤ p.ilo ∧ p.ilo ≤ s.length

/-- A piece of a line: perhaps an escape sequence, and then one character. -/
structure Piece where
  esc : Option (List Byte)
  char : Byte

/-- The bytes of an escape sequence: ESC, its body, `m`. -/
def escBytes : Option (List Byte) → List Byte
  | none => []
  | some body => 27 :: body ++ [109]

/-- The body has no `m`. -/
def EscGood (e : Option (List Byte)) : Prop := ∀ body, e = some body → (109 : Byte) ∉ body

/-- A piece that is neither the end of a line nor the beginning of an escape sequence. -/
def PieceGood (p : Piece) : Prop := EscGood p.esc ∧ p.char ≠ 10 ∧ (p.esc = none → p.char ≠ 27)

/-- The bytes of pieces. -/
def bytesOf (ps : List Piece) : List Byte := ps.flatMap fun p => escBytes p.esc ++ [p.char]

end Xmq.Spec.Pager
