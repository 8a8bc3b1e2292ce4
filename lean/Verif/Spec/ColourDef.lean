import Verif.Spec.Clines
import Verif.Spec.Highlight
import Verif.Model.ColourDef
/-!
# What a colour is, for a reader of themes, a terminal, a style sheet and TeX
-/
namespace Xmq.Spec

/-- Two hexadecimal digits for a number. -/
def HexPair (c cc : Byte) (n : Nat) : Prop := ∃ hi lo, hexDigit c = some hi ∧ hexDigit cc = some lo ∧ n = 16 * hi + lo

/-- Colours as the comment in `string_to_color_def` lists them: `#aabbcc`, `#aabbcc_B`, `#aabbcc_U`, `#aabbcc_B_U`. -/
inductive ColourText : List Byte → ColourDef → Prop
  | mk (c1 c2 c3 c4 c5 c6 : Byte) (r g b : Nat) (bold underline : Bool) : HexPair c1 c2 r → HexPair c3 c4 g → HexPair c5 c6 b →
      ColourText (35 :: c1 :: c2 :: c3 :: c4 :: c5 :: c6 :: ((if bold then [95, 66] else []) ++ (if underline then [95, 85] else [])))
        ⟨r, g, b, bold, underline⟩

/-- What is accepted: the six digits, and up to two marks of an underscore and any byte. -/
inductive LooseColour : List Byte → ColourDef → Prop
  | mk (c1 c2 c3 c4 c5 c6 : Byte) (r g b : Nat) (marks : List Byte) : HexPair c1 c2 r → HexPair c3 c4 g → HexPair c5 c6 b → marks.length ≤ 2 →
      LooseColour (35 :: c1 :: c2 :: c3 :: c4 :: c5 :: c6 :: marks.flatMap fun x => [95, x]) ⟨r, g, b, marks.contains 66, marks.contains 85⟩

/-- What a terminal has set: bold, underline, the colour of the text (`none`: its default). -/
structure Pen where
  bold : Bool
  underline : Bool
  colour : Option (Nat × Nat × Nat)
  deriving DecidableEq

/-- Select graphic rendition (ECMA-48 8.3.117, colours by ISO 8613-6), the part that is used here. -/
def rendition : Pen → List Nat → Pen
  | p, [] => p
  | _, 0 :: t => rendition ⟨false, false, none⟩ t
  | p, 1 :: t => rendition { p with bold := true } t
  | p, 4 :: t => rendition { p with underline := true } t
  | p, 38 :: 2 :: r :: g :: b :: t => rendition { p with colour := some (r, g, b) } t
  | p, _ :: t => rendition p t

/-- A control sequence that sets the pen. -/
def penAfter (p : Pen) (s : List Byte) : Option Pen := (sgr s).map (rendition p)

/-- The text in front of the first byte `x`, and what follows that byte. -/
def upTo (x : Byte) : List Byte → Option (List Byte × List Byte)
  | [] => none
  | c :: t => if c = x then some ([], t) else (upTo x t).map fun r => (c :: r.1, r.2)

/-- The declarations of a CSS rule up to its closing brace, each a property and a value; what follows the brace. -/
inductive Declarations : List Byte → List (List Byte × List Byte) → List Byte → Prop
  | done (r : List Byte) : Declarations (125 :: r) [] r
  | one (t p v u w r : List Byte) (ds : List (List Byte × List Byte)) : t.head? ≠ some 125 → upTo 58 t = some (p, u) → upTo 59 u = some (v, w) →
      Declarations w ds r → Declarations t ((p, v) :: ds) r

/-- A style sheet of rules: selector and declarations. -/
inductive Sheet : List Byte → List (List Byte × List (List Byte × List Byte)) → Prop
  | nil : Sheet [] []
  | cons (s sel t r : List Byte) (ds : List (List Byte × List Byte)) (rules : List (List Byte × List (List Byte × List Byte))) :
      upTo 123 s = some (sel, t) → Declarations t ds r → Sheet r rules → Sheet s ((sel, ds) :: rules)

/-- The value of a property: the last declaration counts. -/
def property (ds : List (List Byte × List Byte)) (p : List Byte) : Option (List Byte) :=
  (ds.reverse.find? fun d => d.1 == p).map (·.2)

/-- The declarations show this colour. -/
def ShowsCss (ds : List (List Byte × List Byte)) (d : ColourDef) : Prop :=
  (∃ c1 c2 c3 c4 c5 c6, property ds b#"color" = some [35, c1, c2, c3, c4, c5, c6] ∧ HexPair c1 c2 d.r ∧ HexPair c3 c4 d.g ∧ HexPair c5 c6 d.b) ∧
  property ds b#"font-weight" = (if d.bold then some b#"600" else none) ∧
  property ds b#"text-decoration" = (if d.underline then some b#"underline" else none)

end Xmq.Spec
