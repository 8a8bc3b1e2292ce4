import Verif.Model.Colour
/-!
# Definitions of colours (parts/colors.c)
-/
namespace Xmq

/-- `XMQColorDef`, parts/colors.h 112-116, after reading a colour, when its parts are not negative. -/
structure ColourDef where
  r : Nat
  g : Nat
  b : Nat
  bold : Bool
  underline : Bool
  deriving DecidableEq, Repr

/-- One digit in `hex_to_number`, parts/colors.c 144-147 and 150-153. -/
def hexPart (c : Byte) : Option Nat :=
  if b#'0' ≤ c ∧ c ≤ b#'9' then some (c.toNat - 48)
  else if b#'a' ≤ c ∧ c ≤ b#'f' then some (10 + c.toNat - 97)
  else if b#'A' ≤ c ∧ c ≤ b#'F' then some (10 + c.toNat - 65)
  else none

/-- `hex_to_number`, parts/colors.c 141-157. -/
def hexToNumber (c cc : Byte) : Option Nat :=
  match hexPart c with
  | none => none
  | some hi =>
    match hexPart cc with
    | none => none
    | some lo => some (hi * 16 + lo)

/-- One of the two tests for `_B` and `_U`, parts/colors.c 117-122 and 123-128: what is left of the text, bold, underline.  The outer
    `none` stands for going beyond the NUL at the end of the text, which is then read. -/
def colourMark (t : List Byte) (bold underline : Bool) : Option (List Byte × Bool × Bool) :=
  match t with
  | [] => some ([], bold, underline)
  | c :: t' =>
    if c == b#'_' then
      match t' with
      | [] => none
      | x :: t'' => some (t'', bold || x == b#'B', underline || x == b#'U')
    else some (t, bold, underline)

/-- `string_to_color_def`, parts/colors.c 79-139, for a text without NUL.  The outer `none` is undefined behaviour, the inner one the
    answer `false`. -/
def stringToColourDef (s : List Byte) : Option (Option ColourDef) :=
  match s with
  | h :: c1 :: c2 :: c3 :: c4 :: c5 :: c6 :: t =>
    if h != b#'#' then some none
    else
      match hexToNumber c1 c2, hexToNumber c3 c4, hexToNumber c5 c6 with
      | some r, some g, some b =>
        match colourMark t false false with
        | none => none
        | some (t, bold, underline) =>
          match colourMark t bold underline with
          | none => none
          | some (t, bold, underline) => if t.isEmpty then some (some ⟨r, g, b, bold, underline⟩) else some none
      | _, _, _ => some none
  | _ => some none

/-- `snprintf(tmp, 16, "%d", n)`; at most three digits for a part of a colour. -/
def decimal (n : Nat) : List Byte := decDigits (n + 1) n

/-- `generate_ansi_color`, parts/colors.c 159-202: what is written, without the NUL (Model/Colour). -/
def generateAnsiColour (d : ColourDef) : List Byte := ansiColor ⟨d.r, d.g, d.b, d.bold, d.underline⟩

/-- A lower case hexadecimal digit as printf writes it. -/
def hexChar (n : Nat) : Byte := if n < 10 then UInt8.ofNat (48 + n) else UInt8.ofNat (87 + n)

/-- `%02x` for a number below 256. -/
def hexTwo (n : Nat) : List Byte := [hexChar (n / 16), hexChar (n % 16)]

/-- `generate_html_color`, parts/colors.c 204-233: what is written, without the NUL. -/
def generateHtmlColour (d : ColourDef) (name : List Byte) : List Byte :=
  name ++ b#"{color:#" ++ hexTwo d.r ++ hexTwo d.g ++ hexTwo d.b ++ [b#';'] ++ (if d.bold then b#"font-weight:600;" else []) ++
    (if d.underline then b#"text-decoration:underline;" else []) ++ [b#'}']

/-- `generate_tex_color`, parts/colors.c 235-243: what is written, without the NUL; `snprintf` keeps the size. -/
def generateTexColour (size : Nat) (d : ColourDef) (name : List Byte) : List Byte :=
  (b#"\\definecolor{" ++ name ++ b#"}{RGB}{" ++ decimal d.r ++ [b#','] ++ decimal d.g ++ [b#','] ++ decimal d.b ++ [b#'}']).take (size - 1)

/-- `color_names`, parts/colors.c 245-259. -/
def colourNames : List (List Byte) :=
  [b#"xmqC", b#"xmqQ", b#"xmqE", b#"xmqNS", b#"xmqEN", b#"xmqEK", b#"xmqEKV", b#"xmqAK", b#"xmqAKV", b#"xmqCP", b#"xmqNSD", b#"xmqUW",
    b#"xmqXSL"]

/-- `default_darkbg_colors`, parts/default_themes.c 35-49. -/
def darkColours : List (List Byte) :=
  [b#"#2aa1b3", b#"#26a269_B", b#"#c061cb", b#"#a9a9a9", b#"#ff8c00", b#"#88b4f7", b#"#26a269_B", b#"#88b4f7", b#"#6196ec", b#"#c061cb",
    b#"#2aa1b3", b#"#880000_U", b#"#c061cb"]

/-- `default_lightbg_colors`, parts/default_themes.c 67-81. -/
def lightColours : List (List Byte) :=
  [b#"#2aa1b3", b#"#26a269_B", b#"#c061cb", b#"#696969", b#"#a86c00", b#"#0060fd", b#"#26a269_B", b#"#0060fd", b#"#12488c", b#"#c061cb",
    b#"#1a91a3", b#"#880000_U", b#"#c061cb"]

/-- The rules for the colours in the style sheet of `setup_html_coloring`, xmq.c 354-369: one of the two loops. -/
def colourRules (colours : List (List Byte)) : List Byte :=
  ((colours.zip colourNames).map fun p =>
    match stringToColourDef p.1 with
    | some (some d) => generateHtmlColour d p.2
    | _ => []).flatten

end Xmq
