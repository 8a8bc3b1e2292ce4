import Verif.Spec.Utf8
/-!
# JSON texts (RFC 8259)
-/
namespace Xmq.Spec

/-- The value of a hexadecimal digit (RFC 5234, HEXDIG, both cases). -/
inductive HexDigit : Byte → Nat → Prop
  | dec (n : Nat) : n < 10 → HexDigit (UInt8.ofNat (48 + n)) n
  | upper (n : Nat) : n < 6 → HexDigit (UInt8.ofNat (65 + n)) (10 + n)
  | lower (n : Nat) : n < 6 → HexDigit (UInt8.ofNat (97 + n)) (10 + n)

/-- `\uXXXX` with its value. -/
def UEscape (e : List Byte) (v : Nat) : Prop :=
  ∃ a b c d a' b' c' d', e = b#'\\' :: b#'u' :: [a, b, c, d] ∧ HexDigit a a' ∧ HexDigit b b' ∧ HexDigit c c' ∧ HexDigit d d' ∧
    v = a' * 4096 + b' * 256 + c' * 16 + d'

/-- RFC 8259, section 7: the escapes of two characters. -/
def shortEscapes : List (Byte × Byte) :=
  [(b#'"', 0x22), (b#'\\', 0x5c), (b#'/', 0x2f), (b#'b', 8), (b#'f', 12), (b#'n', 10), (b#'r', 13), (b#'t', 9)]

/-- RFC 8259, section 7: `JsonString lit s` says that the characters `lit` between two quotation marks stand for the text `s`
    (both in UTF-8).  With `full = false` the escape `\/` and surrogates are left out. -/
inductive JsonString (full : Bool) : List Byte → List Byte → Prop
  | nil : JsonString full [] []
  | raw (c : Byte) (l s : List Byte) : 0x20 ≤ c → c ≠ b#'"' → c ≠ b#'\\' → JsonString full l s → JsonString full (c :: l) (c :: s)
  | short (c e : Byte) (l s : List Byte) : (c, e) ∈ shortEscapes → (full = true ∨ c ≠ b#'/') → JsonString full l s →
      JsonString full (b#'\\' :: c :: l) (e :: s)
  | unicode (e : List Byte) (v : Nat) (l s : List Byte) : UEscape e v → (v < 0xd800 ∨ 0xe000 ≤ v) → JsonString full l s →
      JsonString full (e ++ l) ((rfc3629 v).map UInt8.ofNat ++ s)
  | pair (e1 e2 : List Byte) (v1 v2 : Nat) (l s : List Byte) : full = true → UEscape e1 (0xd800 + v1) → v1 < 0x400 →
      UEscape e2 (0xdc00 + v2) → v2 < 0x400 → JsonString full l s →
      JsonString full (e1 ++ e2 ++ l) ((rfc3629 (0x10000 + v1 * 0x400 + v2)).map UInt8.ofNat ++ s)

/-- A decimal digit. -/
def JDigit (c : Byte) : Prop := b#'0' ≤ c ∧ c ≤ b#'9'

/-- One or more digits. -/
def JDigits (s : List Byte) : Prop := s ≠ [] ∧ ∀ c ∈ s, JDigit c

/-- RFC 8259, section 6: `int = zero / ( digit1-9 *DIGIT )`. -/
def JsonInt (s : List Byte) : Prop := s = [b#'0'] ∨ (JDigits s ∧ s.head? ≠ some b#'0')

/-- `[ minus ] int [ frac ] [ exp ]`. -/
def JsonNumber (s : List Byte) : Prop :=
  ∃ minus int frac exp, s = minus ++ int ++ frac ++ exp ∧ (minus = [] ∨ minus = [b#'-']) ∧ JsonInt int ∧
    (frac = [] ∨ ∃ ds, frac = b#'.' :: ds ∧ JDigits ds) ∧
    (exp = [] ∨ ∃ e sign ds, exp = e :: (sign ++ ds) ∧ (e = b#'e' ∨ e = b#'E') ∧ (sign = [] ∨ sign = [b#'+'] ∨ sign = [b#'-']) ∧ JDigits ds)

mutual
/-- A JSON value.  Numbers are kept as they are written. -/
inductive JV
  | str (s : List Byte)
  | num (s : List Byte)
  | bool (b : Bool)
  | null
  | arr (vs : JVs)
  | obj (ms : JMs)
/-- The elements of an array. -/
inductive JVs
  | nil
  | cons (v : JV) (vs : JVs)
/-- The members of an object, in order. -/
inductive JMs
  | nil
  | cons (key : List Byte) (v : JV) (ms : JMs)
end

/-- Whether the value is a number. -/
def JV.isNum : JV → Bool
  | .num _ => true
  | _ => false

mutual
/-- RFC 8259: `JText full W v t` says that `t` is a text of the value `v`, where `W false` are the whitespaces allowed between
    tokens and `W true` those allowed behind a number. -/
inductive JText (full : Bool) (W : Bool → List Byte → Prop) : JV → List Byte → Prop
  | str (l s : List Byte) : JsonString full l s → JText full W (.str s) (b#'"' :: (l ++ [b#'"']))
  | num (s : List Byte) : JsonNumber s → JText full W (.num s) s
  | true : JText full W (.bool true) b#"true"
  | false : JText full W (.bool false) b#"false"
  | null : JText full W .null b#"null"
  | arr (vs : JVs) (t : List Byte) : JElems full W vs t → JText full W (.arr vs) (b#'[' :: (t ++ [b#']']))
  | obj (ms : JMs) (t : List Byte) : JMembers full W ms t → JText full W (.obj ms) (b#'{' :: (t ++ [b#'}']))
/-- What stands between the brackets of an array. -/
inductive JElems (full : Bool) (W : Bool → List Byte → Prop) : JVs → List Byte → Prop
  | nil (w : List Byte) : W .false w → JElems full W .nil w
  | one (v : JV) (w t w' : List Byte) : W .false w → JText full W v t → W v.isNum w' → JElems full W (.cons v .nil) (w ++ t ++ w')
  | cons (v v' : JV) (vs : JVs) (w t w' r : List Byte) : W .false w → JText full W v t → W v.isNum w' →
      JElems full W (.cons v' vs) r → JElems full W (.cons v (.cons v' vs)) (w ++ t ++ w' ++ b#',' :: r)
/-- What stands between the braces of an object. -/
inductive JMembers (full : Bool) (W : Bool → List Byte → Prop) : JMs → List Byte → Prop
  | nil (w : List Byte) : W .false w → JMembers full W .nil w
  | one (k l : List Byte) (v : JV) (w w' w'' t w''' : List Byte) : W .false w → JsonString full l k → W .false w' → W .false w'' →
      JText full W v t → W v.isNum w''' →
      JMembers full W (.cons k v .nil) (w ++ b#'"' :: (l ++ b#'"' :: (w' ++ b#':' :: (w'' ++ t ++ w'''))))
  | cons (k l k' : List Byte) (v v' : JV) (ms : JMs) (w w' w'' t w''' r : List Byte) : W .false w → JsonString full l k → W .false w' →
      W .false w'' → JText full W v t → W v.isNum w''' → JMembers full W (.cons k' v' ms) r →
      JMembers full W (.cons k v (.cons k' v' ms)) (w ++ b#'"' :: (l ++ b#'"' :: (w' ++ b#':' :: (w'' ++ t ++ w''' ++ b#',' :: r))))
end

/-- RFC 8259, section 2: insignificant whitespace. -/
def JsonWs (_ : Bool) (w : List Byte) : Prop := ∀ c ∈ w, c = 0x20 ∨ c = 0x09 ∨ c = 0x0a ∨ c = 0x0d

/-- The same without tabs and carriage returns directly behind a number. -/
def JsonWsN (afterNumber : Bool) (w : List Byte) : Prop :=
  (∀ c ∈ w, c = 0x20 ∨ c = 0x09 ∨ c = 0x0a ∨ c = 0x0d) ∧ (afterNumber = true → w.head? ≠ some 0x09 ∧ w.head? ≠ some 0x0d)

/-- `JSON-text = ws value ws`. -/
def JDoc (full : Bool) (W : Bool → List Byte → Prop) (v : JV) (t : List Byte) : Prop :=
  ∃ w t' w', W false w ∧ JText full W v t' ∧ W v.isNum w' ∧ t = w ++ t' ++ w'

/-- Bytes that can be written in a JSON string as they are or with an escape of two characters, DEL excepted. -/
def JsonByte (c : Byte) : Prop := (0x20 ≤ c ∧ c ≠ 0x7f) ∨ c = 8 ∨ c = 9 ∨ c = 10 ∨ c = 12 ∨ c = 13

instance (c : Byte) : Decidable (JsonByte c) := inferInstanceAs (Decidable (_ ∨ _))

mutual
/-- `v.Ok N S K O`: the numbers in `v` satisfy `N`, the strings `S`, the members `K` and the lists of members `O`. -/
def JV.Ok (N S : List Byte → Prop) (K : List Byte → JV → Prop) (O : JMs → Prop) : JV → Prop
  | .str s => S s
  | .num s => N s
  | .bool _ => True
  | .null => True
  | .arr vs => vs.Ok N S K O
  | .obj ms => O ms ∧ ms.Ok N S K O
/-- The same for the elements of an array. -/
def JVs.Ok (N S : List Byte → Prop) (K : List Byte → JV → Prop) (O : JMs → Prop) : JVs → Prop
  | .nil => True
  | .cons v vs => v.Ok N S K O ∧ vs.Ok N S K O
/-- The same for the members of an object. -/
def JMs.Ok (N S : List Byte → Prop) (K : List Byte → JV → Prop) (O : JMs → Prop) : JMs → Prop
  | .nil => True
  | .cons k v ms => K k v ∧ v.Ok N S K O ∧ ms.Ok N S K O
end

/-- Numbers that do not start with `0e` or `0E`. -/
def NoZeroE (s : List Byte) : Prop := s.take 2 ≠ b#"0e" ∧ s.take 2 ≠ b#"0E"

/-- An ASCII letter. -/
def JLetter (c : Byte) : Prop := (b#'a' ≤ c ∧ c ≤ b#'z') ∨ (b#'A' ≤ c ∧ c ≤ b#'Z')

/-- A byte of a name. -/
def JNameByte (c : Byte) : Prop := JLetter c ∨ JDigit c ∨ c = b#'-' ∨ c = b#'_' ∨ c = b#'.' ∨ c = b#'#'

instance (c : Byte) : Decidable (JLetter c) := inferInstanceAs (Decidable (_ ∨ _))
instance (c : Byte) : Decidable (JDigit c) := inferInstanceAs (Decidable (_ ∧ _))
instance (c : Byte) : Decidable (JNameByte c) := inferInstanceAs (Decidable (_ ∨ _))

/-- A key that can be the name of an element. -/
def NameKey (k : List Byte) : Prop := ∃ c t, k = c :: t ∧ JLetter c ∧ ∀ x ∈ t, JNameByte x

/-- A key that is no name and has no special meaning. -/
def OtherKey (k : List Byte) : Prop :=
  (k = [] ∨ ∃ c t, k = c :: t ∧ c ≠ b#'_' ∧ (¬ JLetter c ∨ ∃ x ∈ t, ¬ JNameByte x ∧ x ≠ b#':')) ∧
    k.getLast? ≠ some b#']' ∧ k ≠ b#"|" ∧ k ≠ b#"//" ∧ k.take 8 ≠ b#"!DOCTYPE"

/-- A text that can be written in a JSON string without `\u` escapes. -/
def StrOk (s : List Byte) : Prop := ValidUtf8 s ∧ ∀ c ∈ s, JsonByte c

/-- Members that survive: keys that are names, and other keys with a value that is not an empty array or object. -/
def MemberOk (k : List Byte) (v : JV) : Prop := NameKey k ∨ (OtherKey k ∧ StrOk k ∧ v ≠ .arr .nil ∧ v ≠ .obj .nil)

/-- The keys of the members. -/
def JMs.keys : JMs → List (List Byte)
  | .nil => []
  | .cons k _ ms => k :: ms.keys

end Xmq.Spec
