import Verif.Model.Numbers
import Verif.Model.Utf8
/-!
# Collapsing text before JSON is written (parts/xml.c 210-287)
-/
namespace Xmq

/-- A child of an element, as far as `xml_collapse_text` looks at it: a text, an entity reference (with its name, without `&` and `;`), or something else. -/
inductive TextChild where
  | text (content : List Byte)
  | entity (name : List Byte)
  | other
deriving DecidableEq, Repr

/-- `decode_entity_ref`, parts/xml.c 274-287.  In the hexadecimal case `strtol` is called on the name including its `#`. -/
def decodeEntityRef (name : List Byte) : Int :=
  if name = b#"apos" then 39
  else if name = b#"gt" then 62
  else if name = b#"lt" then 60
  else if name = b#"quot" then 34
  else if name = b#"nbsp" then 160
  else if peek name ≠ b#'#' then 0
  else if peek (name.drop 1) = b#'x' then toInt32 (strtol 16 name).value
  else toInt32 (strtol 10 (name.drop 1)).value

/-- First loop of `xml_collapse_text`, parts/xml.c 217-240: the length, the number of texts and the number of entities.  `none`: there is something else. -/
def measure : List TextChild → Option (Nat × Nat × Nat)
  | [] => some (0, 0, 0)
  | .text t :: r => match measure r with
    | some (l, n, e) => some (t.length + l, n + 1, e)
    | none => none
  | .entity n :: r => match measure r with
    | some (l, k, e) => some (2 + n.length + l, k, e + 1)
    | none => none
  | .other :: _ => none

/-- Second loop, parts/xml.c 248-268: the bytes written.  `none`: the assertion in `encode_utf8` fails. -/
def collapseBytes : List TextChild → Option (List Byte)
  | [] => some []
  | .text t :: r => match collapseBytes r with
    | some l => some (t ++ l)
    | none => none
  | .entity n :: r => match encodeUtf8 (decodeEntityRef n), collapseBytes r with
    | some u, some l => some (u ++ l)
    | _, _ => none
  | .other :: _ => none

/-- Outcome of `xml_collapse_text`. -/
inductive Collapsed where
  /-- NULL: nothing to do. -/
  | unchanged
  /-- A failing assertion. -/
  | aborts
  /-- More bytes (with the terminating NUL) are written than allocated. -/
  | overrun
  | new (bytes : List Byte)
deriving DecidableEq, Repr

/-- `xml_collapse_text`, parts/xml.c 210-272. -/
def collapseText (cs : List TextChild) : Collapsed :=
  match measure cs with
  | none => .unchanged
  | some (len, numText, numEntities) =>
    if numText ≤ 1 ∧ numEntities = 0 then .unchanged
    else match collapseBytes cs with
      | none => .aborts
      | some bs => if bs.length + 1 > len + 1 then .overrun else .new bs

end Xmq
