import Verif.Model.Printer
/-!
# Keys of JSON objects (parts/json.c 182-202, 863-905, 1377-1425)
-/
namespace Xmq

/-- The loop of `trim_index_suffix`, parts/json.c 194, over the bytes from `i` backwards to `key_start`. -/
def backOverDigits : List Byte → List Byte
  | c :: d :: t => if c ≥ b#'0' && c ≤ b#'9' && c != b#'[' then backOverDigits (d :: t) else c :: d :: t
  | l => l

/-- `trim_index_suffix`, parts/json.c 182-202. -/
def trimIndexSuffix (key : List Byte) : List Byte :=
  match key.reverse with
  | c :: r =>
    if c == b#']' then
      match backOverDigits r with
      | b :: d :: t => if b == b#'[' then (d :: t).reverse else key
      | _ => key
    else key
  | [] => key

/-- A child of an object: its name and whether it is printed by `json_print_array_with_children`. -/
structure ObjectChild where
  name : List Byte
  array : Bool
deriving DecidableEq, Repr

/-- The first loop of `json_print_object_nodes`, parts/json.c 869-885.  The hash map with its counters is a function
    (see C20). -/
def totals : List ObjectChild → (List Byte → Nat) → List Byte → Nat
  | [], m => m
  | c :: t, m => totals t fun x => if x = c.name then m x + 1 else m x

/-- `json_print_element_name`, parts/json.c 1377-1425, for names other than `_` and without namespace prefix: the key. -/
def elementKey (name : List Byte) (total used : Nat) : List Byte :=
  if total > 1 then name ++ b#"[" ++ decDigits (used + 1) used ++ b#"]" else name

/-- The second loop of `json_print_object_nodes`, parts/json.c 887-903: the keys that are written.  An array is given its name
    without a suffix (parts/json.c 1167). -/
def keysLoop (total : List Byte → Nat) : List ObjectChild → (List Byte → Nat) → List (List Byte)
  | [], _ => []
  | c :: t, used =>
    (if c.array then elementKey c.name 1 0 else elementKey c.name (total c.name) (used c.name)) ::
      keysLoop total t fun x => if x = c.name then used x + 1 else used x

/-- The keys written for the children of an object.  Simplified: children named `_` (whose key is stored in an attribute) and
    namespace prefixes are left out. -/
def objectKeys (kids : List ObjectChild) : List (List Byte) := keysLoop (totals kids fun _ => 0) kids fun _ => 0

end Xmq
