import Verif.Basic
/-!
# Numbers in texts (parts/core.c 31-56, xmq.c 3834-3897)
-/
namespace Xmq

/-- `isspace` in the C locale. -/
def isSpace (c : Byte) : Bool := c == 32 || (c ≥ 9 && c ≤ 13)

/-- The value of a digit in bases up to 16; 16 if it is none. -/
def digitValue (c : Byte) : Nat :=
  if c ≥ b#'0' && c ≤ b#'9' then c.toNat - 48
  else if c ≥ b#'a' && c ≤ b#'f' then c.toNat - 87
  else if c ≥ b#'A' && c ≤ b#'F' then c.toNat - 55
  else 16

/-- A result of `strtol`: the value and where it stopped. -/
structure Strtol where
  value : Int
  stop : List Byte
deriving DecidableEq, Repr

/-- Clamping to 64 bits. -/
def clamp64 (v : Int) : Int := if v > 2 ^ 63 - 1 then 2 ^ 63 - 1 else if v < -2 ^ 63 then -2 ^ 63 else v

/-- The prefix of a number: base and what follows.  `0x` counts only if a hexadecimal digit follows. -/
def strtolPrefix (base : Nat) (r : List Byte) : Nat × List Byte :=
  if (base = 0 ∨ base = 16) ∧ peek r = b#'0' ∧ (peek (r.drop 1) = b#'x' ∨ peek (r.drop 1) = b#'X') ∧ digitValue (peek (r.drop 2)) < 16
  then (16, r.drop 2)
  else if base = 0 then (if peek r = b#'0' then 8 else 10, r) else (base, r)

/-- `strtol`, `strtoll` of the C library (64 bits), for bases 0, 8, 10 and 16, on a C string. -/
def strtol (base : Nat) (s : List Byte) : Strtol :=
  let r := s.dropWhile isSpace
  let neg := peek r = b#'-'
  let r := if peek r = b#'-' ∨ peek r = b#'+' then r.drop 1 else r
  let p := strtolPrefix base r
  let ds := p.2.takeWhile fun c => digitValue c < p.1
  if ds = [] then ⟨0, s⟩
  else
    let v : Int := (ds.foldl (fun acc c => acc * p.1 + digitValue c) 0 : Nat)
    ⟨clamp64 (if neg then -v else v), p.2.dropWhile fun c => digitValue c < p.1⟩

/-- `internal_parser_number`, parts/core.c 31-42, for a string that is not NULL.  `none`: false. -/
def internalParserNumber (s : List Byte) : Option Int :=
  if s = [] then none
  else
    let r := strtol 0 s
    if r.stop ≠ [] then none else some r.value

/-- `coreParseI8`, parts/core.c 44-56. -/
def coreParseI8 (s : List Byte) : Option Int :=
  match internalParserNumber s with
  | none => none
  | some tmp => if tmp > 127 then none else if tmp < -128 then none else some tmp

/-- Conversion of a 64 bit value to `int32_t` (two's complement, as all supported compilers do). -/
def toInt32 (v : Int) : Int := (v + 2 ^ 31) % 2 ^ 32 - 2 ^ 31

/-- `xmqGetIntRel`, xmq.c 3839-3863, for the content found; `atoi` is `(int)strtol(content, NULL, 10)` as in glibc. -/
def xmqGetInt (content : List Byte) : Int :=
  if peek content = b#'0' ∧ peek (content.drop 1) = b#'x' then toInt32 (strtol 16 content).value
  else if peek content = b#'0' then toInt32 (strtol 8 content).value
  else toInt32 (strtol 10 content).value

/-- `xmqGetLongRel`, xmq.c 3870-3894. -/
def xmqGetLong (content : List Byte) : Int :=
  if peek content = b#'0' ∧ peek (content.drop 1) = b#'x' then (strtol 16 content).value
  else if peek content = b#'0' then (strtol 8 content).value
  else (strtol 10 content).value

end Xmq
