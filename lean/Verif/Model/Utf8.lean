import Verif.Basic
/-!
# UTF-8 encoding and decoding (parts/text.c)
-/
namespace Xmq

/-- `num_utf8_bytes`, parts/text.c 163-170. -/
def numUtf8Bytes (c : Byte) : Nat :=
  if c &&& 0x80 = 0 then 1
  else if c &&& 0xe0 = 0xc0 then 2
  else if c &&& 0xf0 = 0xe0 then 3
  else if c &&& 0xf8 = 0xf0 then 4
  else 0

/-- `encode_utf8`, parts/text.c 254-285.  The result is the list of the bytes counted by the C
    return value.  `none` is the failing `assert (uc <= 0x10ffff)`.  A negative `uc` takes the
    first branch, `bytes[0] = uc` keeps the low eight bits. -/
def encodeUtf8 (uc : Int) : Option (List Byte) :=
  if uc ≤ 0x7f then some [UInt8.ofInt uc]
  else
    let n := uc.toNat
    if n ≤ 0x7ff then
      some [UInt8.ofNat (0xc0 ||| ((n >>> 6) &&& 0x1f)), UInt8.ofNat (0x80 ||| (n &&& 0x3f))]
    else if n ≤ 0xffff then
      some [UInt8.ofNat (0xe0 ||| ((n >>> 12) &&& 0x0f)),
            UInt8.ofNat (0x80 ||| ((n >>> 6) &&& 0x3f)),
            UInt8.ofNat (0x80 ||| (n &&& 0x3f))]
    else if n ≤ 0x10ffff then
      some [UInt8.ofNat (0xf0 ||| ((n >>> 18) &&& 0x07)),
            UInt8.ofNat (0x80 ||| ((n >>> 12) &&& 0x3f)),
            UInt8.ofNat (0x80 ||| ((n >>> 6) &&& 0x3f)),
            UInt8.ofNat (0x80 ||| (n &&& 0x3f))]
    else none

/-- What `decode_utf8` returns: the C result, `*out_char` and `*out_len`. -/
structure Decoded where
  ok : Bool
  char : Nat
  len : Nat
deriving DecidableEq, Repr

/-- `(cc & 0xc0) == 0x80`, used all over the C code. -/
def isCont (c : Byte) : Bool := c &&& 0xc0 == 0x80

/-- `decode_utf8`, parts/text.c 296-354, on the bytes from `start` to `stop`.
    On an empty buffer the C code reads `*stop`, modelled as the terminating NUL. -/
def decodeUtf8 (s : List Byte) : Decoded :=
  let c := (peek s).toNat
  let bad : Decoded := ⟨false, 1, 1⟩
  if c &&& 0x80 = 0 then ⟨true, c, 1⟩
  else if c &&& 0xe0 = 0xc0 then
    match s with
    | _ :: cc :: _ =>
      if isCont cc then ⟨true, ((c &&& 0x1f) <<< 6) ||| (cc.toNat &&& 0x3f), 2⟩ else bad
    | _ => bad
  else if c &&& 0xf0 = 0xe0 then
    match s with
    | _ :: cc :: ccc :: _ =>
      if isCont cc && isCont ccc then
        ⟨true, ((c &&& 0x0f) <<< 12) ||| ((cc.toNat &&& 0x3f) <<< 6) ||| (ccc.toNat &&& 0x3f), 3⟩
      else bad
    | _ => bad
  else if c &&& 0xf8 = 0xf0 then
    match s with
    | _ :: cc :: ccc :: cccc :: _ =>
      if isCont cc && isCont ccc && isCont cccc then
        ⟨true, ((c &&& 0x07) <<< 18) ||| ((cc.toNat &&& 0x3f) <<< 12)
               ||| ((ccc.toNat &&& 0x3f) <<< 6) ||| (cccc.toNat &&& 0x3f), 4⟩
      else bad
    | _ => bad
  else bad

end Xmq
