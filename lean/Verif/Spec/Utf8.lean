import Verif.Basic
/-!
# Specification of UTF-8 (RFC 3629, section 3), written with plain arithmetic
-/
namespace Xmq.Spec

/-- The byte sequence RFC 3629 assigns to a code point below 0x110000. -/
def rfc3629 (cp : Nat) : List Nat :=
  if cp < 0x80 then [cp]
  else if cp < 0x800 then [0xC0 + cp / 64, 0x80 + cp % 64]
  else if cp < 0x10000 then [0xE0 + cp / 4096, 0x80 + cp / 64 % 64, 0x80 + cp % 64]
  else [0xF0 + cp / 262144, 0x80 + cp / 4096 % 64, 0x80 + cp / 64 % 64, 0x80 + cp % 64]

/-- The smallest code point that needs `len` bytes. -/
def minForLen : Nat → Nat
  | 1 => 0
  | 2 => 0x80
  | 3 => 0x800
  | _ => 0x10000

/-- A byte string is valid UTF-8 when it is the concatenation of encodings of code points. -/
inductive ValidUtf8 : List Byte → Prop
  | nil : ValidUtf8 []
  | cons (cp : Nat) (h : cp < 0x110000) (rest : List Byte) :
      ValidUtf8 rest → ValidUtf8 ((rfc3629 cp).map UInt8.ofNat ++ rest)

end Xmq.Spec
