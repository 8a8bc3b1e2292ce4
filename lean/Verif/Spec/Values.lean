import Verif.Basic
/-!
# Values written without quotes
-/
namespace Xmq.Spec

/-- What may follow a value written without quotes: the end of the input, whitespace (space, line feed, tab, carriage
    return, U+00A0, U+2000..U+2003) or one of `'"(){}`. -/
inductive ValueEnd : List Byte → Prop
  | eof : ValueEnd []
  | byte (b : Byte) (rest : List Byte) : b ∈ [32, 10, 9, 13, 39, 34, 40, 41, 123, 125] → ValueEnd (b :: rest)
  | nbsp (rest : List Byte) : ValueEnd (0xc2 :: 0xa0 :: rest)
  | quad (b : Byte) (rest : List Byte) : b ∈ [0x80, 0x81, 0x82, 0x83] → ValueEnd (0xe2 :: 0x80 :: b :: rest)

end Xmq.Spec
