import Verif.Model.Utf8
/-!
# Positions of syntax errors (parts/text.c 629-653, xmq.c 4400-4427)
-/
namespace Xmq

/-- The loop of `find_line_col`, parts/text.c 634-648.  `none`: the assertion on the result of `decode_utf8` fails.
    Every round takes at least one byte, the fuel is the number of bytes plus one. -/
def findLineColLoop : Nat → List Byte → Nat → Nat → Nat → Option (Nat × Nat)
  | 0, _, _, _, _ => none
  | fuel + 1, s, at_, line, col =>
    if s ≠ [] ∧ 0 < at_ then
      let d := decodeUtf8 s
      if d.ok = false then none
      else if d.char = 10 then findLineColLoop fuel (s.drop d.len) (at_ - 1) (line + 1) 0
      else findLineColLoop fuel (s.drop d.len) (at_ - 1) line (col + 1)
    else some (line, col)

/-- `find_line_col`, parts/text.c 629-653: line and column of character number `at_` (not byte). -/
def findLineCol (s : List Byte) (at_ : Nat) : Option (Nat × Nat) := findLineColLoop (s.length + 1) s at_ 1 1

/-- The excerpt printed by `handle_yaep_syntax_error`, xmq.c 4414-4422: the number of the failing character is used as a byte index. -/
def errorExcerpt (s : List Byte) (tok : Nat) : List Byte := ((s.drop (tok - 20)).take (tok + 20 - (tok - 20))).takeWhile (· ≠ 0)

/-- The number of spaces in front of the caret, xmq.c 4423. -/
def errorCaret (tok : Nat) : Nat := tok - (tok - 20)

end Xmq
