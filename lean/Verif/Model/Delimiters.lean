import Verif.Model.Text
/-!
# How many delimiters the printer needs (parts/xmq_printer.c) and how they are stripped again (xmq.c)
-/
namespace Xmq

/-- The loop of `count_necessary_quotes`, parts/xmq_printer.c 86-99: the final `max` and `all_safe`. -/
def quotesLoop : List Byte → Nat → Nat → Bool → Nat × Bool
  | [], max, _, allSafe => (max, allSafe)
  | c :: t, max, curr, allSafe =>
    if c == b#'\'' then quotesLoop t (if curr + 1 > max then curr + 1 else max) (curr + 1) allSafe
    else quotesLoop t max 0 (allSafe && isSafeValueChar (c :: t))

/-- The returned value of `count_necessary_quotes`, parts/xmq_printer.c 37-108. -/
def countNecessaryQuotes (s : List Byte) : Nat :=
  let r := quotesLoop s 0 0 (!unsafeValueStart (peek s) (peek s.tail))
  let max := if r.1 > 0 then r.1 + 1 else r.1
  let max := if max = 0 ∧ r.2 = false then 1 else max
  if max = 2 then 3 else max

/-- `*add_nls` as set by `count_necessary_quotes`, parts/xmq_printer.c 51-63 (the callers start with
    `false`). -/
def addNls (s : List Byte) (compact : Bool) : Bool :=
  (s.head? == some b#'\'' || s.getLast? == some b#'\'') && !compact

/-- `*add_compound` as set by `count_necessary_quotes`, parts/xmq_printer.c 64-84 (the callers start
    with `false`). -/
def addCompound (s : List Byte) (compact : Bool) : Bool :=
  ((s.head? == some b#'\'' || s.getLast? == some b#'\'') && compact) ||
  (match hasLeadingSpaceNl s with | some r => r.onlyNewlines == 0 | none => false) ||
  (match hasEndingNlSpace s with | some r => r.onlyNewlines == 0 | none => false)

/-- The loop of `count_necessary_slashes`, parts/xmq_printer.c 125-149: the final `max`.
    (The counters are C `int`s; comments of 2^31 bytes are not modelled.) -/
def slashesLoop : List Byte → Nat → Nat → Bool → Nat
  | [], max, _, _ => max
  | c :: t, max, curr, counting =>
    if counting && c == b#'/' then
      slashesLoop t (if curr + 1 > max then curr + 1 else max) (curr + 1) true
    else if c == b#'*' then slashesLoop t max 0 true
    else slashesLoop t max curr false

/-- `count_necessary_slashes`, parts/xmq_printer.c 119-151. -/
def countNecessarySlashes (s : List Byte) : Nat := slashesLoop s 0 0 false + 1

/-- The loop of `xmq_un_quote` that counts the quotes to remove, xmq.c 1272; also
    `xmq_un_comment`, xmq.c 1321 with `/`.  `k` bounds the iterations (half of the bytes and one).
    The reads `*(start+j)` and `*(stop-j-1)` come before the bounds test. -/
def stripCount (q : Byte) (s : List Byte) : Nat → Nat → Nat
  | 0, j => j
  | k + 1, j =>
    if s[j]? = some q ∧ s[s.length - j - 1]? = some q ∧ j < s.length - j then stripCount q s k (j + 1) else j

/-- Text between the removed delimiters: `start+j..stop-j`. -/
def stripDelims (q : Byte) (s : List Byte) : Nat × List Byte :=
  let j := stripCount q s s.length 0
  (j, (s.drop j).take (s.length - j - j))

end Xmq
