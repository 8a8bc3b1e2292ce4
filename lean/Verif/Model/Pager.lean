import Verif.Basic
/-!
# The pager (xmq-cli.c 2866-3060 and 3448-3561)

A position is a number of bytes from the start of the text.  The byte at the end of the text, which the code reads in a few places,
is taken to be NUL.
-/
namespace Xmq.Pager

/-- The byte at a position. -/
def at' (s : List Byte) (i : Nat) : Byte := (s[i]?).getD 0

/-- Where the loop of `find_next_line` is: at its head, in an escape sequence, or behind one. -/
inductive Mode
  | head
  | escape
  | behind
  deriving DecidableEq, Repr

/-- How the loop of `find_next_line` ends. -/
inductive Found
  | newline (i : Nat)
  | wrapped (i : Nat)
  | ended
  deriving DecidableEq, Repr

/-- The loop of `find_next_line`, xmq-cli.c 3026-3055; the list is the text from `i` on.  Behind an escape sequence at the very end of
    the text, the byte at the end is read, without any effect. -/
def nextScan (width : Nat) : Mode → Nat → Nat → List Byte → Found
  | _, _, _, [] => .ended
  | .escape, col, i, c :: t => nextScan width (if c == b#'m' then .behind else .escape) col (i + 1) t
  | .head, col, i, c :: t =>
    if c == 27 then nextScan width .escape col (i + 1) t
    else if c == b#'\n' then .newline i
    else if col + 1 ≥ width then .wrapped i
    else nextScan width .head (col + 1) (i + 1) t
  | .behind, col, i, c :: t =>
    if c == b#'\n' then .newline i
    else if col + 1 ≥ width then .wrapped i
    else nextScan width .head (col + 1) (i + 1) t

/-- `line_offset` and `in_line_offset`. -/
structure Place where
  lo : Nat
  ilo : Nat
  deriving DecidableEq, Repr

/-- `find_next_line`, xmq-cli.c 3013-3060. -/
def findNextLine (s : List Byte) (width : Nat) (p : Place) : Place :=
  match nextScan width .head 0 p.ilo (s.drop p.ilo) with
  | .newline i => ⟨i + 1, i + 1⟩
  | .wrapped i => ⟨p.lo, i⟩
  | .ended => p

/-- `count_non_ansi_chars`, xmq-cli.c 2866-2887, over the bytes from `start` to `stop`.  The `continue` in the inner loop does not leave
    it, so that an escape takes the rest. -/
def countNonAnsi : List Byte → Nat
  | [] => 0
  | c :: t => if c == 27 then 1 else countNonAnsi t + 1

/-- `isdigit`. -/
def isDig (c : Byte) : Bool := b#'0' ≤ c && c ≤ b#'9'

/-- The loop of `skip_ansi_backwards`, xmq-cli.c 2899-2907: `none` for `return org_i`, else where it stops. -/
def backLoop (s : List Byte) : Nat → Option Nat
  | 0 => some 0
  | i + 1 =>
    if at' s (i + 1) == b#'[' then some (i + 1)
    else if !isDig (at' s (i + 1)) && at' s (i + 1) != b#';' then none
    else backLoop s i

/-- `skip_ansi_backwards`, xmq-cli.c 2889-2913. -/
def skipAnsiBackwards (s : List Byte) (i : Nat) : Nat :=
  if at' s i != b#'m' then i
  else if i < 4 then i
  else if !isDig (at' s (i - 1)) then i
  else
    match backLoop s i with
    | none => i
    | some 0 => i
    | some (j + 1) => if at' s j != 27 then i else j - 1

/-- `skip_line_width_backwards`, xmq-cli.c 2927-2941.  The first argument bounds the number of rounds. -/
def skipBack (s : List Byte) (lo : Nat) : Nat → Nat → Nat → Nat
  | 0, _, _ => 0
  | fuel + 1, i, width =>
    if i > 0 then
      let i := skipAnsiBackwards s i
      let width := width - 1
      let i := i - 1
      if at' s i == b#'\n' then i + 1
      else if i == lo then i
      else if width == 0 then i
      else skipBack s lo fuel i width
    else 0

/-- The loop of `find_prev_line_start`, xmq-cli.c 2952-2959. -/
def prevLoop (s : List Byte) : Nat → Nat
  | 0 => 0
  | i + 1 => if at' s (i + 1) == b#'\n' then i + 2 else prevLoop s i

/-- `find_prev_line_start`, xmq-cli.c 2945-2961. -/
def findPrevLineStart (s : List Byte) (p : Place) : Nat := if p.ilo > p.lo then p.lo else prevLoop s (p.lo - 2)

/-- `find_prev_line`, xmq-cli.c 2963-2995, for a positive width. -/
def findPrevLine (s : List Byte) (width : Nat) (p : Place) : Place :=
  let prevLo := findPrevLineStart s p
  let diff := countNonAnsi ((s.take p.ilo).drop prevLo)
  if diff > width then ⟨prevLo, skipBack s p.lo p.ilo p.ilo width⟩ else ⟨prevLo, prevLo⟩

/-- `find_next_page`, xmq-cli.c 2997-3003. -/
def findNextPage (s : List Byte) (width : Nat) : Nat → Place → Place
  | 0, p => p
  | h + 1, p => findNextPage s width h (findNextLine s width p)

/-- `find_prev_page`, xmq-cli.c 3005-3011. -/
def findPrevPage (s : List Byte) (width : Nat) : Nat → Place → Place
  | 0, p => p
  | h + 1, p => findPrevPage s width h (findPrevLine s width p)

/-- The loop of `page` that fills the buffer, xmq-cli.c 3484-3526, from `i` on: what is appended.  `esc`: inside the loop for an
    escape sequence, xmq-cli.c 3489-3495. -/
def draw (width height ilo : Nat) : Bool → Nat → Nat → Nat → List Byte → List Byte
  | _, _, _, _, [] => []
  | esc, i, row, col, c :: t =>
    if esc || c == 27 then c :: draw width height ilo (c != b#'m') (i + 1) row col t
    else if i ≥ ilo then
      if c == b#'\n' then if row + 1 ≥ height then [] else c :: draw width height ilo false (i + 1) (row + 1) 0 t
      else if col + 1 ≥ width then
        if row + 1 ≥ height then [c] else c :: draw width height ilo false (i + 1) (row + 1) 0 t
      else c :: draw width height ilo false (i + 1) row (col + 1) t
    else c :: draw width height ilo false (i + 1) row col t

/-- What is written for a place, xmq-cli.c 3480-3527. -/
def screen (s : List Byte) (width height : Nat) (p : Place) : List Byte := draw width height p.ilo false p.lo 0 0 (s.drop p.lo)

/-- The keys that move, xmq-cli.c 3533-3557. -/
inductive Key
  | space
  | pageUp
  | down
  | up
  | first
  | last
  deriving DecidableEq, Repr

/-- What a key does, xmq-cli.c 3533-3557; `none`: a place before the text. -/
def press (s : List Byte) (width height : Nat) (p : Place) : Key → Option Place
  | .space => some (findNextPage s width height p)
  | .pageUp => some (findPrevPage s width height p)
  | .down => some (findNextLine s width p)
  | .up => some (findPrevLine s width p)
  | .first => some ⟨0, 0⟩
  | .last => if s.length < 100 then none else some ⟨s.length - 100, s.length - 100⟩

/-- A number of keys one after the other. -/
def presses (s : List Byte) (width height : Nat) (p : Place) : List Key → Option Place
  | [] => some p
  | k :: ks => (press s width height p k).bind fun p => presses s width height p ks

end Xmq.Pager
