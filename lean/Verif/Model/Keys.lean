import Verif.Model.Pager
/-!
# The keys of the pager (xmq-cli.c 3063-3073, 3158-3196, 3478-3561)

The input is what is typed from now on.  Behind its end `read` fails, as it does when the terminal is gone.
-/
namespace Xmq.Keys

open Xmq.Pager (Place Key press)

/-- `KEY`, xmq-cli.c 236-248, with the value left in `*c` for `CHARACTER`; `none` stands for -1. -/
inductive Read
  | enter
  | arrowUp
  | arrowDown
  | arrowLeft
  | arrowRight
  | pageUp
  | pageDown
  | character (c : Option Byte)
deriving DecidableEq, Repr

/-- `get_char`, xmq-cli.c 3063-3073, not for Windows. -/
def getChar : List Byte → Option Byte × List Byte
  | [] => (none, [])
  | c :: t => (some c, t)

/-- `read_key`, xmq-cli.c 3158-3196. -/
def readKey (inp : List Byte) : Read × List Byte :=
  let (k, r) := getChar inp
  if k = some 10 ∨ k = some 13 then (.enter, r)
  else if k = some 0 ∨ k = some 224 then
    let (k, r) := getChar r
    if k = some 72 then (.arrowUp, r)
    else if k = some 75 then (.arrowLeft, r)
    else if k = some 77 then (.arrowRight, r)
    else if k = some 80 then (.arrowDown, r)
    else if k = some 73 then (.pageUp, r)
    else if k = some 81 then (.pageDown, r)
    else (.character k, r)
  else if k = some 27 then
    let (k, r) := getChar r
    if k = some 91 then
      let (k, r) := getChar r
      if k = some 65 then (.arrowUp, r)
      else if k = some 66 then (.arrowDown, r)
      else if k = some 53 then
        let (k, r) := getChar r
        if k = some 126 then (.pageUp, r) else (.character k, r)
      else if k = some 54 then
        let (k, r) := getChar r
        if k = some 126 then (.pageDown, r) else (.character k, r)
      else (.character k, r)
    else (.character k, r)
  else (.character k, r)

/-- What the loop of `page` does for a key. -/
inductive Action
  | move (k : Key)
  | stay
  | quit
deriving DecidableEq, Repr

/-- The decisions of `page`, xmq-cli.c 3533-3558. -/
def action (k : Read) : Action :=
  if k = .character (some b#' ') ∨ k = .pageDown then .move .space
  else if k = .pageUp then .move .pageUp
  else if k = .enter ∨ k = .arrowDown then .move .down
  else if k = .arrowUp then .move .up
  else if k = .character (some b#'<') then .move .first
  else if k = .character (some b#'>') then .move .last
  else if k = .character (some 27) ∨ k = .character (some b#'q') ∨ k = .character (some b#'Q') then .quit
  else .stay

/-- Where the pager is. -/
inductive State
  /-- It shows a place and waits for input. -/
  | reading (p : Place) (inp : List Byte)
  /-- It has ended. -/
  | left (p : Place) (inp : List Byte)
  /-- The place is before the text. -/
  | outside
deriving DecidableEq, Repr

/-- A number of rounds of the loop of `page`, xmq-cli.c 3478-3561. -/
def rounds (s : List Byte) (w h : Nat) : Nat → Place → List Byte → State
  | 0, p, inp => .reading p inp
  | n + 1, p, inp =>
    match action (readKey inp).1 with
    | .quit => .left p (readKey inp).2
    | .stay => rounds s w h n p (readKey inp).2
    | .move k =>
      match press s w h p k with
      | none => .outside
      | some p => rounds s w h n p (readKey inp).2

end Xmq.Keys
