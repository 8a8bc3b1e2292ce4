import Verif.Model.Pager
/-!
# The keys of a terminal and what they mean for the pager
-/
namespace Xmq.Spec

open Xmq Xmq.Pager

/-- A key that a user presses. -/
inductive Stroke
  | space | pageDown | pageUp | enter | down | up | first | last
  /-- Any other printable character of ASCII but q and Q. -/
  | other (c : Byte)
deriving DecidableEq, Repr

/-- The other characters are none of those with a meaning. -/
def Stroke.Ok : Stroke → Prop
  | .other c => 33 ≤ c ∧ c ≤ 126 ∧ c ∉ b#"<>qQ"
  | _ => True

/-- What an xterm sends. -/
def Stroke.sent : Stroke → List Byte
  | .space => b#" "
  | .pageDown => 27 :: b#"[6~"
  | .pageUp => 27 :: b#"[5~"
  | .enter => [13]
  | .down => 27 :: b#"[B"
  | .up => 27 :: b#"[A"
  | .first => b#"<"
  | .last => b#">"
  | .other c => [c]

/-- What is to be done. -/
def Stroke.means : Stroke → Option Key
  | .space => some .space
  | .pageDown => some .space
  | .pageUp => some .pageUp
  | .enter => some .down
  | .down => some .down
  | .up => some .up
  | .first => some .first
  | .last => some .last
  | .other _ => none

end Xmq.Spec
