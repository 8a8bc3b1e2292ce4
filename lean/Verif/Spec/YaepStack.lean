import Verif.Basic
/-!
# A stack of objects: what it is for its users
-/
namespace Xmq.Spec

/-- The objects finished, in order, and the one being made. -/
structure Objects where
  done : List (List Byte)
  top : List Byte
  deriving DecidableEq, Repr

/-- What a user asks for. -/
inductive Ask
  | add (bs : List Byte)
  | string (s : List Byte)
  | remove (n : Nat)
  | clear
  | finish
  | empty
  deriving DecidableEq, Repr

/-- What it means.  A string takes the place of the end marker of the string before. -/
def Objects.after (o : Objects) : Ask → Objects
  | .add bs => { o with top := o.top ++ bs }
  | .string s => { o with top := o.top.dropLast ++ s ++ [0] }
  | .remove n => { o with top := o.top.take (o.top.length - n) }
  | .clear => { o with top := [] }
  | .finish => ⟨o.done ++ [o.top], []⟩
  | .empty => ⟨[], []⟩

/-- Many requests. -/
def Objects.afterAll (o : Objects) (l : List Ask) : Objects := l.foldl Objects.after o

end Xmq.Spec
