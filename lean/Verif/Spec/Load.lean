import Verif.Model.Load
/-!
# What loading should give

The buffer is the contents with a NUL behind; only the amounts given by the system decide whether it is complete.
-/
namespace Xmq.Spec.Load
open Xmq.Load

/-- The contents with a NUL behind them. -/
def closed (s : List Byte) : List (Option Byte) := (s ++ [0]).map some

/-- The most bytes that these answers can give with blocks of 1024 bytes. -/
def most (as : List Answer) : Nat := (as.map fun a => match a with | .bytes k => min (k + 1) 1024 | _ => 0).sum

/-- Everything has been given without a failure, and a call has shown that there is no more. -/
def Complete (s : List Byte) (as : List Answer) : Prop :=
  ∃ pre k post, as = pre ++ .bytes k :: post ∧ .failed ∉ pre ∧ s.length ≤ most pre

/-- The most bytes that these calls of `fread` give before one of them gives nothing. -/
def mostFile (ks : List Nat) : Nat := ((ks.takeWhile (· != 0)).map (min · 10000)).sum

end Xmq.Spec.Load
