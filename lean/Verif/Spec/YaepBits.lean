import Verif.Model.YaepBits
/-!
# Sets of numbers below a bound, as predicates
-/
namespace Xmq.Spec

open Xmq.Yaep (BOp putSet)

/-- The sets after one use. -/
def bitsAfter (n : Nat) (f : Nat → Nat → Prop) : BOp → (Nat → Nat → Prop)
  | .clear r => putSet f r fun _ => False
  | .fill r => putSet f r fun i => i < n
  | .copy r s => putSet f r (f s)
  | .or r s => putSet f r fun i => f r i ∨ f s i
  | .up r num => putSet f r fun i => f r i ∨ i = num
  | .down r num => putSet f r fun i => f r i ∧ i ≠ num
  | .test _ _ => f

/-- The answer of one use: whether the set was changed, or whether it has the number. -/
def bitsAnswer (n : Nat) (f : Nat → Nat → Prop) : BOp → Prop
  | .clear _ => False
  | .fill _ => False
  | .copy _ _ => False
  | .or r s => ∃ i, i < n ∧ f s i ∧ ¬ f r i
  | .up r num => ¬ f r num
  | .down r num => f r num
  | .test r num => f r num

open Classical in
/-- All answers. -/
noncomputable def bitsAnswers (n : Nat) : (Nat → Nat → Prop) → List BOp → List Bool
  | _, [] => []
  | f, op :: ops => decide (bitsAnswer n f op) :: bitsAnswers n (bitsAfter n f op) ops

/-- The numbers used are below the bound. -/
def BelowBound (n : Nat) (ops : List BOp) : Prop :=
  ∀ r num, (BOp.up r num ∈ ops ∨ BOp.down r num ∈ ops ∨ BOp.test r num ∈ ops) → num < n

/-- Whether each pair was inserted before, since the last time the set was cleared. -/
def itemsAnswers : List (Nat × Nat) → List (Option (Nat × Nat)) → List Bool
  | _, [] => []
  | _, none :: ops => itemsAnswers [] ops
  | s, some p :: ops => decide (p ∈ s) :: itemsAnswers (p :: s) ops

end Xmq.Spec
