import Verif.Basic
/-!
# What tables and character sets mean
-/
namespace Xmq.Spec

/-- A table whose entries never decrease. -/
def NonDecreasing (t : List Int) : Prop := ∀ i j : Nat, ∀ a b, i ≤ j → t[i]? = some a → t[j]? = some b → a ≤ b

end Xmq.Spec
