import Verif.Basic
/-!
# Runs of a delimiter byte inside a text
-/
namespace Xmq.Spec

/-- `s` contains no `d` consecutive bytes `q`. -/
def NoRun (q : Byte) (d : Nat) (s : List Byte) : Prop := ¬ List.replicate d q <:+: s

end Xmq.Spec
