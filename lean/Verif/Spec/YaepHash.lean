import Verif.Model.YaepHash
/-!
# A set of elements as a list

What the users of a hash table expect: at most one of several equal elements is kept, the one that came first.
-/
namespace Xmq.Spec

open Xmq.Yaep (HOp)

/-- The set after one use. -/
def setAfter {α : Type} (eq : α → α → Bool) (s : List α) : HOp α → List α
  | .lookup _ => s
  | .insert x => if s.any (eq · x) then s else x :: s
  | .remove x => s.filter fun a => !eq a x
  | .reserve _ => s
  | .clear => []

/-- The answer of one use: the element that is equal to the given one. -/
def setAnswer {α : Type} (eq : α → α → Bool) (s : List α) : HOp α → Option α
  | .lookup x => s.find? (eq · x)
  | .insert x => s.find? (eq · x)
  | .reserve x => s.find? (eq · x)
  | _ => none

/-- All answers, and the number of elements after each use. -/
def setAnswers {α : Type} (eq : α → α → Bool) : List α → List (HOp α) → List (Option α × Nat)
  | _, [] => []
  | s, op :: ops =>
    (setAnswer eq s op, (setAfter eq s op).length) :: setAnswers eq (setAfter eq s op) ops

/-- Only elements that are there are removed. -/
def RemovesPresent {α : Type} (eq : α → α → Bool) : List α → List (HOp α) → Prop
  | _, [] => True
  | s, op :: ops =>
    (∀ x, op = .remove x → ∃ a ∈ s, eq a x = true) ∧ RemovesPresent eq (setAfter eq s op) ops

/-- Equal elements have equal hashes, and equality is one. -/
structure HashesFit {α : Type} (hash : α → UInt32) (eq : α → α → Bool) : Prop where
  refl : ∀ a, eq a a = true
  symm : ∀ a b, eq a b = true → eq b a = true
  trans : ∀ a b c, eq a b = true → eq b c = true → eq a c = true
  hash : ∀ a b, eq a b = true → hash a = hash b

end Xmq.Spec
