/-!
# Context free grammars

A grammar is a relation `P` between a symbol and the right sides of its rules.  A terminal has none.
-/
namespace Xmq.Spec

/-- `Yields P α β`: the string of symbols `β` is derived from `α` in any number of steps. -/
inductive Yields {σ : Type} (P : σ → List σ → Prop) (α : List σ) : List σ → Prop
  | refl : Yields P α α
  | step (u : List σ) (x : σ) (v rhs : List σ) : Yields P α (u ++ x :: v) → P x rhs → Yields P α (u ++ (rhs ++ v))

/-- The symbol can be the empty string. -/
def Nullable {σ : Type} (P : σ → List σ → Prop) (x : σ) : Prop := Yields P [x] []

/-- The symbol derives a string of terminals. -/
def Productive {σ : Type} (P : σ → List σ → Prop) (T : σ → Prop) (x : σ) : Prop := ∃ w, (∀ y ∈ w, T y) ∧ Yields P [x] w

/-- The symbol occurs in something that is derived from `s`. -/
def Reachable {σ : Type} (P : σ → List σ → Prop) (s x : σ) : Prop := ∃ u v, Yields P [s] (u ++ x :: v)

/-- The symbol derives itself in at least one step. -/
def Loops {σ : Type} (P : σ → List σ → Prop) (x : σ) : Prop := ∃ rhs, P x rhs ∧ Yields P rhs [x]

/-- Something derived from `α` begins with `t`. -/
def Begins {σ : Type} (P : σ → List σ → Prop) (α : List σ) (t : σ) : Prop := ∃ β, Yields P α (t :: β)

/-- Something derived from a single symbol has `t` directly behind `x`. -/
def Follows {σ : Type} (P : σ → List σ → Prop) (x t : σ) : Prop := ∃ b u v, Yields P [b] (u ++ x :: t :: v)

end Xmq.Spec
