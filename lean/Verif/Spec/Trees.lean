import Verif.Model.Earley
import Verif.Spec.Cfg
/-!
# Parse trees of a context free grammar
-/
namespace Xmq.Spec
open Xmq.Ixml (Sym)
open Xmq.Yaep (Rule PT)

/-- `Parses R α ts w`: the trees `ts` derive the terminals `w` from the symbols `α`.  A node bears the number of its rule. -/
inductive Parses (R : List Rule) : List Sym → List PT → List Int → Prop
  | nil : Parses R [] [] []
  | leaf (c : Int) (α : List Sym) (ts : List PT) (w : List Int) : Parses R α ts w → Parses R (.t c :: α) (.leaf c :: ts) (c :: w)
  | node (r : Nat) (ρ : Rule) (kids : List PT) (u : List Int) (α : List Sym) (ts : List PT) (w : List Int) : R[r]? = some ρ →
      Parses R ρ.rhs kids u → Parses R α ts w → Parses R (.n ρ.lhs :: α) (.node r kids :: ts) (u ++ w)

/-- Two beginnings of a rule which get in each other's way in the text `w`: the rule can begin behind `u`, and again behind `u ++ v`, where `v` is derived from the first `j'`
symbols of the rule, while more than these `j'` symbols can be empty. -/
def Clash {σ : Type} (P : σ → List σ → Prop) (s : σ) (w : List σ) : Prop :=
  ∃ x rhs, P x rhs ∧ ∃ u v z γ γ' j' j, w = u ++ (v ++ z) ∧ v ≠ [] ∧ j' < j ∧ j ≤ rhs.length ∧ (∀ y ∈ rhs.take j, Nullable P y) ∧ Yields P (rhs.take j') v ∧
    Yields P [s] (u ++ x :: γ) ∧ Yields P [s] (u ++ (v ++ x :: γ'))

end Xmq.Spec
