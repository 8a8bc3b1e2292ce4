import Verif.Lemmas.EarleyTables
import Verif.Props.Earley
/-!
# C68: the tables of the Earley parser do not change its answer
-/
namespace Xmq.Props
open Xmq Xmq.Ixml Xmq.Spec Xmq.Yaep Xmq.Cfg

/-- The sets of a parse are the same with the tables as if every set had been made anew, and nothing outside of an array is read for
the tables. -/
theorem C68_sets (g : Gram) (text : List Int) : performTables g text = performParse g text := performTables_eq g text

/-- So is the answer: the tree, the flag of ambiguity, the place of the syntax error. -/
theorem C68_answer (rs : List Ixml.Rule) (text : List Int) : parseTables rs text = parseWith rs text := by
  have h : ∀ g t, yaepTables g t = yaepParse g t := fun g t => by unfold yaepTables yaepParse; rw [C68_sets]; rfl
  unfold parseTables parseWith
  split <;> simp_all

/-- What is parsed with the tables belongs to the language. -/
theorem C68_sound (rs : List Ixml.Rule) (text : List Nat) (t : PT) (amb : Bool) (h : Fit rs) (ha : parseTables rs (tokens text) = some (.tree t amb)) : InLanguage rs text :=
  C57_sound rs text t amb h (by rw [← C68_answer]; exact ha)

/-- And in a text where no rule gets in its own way everything of the language is parsed. -/
theorem C68_exact_partial (rs : List Ixml.Rule) (text : List Nat) (a : Parse) (h : Fit rs) (hf : Free rs text) (ha : parseTables rs (tokens text) = some a) :
    ((∃ t amb, a = .tree t amb) ↔ InLanguage rs text) ∧ ((∃ k, a = .noTree k) ↔ ¬ InLanguage rs text) :=
  C57_exact_partial rs text a h hf (by rw [← C68_answer]; exact ha)

/-- `s: 'a', s; 'b'.` -/
def tailRules : List Ixml.Rule :=
  [⟨b#"s", none, 0, [⟨0, .t 97⟩, ⟨0, .n b#"s"⟩]⟩, ⟨b#"s", none, 0, [⟨0, .t 98⟩]⟩]

/-- How many sets there are in the pool and how many places in the list of sets. -/
def tableSizes (rs : List Ixml.Rule) (text : List Int) : Option (Nat × Nat) :=
  match readYaep rs with
  | .accepted rules flags ff =>
    match intern ⟨rules, flags, ff⟩ [] (((Gram.mk rules flags ff).ruleIds axiomName).map fun r => (⟨r, 0⟩, 0)) with
    | .error _ => none
    | .ok (pool, r) =>
      match tableLoop ⟨rules, flags, ff⟩ [] pool [r] r text with
      | .error _ => none
      | .ok (pool, ids, _) => some (pool.length, ids.length)
  | _ => none

/-- A text in which sets are found in the tables: four sets for six places. -/
example : tableSizes tailRules ((tokens [97, 97, 97, 98]) ++ [-1]) = some (4, 6) := by decide +kernel

example : (parseTables tailRules (tokens [97, 97, 97, 98])).isSome = true := by decide +kernel

end Xmq.Props
