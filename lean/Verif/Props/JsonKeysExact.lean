import Verif.Props.JsonKeys
/-!
# Exact condition for C45: when the keys of an object are all different
-/
namespace Xmq.Props
open Xmq.Spec

/-- The keys are all different exactly if no two arrays have the same name. -/
theorem C45_iff (kids : List ObjectChild) (hn : ∀ c ∈ kids, (91 : Byte) ∉ c.name) : (objectKeys kids).Nodup ↔
    ∀ (i j : Nat) (c d : ObjectChild), i < j → kids[i]? = some c → kids[j]? = some d → c.array = true → d.array = true → c.name ≠ d.name := by
  constructor
  · intro h i j c d hij hc hd ha hb e
    unfold objectKeys List.Nodup at h
    rw [List.pairwise_iff_getElem] at h
    have g1 := keysLoop_get (totals kids fun _ => 0) kids (fun _ => 0) i c hc
    have g2 := keysLoop_get (totals kids fun _ => 0) kids (fun _ => 0) j d hd
    rw [ha, if_pos rfl] at g1
    rw [hb, if_pos rfl] at g2
    obtain ⟨hi, g1⟩ := List.getElem?_eq_some_iff.1 g1
    obtain ⟨hj, g2⟩ := List.getElem?_eq_some_iff.1 g2
    exact h i j hi hj hij (by rw [g1, g2, e])
  · intro ha
    unfold objectKeys List.Nodup
    rw [List.pairwise_iff_getElem]
    intro i j hi hj hij h
    have h : (keysLoop (totals kids fun _ => 0) kids fun _ => 0)[i]? = (keysLoop (totals kids fun _ => 0) kids fun _ => 0)[j]? := by
      rw [List.getElem?_eq_getElem hi, List.getElem?_eq_getElem hj, h]
    revert h
    rw [keysLoop_length] at hi hj
    obtain ⟨c, hc⟩ : ∃ c, kids[i]? = some c := ⟨kids[i], List.getElem?_eq_getElem (by omega)⟩
    obtain ⟨d, hd⟩ : ∃ d, kids[j]? = some d := ⟨kids[j], List.getElem?_eq_getElem hj⟩
    have mc := hn c (List.mem_of_getElem? hc)
    have md := hn d (List.mem_of_getElem? hd)
    have twice : c.name = d.name → totals kids (fun _ => 0) c.name > 1 := by
      intro e
      rw [totals_eq]
      have := two_le_count (l := kids.map (·.name)) (i := i) (j := j) (a := c.name) (by simp [hc]) (by simp [hd, e]) hij
      omega
    have one : ∀ (a b : List Byte) (t u : Nat), (91 : Byte) ∉ a → a = elementKey b t u → a = b ∧ ¬ t > 1 := by
      intro a b t u hm e
      unfold elementKey at e
      by_cases ht : t > 1
      · rw [if_pos ht] at e
        exact absurd (by rw [e]; simp) hm
      · rw [if_neg ht] at e
        exact ⟨e, ht⟩
    rw [keysLoop_get _ _ _ _ _ hc, keysLoop_get _ _ _ _ _ hd]
    intro h
    have h := Option.some.inj h
    cases hca : c.array <;> cases hda : d.array <;> rw [hca, hda] at h <;> simp only [Bool.false_eq_true, if_false, if_true, Nat.zero_add] at h
    · obtain ⟨e1, _, e3⟩ := elementKey_inj mc md h
      have := count_take_lt (l := kids.map (·.name)) (i := i) (j := j) (a := c.name) (by simp [hc]) hij
      rw [← List.map_take, ← List.map_take] at this
      have e4 := e3 (twice e1)
      rw [← e1] at e4
      omega
    · obtain ⟨e, ht⟩ := one _ _ _ _ md h.symm
      exact ht (twice e.symm)
    · obtain ⟨e, ht⟩ := one _ _ _ _ mc h
      rw [← e] at ht
      exact ht (twice e)
    · exact ha i j c d hij hc hd hca hda h

/-- An array and elements of the same name get different keys. -/
example : objectKeys [⟨b#"a", false⟩, ⟨b#"a", true⟩, ⟨b#"a", false⟩] = [b#"a[0]", b#"a", b#"a[2]"] := by decide +kernel

end Xmq.Props
