import Verif.Model.Sort
/-!
# C24 sorting of strings
-/
namespace Xmq.Props
open Xmq

/-- `strcmp` is negative exactly for the lexicographic order of the bytes as unsigned numbers. -/
theorem strcmp_neg (a b : List Byte) (ha : 0 ∉ a) (hb : 0 ∉ b) : strcmp a b < 0 ↔ a < b := by
  induction a generalizing b with
  | nil =>
    cases b with
    | nil => simp [strcmp]
    | cons d t =>
      have : d.toNat ≠ 0 := fun h => hb (by simp [show d = 0 from UInt8.toNat.inj h])
      simp [strcmp]; omega
  | cons c s ih =>
    cases b with
    | nil => simp [strcmp]
    | cons d t =>
      rw [strcmp, List.cons_lt_cons_iff]
      by_cases h : c = d
      · subst h
        rw [if_pos rfl, ih t (fun h => ha (by simp [h])) (fun h => hb (by simp [h]))]
        simp
      · rw [if_neg h, UInt8.lt_iff_toNat_lt]
        simp only [h, false_and, or_false]
        omega

theorem swapAt_split {α : Type} (A B C : List α) (a b : α) :
    swapAt (A ++ a :: (B ++ b :: C)) (A.length + 1 + B.length) A.length = some (A ++ b :: (B ++ a :: C)) := by
  have h1 : (A ++ a :: (B ++ b :: C))[A.length + 1 + B.length]? = some b := by
    rw [List.getElem?_append_right (by omega), show A.length + 1 + B.length - A.length = B.length + 1 by omega]
    simp
  have h2 : (A ++ a :: (B ++ b :: C))[A.length]? = some a := by simp
  rw [swapAt, h1, h2]
  simp only [Option.some.injEq]
  rw [List.set_append_right _ _ (by omega), show A.length + 1 + B.length - A.length = B.length + 1 by omega]
  simp

theorem swapAt_split' {α : Type} (A B C : List α) (a b : α) :
    swapAt (A ++ a :: (B ++ b :: C)) A.length (A.length + 1 + B.length) = some (A ++ b :: (B ++ a :: C)) := by
  have h1 : (A ++ a :: (B ++ b :: C))[A.length + 1 + B.length]? = some b := by
    rw [List.getElem?_append_right (by omega), show A.length + 1 + B.length - A.length = B.length + 1 by omega]
    simp
  have h2 : (A ++ a :: (B ++ b :: C))[A.length]? = some a := by simp
  rw [swapAt, h1, h2]
  simp only [Option.some.injEq]
  rw [List.set_append_right _ _ (by omega)]
  simp only [Nat.sub_self, List.set_cons_zero]
  rw [List.set_append_right _ _ (by omega), show A.length + 1 + B.length - A.length = B.length + 1 by omega]
  simp

theorem swapAt_self {α : Type} (A C : List α) (a : α) : swapAt (A ++ a :: C) A.length A.length = some (A ++ a :: C) := by
  simp [swapAt]

/-- What the loop has achieved when `A`, `B` are the processed parts and `C ++ [p]` remains. -/
theorem partition_spec (C A B : List (List Byte)) (p : List Byte) (n : Nat)
    (hn : n = (A ++ B ++ C ++ [p]).length)
    (hA : ∀ x ∈ A, strcmp x p < 0) (hB : ∀ x ∈ B, ¬ strcmp x p < 0) (hp : ¬ strcmp p p < 0) :
    ∃ A' B', partitionLoop n (C.length + 1) (A ++ B ++ C ++ [p]) A.length = some (A' ++ B' ++ [p], A'.length) ∧
      (A' ++ B').Perm (A ++ B ++ C) ∧ (∀ x ∈ A', strcmp x p < 0) ∧ (∀ x ∈ B', ¬ strcmp x p < 0) := by
  induction C generalizing A B with
  | nil =>
    refine ⟨A, B, ?_, by simp, hA, hB⟩
    have hi : n - 1 = (A ++ B).length := by simp [hn] <;> omega
    have hg : (A ++ B ++ [] ++ [p])[n - 1]? = some p := by rw [hi]; simp
    rw [List.length_nil, partitionLoop]
    simp only [Nat.zero_add, hg, hp, if_false, partitionLoop]
    simp
  | cons c C ih =>
    have hlast : (A ++ B ++ (c :: C) ++ [p])[n - 1]? = some p := by
      have : n - 1 = (A ++ B ++ (c :: C)).length := by simp [hn] <;> omega
      rw [this]; simp
    have hi : n - (C.length + 1 + 1) = (A ++ B).length := by simp [hn] <;> omega
    have hcur : (A ++ B ++ (c :: C) ++ [p])[(A ++ B).length]? = some c := by
      rw [List.append_assoc, List.getElem?_append_right (Nat.le_refl _)]; simp
    rw [List.length_cons, partitionLoop, hi]
    simp only [hcur, hlast]
    by_cases hc : strcmp c p < 0
    · rw [if_pos hc]
      cases B with
      | nil =>
        have hsw : swapAt (A ++ [] ++ c :: C ++ [p]) (A ++ []).length A.length = some (A ++ [c] ++ [] ++ C ++ [p]) := by
          have := swapAt_self A (C ++ [p]) c
          simpa using this
        rw [hsw, Option.bind_some]
        obtain ⟨A', B', h1, h2, h3, h4⟩ := ih (A ++ [c]) [] (by simp [hn] <;> omega)
          (by simp only [List.mem_append, List.mem_singleton]; rintro x (h | rfl); exact hA x h; exact hc) hB
        refine ⟨A', B', ?_, ?_, h3, h4⟩
        · rw [← h1]; simp
        · simpa using h2
      | cons b B =>
        have hsw : swapAt (A ++ b :: B ++ c :: C ++ [p]) (A ++ b :: B).length A.length
            = some (A ++ [c] ++ (B ++ [b]) ++ C ++ [p]) := by
          have := swapAt_split A B (C ++ [p]) b c
          rw [show (A ++ b :: B).length = A.length + 1 + B.length by simp; omega]
          simpa using this
        rw [hsw, Option.bind_some]
        obtain ⟨A', B', h1, h2, h3, h4⟩ := ih (A ++ [c]) (B ++ [b]) (by simp [hn] <;> omega)
          (by simp only [List.mem_append, List.mem_singleton]; rintro x (h | rfl); exact hA x h; exact hc)
          (by intro x hx; apply hB; simp at hx ⊢; grind)
        refine ⟨A', B', ?_, h2.trans ?_, h3, h4⟩
        · rw [← h1]; simp
        · simp only [List.append_assoc, List.cons_append, List.nil_append]
          refine List.Perm.append_left A ?_
          refine List.Perm.trans ?_ (List.perm_middle (a := c) (l₁ := b :: B) (l₂ := C)).symm
          refine List.Perm.cons c ?_
          exact List.perm_middle
    · rw [if_neg hc]
      obtain ⟨A', B', h1, h2, h3, h4⟩ := ih A (B ++ [c]) (by simp [hn] <;> omega) hA
        (by simp only [List.mem_append, List.mem_singleton]; rintro x (h | rfl); exact hB x h; exact hc)
      refine ⟨A', B', ?_, ?_, h3, h4⟩
      · rw [← h1]; simp
      · simpa using h2

theorem quicksort_spec (fuel : Nat) (l : List (List Byte)) (hz : ∀ s ∈ l, 0 ∉ s) (hf : l.length < fuel) :
    ∃ m, quicksortStrings fuel l = some m ∧ m.Perm l ∧ m.Pairwise (· ≤ ·) := by
  induction fuel generalizing l with
  | zero => omega
  | succ fuel ih =>
    rw [quicksortStrings]
    by_cases hl : l.length ≤ 1
    · rw [if_pos hl]
      refine ⟨l, rfl, .refl _, ?_⟩
      match l, hl with
      | [], _ => simp
      | [a], _ => simp
    · rw [if_neg hl]
      rcases List.eq_nil_or_concat l with rfl | ⟨C, p, rfl⟩
      · simp at hl
      rw [List.concat_eq_append] at hl hf hz ⊢
      have hp0 : 0 ∉ p := hz p (by simp)
      have hirr : ¬ strcmp p p < 0 := by rw [strcmp_neg p p hp0 hp0]; exact List.lt_irrefl p
      obtain ⟨A, B, h1, h2, h3, h4⟩ := partition_spec C [] [] p (C ++ [p]).length (by simp) (by simp) (by simp) hirr
      simp only [List.nil_append, List.length_nil] at h1 h2
      have hlen : (C ++ [p]).length = C.length + 1 := by simp
      rw [hlen] at h1 ⊢
      rw [h1, Option.bind_some]
      have hAB : A.length + B.length = C.length := by have := h2.length_eq; simpa using this
      have hmem : ∀ x, x ∈ A ∨ x ∈ B → x ∈ C := fun x hx => h2.mem_iff.1 (by simpa using hx)
      have hzA : ∀ s ∈ A, 0 ∉ s := fun s hs => hz s (by simp [hmem s (.inl hs)])
      have hzB : ∀ s ∈ B, 0 ∉ s := fun s hs => hz s (by simp [hmem s (.inr hs)])
      -- the pivot is moved to its place
      have hsw : ∃ B', swapAt (A ++ B ++ [p]) A.length (C.length + 1 - 1) = some (A ++ p :: B') ∧ B'.Perm B := by
        cases B with
        | nil =>
          refine ⟨[], ?_, .refl _⟩
          have := swapAt_self A [] p
          rw [show C.length + 1 - 1 = A.length by simp at hAB; omega]
          simpa using this
        | cons b B =>
          refine ⟨B ++ [b], ?_, ?_⟩
          · have := swapAt_split' A B [] b p
            rw [show C.length + 1 - 1 = A.length + 1 + B.length by simp at hAB; omega]
            simpa using this
          · exact List.perm_append_singleton b B
      obtain ⟨B', hs1, hs2⟩ := hsw
      simp only [hs1, Option.bind_some]
      have ht : (A ++ p :: B').take A.length = A := by simp
      have hd : (A ++ p :: B').drop (A.length + 1) = B' := by
        rw [List.drop_append]; simp
      have hd0 : ((A ++ p :: B').drop A.length).take 1 = [p] := by simp
      rw [ht, hd, hd0]
      have hf' : C.length + 1 < fuel + 1 := by simpa using hf
      obtain ⟨a, a1, a2, a3⟩ := ih A hzA (by omega)
      obtain ⟨b, b1, b2, b3⟩ := ih B' (fun s hs => hzB s (hs2.mem_iff.1 hs)) (by have := hs2.length_eq; omega)
      rw [a1, Option.bind_some, b1]
      refine ⟨a ++ [p] ++ b, rfl, ?_, ?_⟩
      · have e1 : (a ++ [p] ++ b).Perm (A ++ [p] ++ B) := (a2.append_right [p]).append (b2.trans hs2)
        refine e1.trans ?_
        refine List.Perm.trans ?_ (List.Perm.append_right [p] h2)
        rw [List.append_assoc, List.append_assoc]
        exact List.Perm.append_left A (List.perm_append_comm)
      · have hap : ∀ x ∈ a, x ≤ p := by
          intro x hx
          have hxA := a2.mem_iff.1 hx
          have := (strcmp_neg x p (hzA x hxA) hp0).1 (h3 x hxA)
          exact List.not_lt.1 (fun h => List.lt_irrefl x (List.lt_trans this h))
        have hpb : ∀ y ∈ b, p ≤ y := by
          intro y hy
          have hyB := hs2.mem_iff.1 (b2.mem_iff.1 hy)
          have := h4 y hyB
          rw [strcmp_neg y p (hzB y hyB) hp0] at this
          exact List.not_lt.1 this
        rw [List.append_assoc, List.pairwise_append]
        refine ⟨a3, ?_, ?_⟩
        · simp only [List.singleton_append, List.pairwise_cons]
          exact ⟨hpb, b3⟩
        · intro x hx y hy
          simp only [List.singleton_append, List.mem_cons] at hy
          rcases hy with rfl | hy
          · exact hap x hx
          · exact List.le_trans (hap x hx) (hpb y hy)

/-- **C24**.  For every array of C strings the sort terminates, stays inside the array, and leaves a permutation of
    the original strings in ascending order of their bytes as unsigned numbers. -/
theorem C24_sorts (l : List (List Byte)) (hz : ∀ s ∈ l, 0 ∉ s) :
    ∃ fuel m, quicksortStrings fuel l = some m ∧ m.Perm l ∧ m.Pairwise (· ≤ ·) :=
  ⟨l.length + 1, quicksort_spec _ l hz (by omega)⟩

/-- **C24** (functional).  Whatever depth is allowed, a result is the sorted permutation; there is only one. -/
theorem C24_result_unique (l m : List (List Byte)) (hz : ∀ s ∈ l, 0 ∉ s)
    (hp : m.Perm l) (hs : m.Pairwise (· ≤ ·)) :
    ∀ fuel, l.length < fuel → quicksortStrings fuel l = some m := by
  intro fuel hf
  obtain ⟨m', h1, h2, h3⟩ := quicksort_spec fuel l hz hf
  rw [h1]
  congr 1
  exact (h2.trans hp.symm).eq_of_pairwise (fun a b _ _ h h' => List.le_antisymm h h') h3 hs

/-- The order of bytes is unsigned: a letter comes before a byte above 127. -/
example : quicksortStrings 9 [b#"b", [0xC3, 0xA5], b#"ab", b#"a", b#"", b#"b"] =
    some [b#"", b#"a", b#"ab", b#"b", b#"b", [0xC3, 0xA5]] := by decide +kernel

end Xmq.Props
