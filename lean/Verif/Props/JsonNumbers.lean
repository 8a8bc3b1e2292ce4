import Verif.Lemmas.JsonNumber
/-!
# Property C27: recognition of JSON numbers
-/
namespace Xmq.Props
open Xmq Xmq.Spec

/-- **C27**, as one would like it. -/
def JsonNumbersExact : Prop := ∀ s : List Byte, jsonIsNumber s = true ↔ JsonNumber s

/-- **C27** is false, numbers are missed: `0e5` is a JSON number and not recognised. -/
theorem C27_missed : JsonNumber b#"0e5" ∧ jsonIsNumber b#"0e5" = false :=
  ⟨⟨[], b#"0", [], b#"e5", rfl, .inl rfl, .inl rfl, .inl rfl,
    .inr ⟨b#'e', [], b#"5", rfl, .inl rfl, .inl rfl, by decide, by simp [JDigit]⟩⟩, by decide +kernel⟩

/-- **C27** is false, too much is recognised: `-012` is not a JSON number. -/
theorem C27_extra : jsonIsNumber b#"-012" = true ∧ ¬ JsonNumber b#"-012" := by
  refine ⟨by decide +kernel, ?_⟩
  rintro ⟨minus, int, frac, exp, e, hm, hi, hf, he⟩
  have hm' : minus = [b#'-'] := by
    rcases hm with rfl | rfl
    · exfalso
      have h1 : ∃ c t, int = c :: t ∧ JDigit c := by
        rcases hi with rfl | ⟨hi, _⟩
        · exact ⟨_, _, rfl, by simp [JDigit]⟩
        · match int, hi with
          | c :: t, hi => exact ⟨c, t, rfl, hi.2 c List.mem_cons_self⟩
          | [], hi => exact absurd rfl hi.1
      obtain ⟨c, t, rfl, hc⟩ := h1
      simp at e
      rw [← e.1] at hc
      simp [JDigit] at hc
    · rfl
  subst hm'
  rcases hi with rfl | ⟨hi, h0⟩
  · simp at e
    rcases hf with rfl | ⟨ds, rfl, _⟩
    · rcases he with rfl | ⟨x, sign, ds, rfl, hx, _⟩
      · cases e
      · simp at e
        rcases hx with rfl | rfl <;> simp at e
    · simp at e
  · match int, hi, h0 with
    | c :: t, _, h0 =>
      simp at e
      exact h0 (by rw [← e.1]; rfl)
    | [], hi, _ => exact absurd rfl hi.1

theorem C27_false : ¬ JsonNumbersExact := by
  intro h
  have := (h b#"0e5").2 C27_missed.1
  rw [C27_missed.2] at this
  cases this

/-- **C27**, completeness: every JSON number that does not start with `0e` is recognised, at the end of the input and before
    a space, a line feed, a comma or a closing bracket, and exactly its bytes are taken. -/
theorem C27_complete_partial (s : List Byte) (h : JsonNumber s) (h0 : s.take 2 ≠ b#"0e" ∧ s.take 2 ≠ b#"0E") :
    jsonIsNumber s = true ∧ isJnumber s = some s.length ∧
      ∀ (c : Byte) (rest : List Byte), c = b#' ' ∨ c = b#'\n' ∨ c = b#',' ∨ c = b#'}' ∨ c = b#']' → isJnumber (s ++ c :: rest) = some s.length := by
  have h1 := isJnumber_of s [] h h0 (.inl rfl)
  rw [List.append_nil] at h1
  refine ⟨by simp [jsonIsNumber, h1], h1, ?_⟩
  intro c rest hc
  refine isJnumber_of s _ h h0 (.inr ?_)
  rw [peek_cons]
  rcases hc with rfl | rfl | rfl | rfl | rfl <;> decide

/-- A case for `C27_complete_partial`. -/
example : JsonNumber b#"-10.50e+07" ∧ isJnumber (b#"-10.50e+07" ++ b#", 1") = some 10 :=
  ⟨⟨b#"-", b#"10", b#".50", b#"e+07", rfl, .inr rfl, .inr ⟨⟨by decide, by simp [JDigit]⟩, by decide⟩, .inr ⟨b#"50", rfl, by decide, by simp [JDigit]⟩,
    .inr ⟨b#'e', b#"+", b#"07", rfl, .inl rfl, .inr (.inl rfl), by decide, by simp [JDigit]⟩⟩, by decide +kernel⟩

/-- **C27**, a number before a tab or a carriage return is not recognised. -/
theorem C27_tab : JsonNumber b#"1" ∧ isJnumber (b#"1" ++ [9]) = none ∧ isJnumber (b#"1" ++ [13, 10]) = none :=
  ⟨⟨[], b#"1", [], [], rfl, .inl rfl, .inr ⟨⟨by decide, by simp [JDigit]⟩, by decide⟩, .inl rfl, .inl rfl⟩, by decide +kernel⟩

/-- **C27**, soundness: a text of digits and dots, possibly behind a minus, that is taken for a number is one; behind the minus a
    leading dot and superfluous leading zeros have to be excluded. -/
theorem C27_sound_partial (minus t : List Byte) (hm : minus = [] ∨ minus = [b#'-']) (ht : ∀ c ∈ t, JDigit c ∨ c = b#'.')
    (hz : minus ≠ [] → t.head? ≠ some b#'.' ∧ (t.head? = some b#'0' → t.tail = [] ∨ t.tail.head? = some b#'.'))
    (h : jsonIsNumber (minus ++ t) = true) : JsonNumber (minus ++ t) := by
  simp only [jsonIsNumber, beq_iff_eq] at h
  rcases hm with rfl | rfl
  · rw [List.nil_append] at h ⊢
    unfold isJnumber at h
    match t, ht, h with
    | [], _, h => cases h
    | c :: t, ht, h =>
      dsimp only at h
      have ht' : ∀ c ∈ t, JDigit c ∨ c = b#'.' := fun x hx => ht x (List.mem_cons_of_mem _ hx)
      rcases ht c List.mem_cons_self with hc | rfl
      · have hc' := (isDigit_iff c).2 hc
        obtain ⟨_, _, _, _, _, f6⟩ := digit_facts c hc'
        rw [hc', Bool.not_true, Bool.false_and, if_neg (by simp)] at h
        have := jnum_plain t _ 1 rfl ht' (h.trans (by rw [List.length_cons, Nat.add_comm]))
        dsimp only at this
        by_cases h0 : c = b#'0'
        · subst h0
          rw [if_pos (by decide)] at this
          rcases this with rfl | ⟨ds, rfl, g1, g2⟩
          · exact ⟨[], b#"0", [], [], rfl, .inl rfl, .inl rfl, .inl rfl, .inl rfl⟩
          · exact ⟨[], b#"0", b#'.' :: ds, [], by simp, .inl rfl, .inl rfl, .inr ⟨ds, rfl, g1, g2⟩, .inl rfl⟩
        · rw [if_neg (by simpa using h0), if_neg (by simp)] at this
          obtain ⟨ds, fr, rfl, g1, _, g3⟩ := this
          refine ⟨[], c :: ds, fr, [], by simp, .inl rfl, .inr ⟨⟨by simp, ?_⟩, by simpa using h0⟩, g3, .inl rfl⟩
          intro x hx
          rcases List.mem_cons.1 hx with rfl | hx
          · exact hc
          · exact g1 x hx
      · exact absurd h (by simp [isDigit])
  · rw [List.singleton_append] at h ⊢
    unfold isJnumber at h
    dsimp only at h
    rw [if_neg (by decide)] at h
    have := jnum_plain t _ 1 rfl ht (h.trans (by rw [List.length_cons, Nat.add_comm]))
    dsimp only at this
    rw [if_neg (by decide), if_neg (by decide)] at this
    obtain ⟨z1, z2⟩ := hz (by simp)
    obtain ⟨ds, fr, rfl, g1, g2, g3⟩ := this
    match ds, g1, z1, z2, g2 with
    | [], _, z1, _, g2 =>
      exfalso
      rcases g3 with rfl | ⟨f, rfl, _⟩
      · exact absurd (g2 rfl rfl) (by decide)
      · exact z1 rfl
    | c :: ds, g1, _, z2, _ =>
      by_cases h0 : c = b#'0'
      · subst h0
        have : ds = [] := by
          rcases z2 rfl with e | e
          · exact (List.append_eq_nil_iff.1 e).1
          · match ds, e, g1 with
            | [], _, _ => rfl
            | d :: ds, e, g1 =>
              have := g1 d (by simp)
              simp at e
              rw [e] at this
              simp [JDigit] at this
        subst this
        exact ⟨b#"-", b#"0", fr, [], by simp, .inr rfl, .inl rfl, g3, .inl rfl⟩
      · exact ⟨b#"-", c :: ds, fr, [], by simp, .inr rfl, .inr ⟨⟨by simp, g1⟩, by simpa using h0⟩, g3, .inl rfl⟩

/-- A case for `C27_sound_partial`. -/
example : jsonIsNumber (b#"-" ++ b#"20.05") = true ∧ jsonIsNumber b#"1." = false ∧ jsonIsNumber b#"01" = false ∧
    jsonIsNumber b#"1.2.3" = false := by decide +kernel

end Xmq.Props
