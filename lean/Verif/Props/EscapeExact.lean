import Verif.Props.Escape
import Verif.Props.Utf8
/-!
# Exact conditions for C02 and C17: characters decoded and encoded again, comments written and read
-/
namespace Xmq.Props
open Xmq.Spec

/-- What is decoded is encoded to the same bytes exactly for shortest forms inside of Unicode. -/
theorem C02_canonical_iff (s : List Byte) (h : s ≠ []) (hok : (decodeUtf8 s).ok = true) :
    encodeUtf8 (decodeUtf8 s).char = some (s.take (decodeUtf8 s).len) ↔
      minForLen (decodeUtf8 s).len ≤ (decodeUtf8 s).char ∧ (decodeUtf8 s).char ≤ 0x10ffff := by
  refine ⟨fun e => ?_, fun ⟨h1, h2⟩ => C02_canonical_partial s h hok h1 h2⟩
  have hw := C02_decode_consumes_within s h
  generalize hl : (decodeUtf8 s).len = l at *
  generalize hc : (decodeUtf8 s).char = n at *
  have hlen : (s.take l).length = l := by rw [List.length_take]; omega
  rw [encodeUtf8_eq] at e
  have key : ∀ r : List Byte, some r = some (s.take l) → r.length = l := by
    intro r hr; rw [Option.some.inj hr, hlen]
  have m1 : minForLen 1 = 0 := rfl
  have m2 : minForLen 2 = 0x80 := rfl
  have m3 : minForLen 3 = 0x800 := rfl
  have m4 : minForLen 4 = 0x10000 := rfl
  split at e
  · have := key _ e
    simp at this
    rw [← this, m1]; omega
  · split at e
    · have := key _ e
      simp at this
      rw [← this, m2]; omega
    · split at e
      · have := key _ e
        simp at this
        rw [← this, m3]; omega
      · split at e
        · have := key _ e
          simp at this
          rw [← this, m4]; omega
        · cases e

/-- Both kinds: a shortest form, and an overlong one that is accepted. -/
example : (decodeUtf8 [0xc3, 0xa9]).ok = true ∧ encodeUtf8 (decodeUtf8 [0xc3, 0xa9]).char = some [0xc3, 0xa9] ∧
    (decodeUtf8 [0xc1, 0x81]).ok = true ∧ encodeUtf8 (decodeUtf8 [0xc1, 0x81]).char = some [0x41] := by decide +kernel

theorem copyDle_last (s : List Byte) : (copyDle s).getLast? = s.getLast? := by
  induction s with
  | nil => rfl
  | cons c t ih =>
    cases t with
    | nil =>
      have : needsDle c [] = false := by simp [needsDle, startsWithDle]
      simp [copyDle, this]
    | cons d u =>
      have hne : copyDle (d :: u) ≠ [] := by simp [copyDle]
      rw [copyDle, List.getLast?_append, ih]
      cases hl : (d :: u).getLast? with
      | none => rw [List.getLast?_eq_none_iff] at hl; cases hl
      | some x => simp [List.getLast?_cons_cons, hl]

/-- The comment written is well formed exactly if it does not end in a dash. -/
theorem C17_well_formed_iff (s : List Byte) : XmlCommentText (writtenComment s) ↔ s.getLast? ≠ some 45 := by
  refine ⟨fun h => ?_, C17_well_formed_partial s⟩
  have := h.2
  rwa [writtenComment_eq, copyDle_last] at this

theorem peek_copyUndle (s : List Byte) : peek (copyUndle 0 s) = peek s := by
  cases s <;> rfl

theorem copyUndle_tail {s : List Byte} (h : peek s ≠ 45) : (copyUndle 0 s).tail = copyUndle 0 s.tail := by
  cases s with
  | nil => rfl
  | cons c t =>
    have : (c == 45) = false := by simpa using h
    simp [copyUndle, this]

theorem startsWithDle_copyUndle (s : List Byte) : startsWithDle (copyUndle 0 s) = startsWithDle s := by
  rw [startsWithDle_eq, startsWithDle_eq, peek_copyUndle]
  by_cases h : peek s = 0xe2
  · rw [copyUndle_tail (by rw [h]; decide), peek_copyUndle]
    by_cases h2 : peek s.tail = 0x90
    · rw [copyUndle_tail (by rw [h2]; decide), peek_copyUndle]
    · have e : (peek s.tail == 0x90) = false := by rw [beq_eq_false_iff_ne]; exact h2
      rw [e]; simp
  · have e : (peek s == 0xe2) = false := by rw [beq_eq_false_iff_ne]; exact h
    rw [e]; simp

theorem startsWithDle_iff (t : List Byte) : startsWithDle t = true ↔ ∃ u, t = [0xe2, 0x90, 0x90] ++ u := by
  constructor
  · intro h
    match t, h with
    | a :: b :: c :: u, h =>
      simp [startsWithDle] at h
      obtain ⟨⟨rfl, rfl⟩, rfl⟩ := h
      exact ⟨u, rfl⟩
  · rintro ⟨u, rfl⟩; rfl

/-- Behind a dash and an escape character comes a dash or another escape character. -/
def EscapesNeeded (s : List Byte) : Prop :=
  ∀ p t, s = p ++ [45, 0xe2, 0x90, 0x90] ++ t → [45] <+: t ∨ [0xe2, 0x90, 0x90] <+: t

theorem escapesNeeded_cons (c : Byte) (t : List Byte) (h : (c == 45 && startsWithDle t) = false) : EscapesNeeded (c :: t) ↔ EscapesNeeded t := by
  constructor
  · intro g p u e
    exact g (c :: p) u (by rw [e]; rfl)
  · intro g p u e
    cases p with
    | nil =>
      exfalso
      cases e
      simp [startsWithDle] at h
    | cons x p => cases e; exact g p u rfl

theorem escapesNeeded_dash (u : List Byte) : EscapesNeeded (45 :: ([0xe2, 0x90, 0x90] ++ u)) ↔
    (peek u == 45 || startsWithDle u) = true ∧ EscapesNeeded u := by
  have e3 : EscapesNeeded ([0xe2, 0x90, 0x90] ++ u) ↔ EscapesNeeded u := by
    rw [List.cons_append, escapesNeeded_cons _ _ (by rfl), List.cons_append, escapesNeeded_cons _ _ (by rfl), List.cons_append, escapesNeeded_cons _ _ (by rfl)]
    rfl
  have e1 : (peek u == 45 || startsWithDle u) = true ↔ ([45] <+: u ∨ [0xe2, 0x90, 0x90] <+: u) := by
    rw [Bool.or_eq_true, startsWithDle_iff]
    refine or_congr ?_ ⟨fun ⟨v, e⟩ => ⟨v, e.symm⟩, fun ⟨v, e⟩ => ⟨v, e.symm⟩⟩
    cases u with
    | nil => simp
    | cons c v =>
      rw [peek_cons, beq_iff_eq]
      constructor
      · rintro rfl; exact ⟨v, rfl⟩
      · rintro ⟨w, e⟩; cases e; rfl
  rw [e1, ← e3]
  constructor
  · intro g
    exact ⟨g [] u rfl, fun p v e => g (45 :: p) v (by rw [e]; rfl)⟩
  · rintro ⟨g1, g2⟩ p v e
    cases p with
    | nil =>
      have : u = v := by simpa using e
      rw [← this]; exact g1
    | cons x p =>
      exact g2 p v (List.cons.inj e).2

/-- A comment of an XML file survives reading and writing exactly if every escape character behind a dash is needed there. -/
theorem C17_xml_to_xml_iff (s : List Byte) (h : XmlCommentText s) : writtenComment (readComment s) = s ↔ EscapesNeeded s := by
  rw [writtenComment_eq, readComment_eq]
  have h1 := h.1
  clear h
  have key : ∀ (n : Nat) (s : List Byte), s.length ≤ n → ¬ [45, 45] <:+: s → (copyDle (copyUndle 0 s) = s ↔ EscapesNeeded s) := by
    intro n
    induction n with
    | zero =>
      intro s hn _
      have : s = [] := List.length_eq_zero_iff.1 (by omega)
      subst this
      refine ⟨fun _ p t e => ?_, fun _ => rfl⟩
      simp at e
    | succ n ih =>
      intro s hn hs
      cases s with
      | nil =>
        refine ⟨fun _ p t e => ?_, fun _ => rfl⟩
        simp at e
      | cons c t =>
        have ht : ¬ [45, 45] <:+: t := fun hi => hs (hi.trans (List.suffix_cons c t).isInfix)
        cases hd : (c == 45 && startsWithDle t) with
        | false =>
          rw [escapesNeeded_cons c t hd, ← ih t (by simp at hn; omega) ht]
          have hn' : needsDle c (copyUndle 0 t) = false := by
            unfold needsDle
            rw [peek_copyUndle, startsWithDle_copyUndle]
            by_cases hc : c = 45
            · subst hc
              have h2 : startsWithDle t = false := by simpa using hd
              rw [h2]
              cases t with
              | nil => rfl
              | cons d u =>
                have : d ≠ 45 := by
                  rintro rfl
                  exact hs ⟨[], u, rfl⟩
                simp [this]
            · have : (c == 45) = false := by simpa using hc
              rw [this]; rfl
          have e : copyUndle 0 (c :: t) = c :: copyUndle 0 t := by
            rw [copyUndle]
            rw [hd]
            rfl
          rw [e, copyDle, hn']
          simp
        | true =>
          rw [Bool.and_eq_true, startsWithDle_iff] at hd
          obtain ⟨hc, u, rfl⟩ := hd
          have hc : c = 45 := by simpa using hc
          subst hc
          have hu : ¬ [45, 45] <:+: u := fun hi => ht (hi.trans (List.suffix_append _ u).isInfix)
          rw [escapesNeeded_dash u, ← ih u (by simp at hn; omega) hu]
          have e : copyUndle 0 (45 :: ([0xe2, 0x90, 0x90] ++ u)) = 45 :: copyUndle 0 u := by
            simp [copyUndle, startsWithDle]
          have hn' : needsDle 45 (copyUndle 0 u) = (peek u == 45 || startsWithDle u) := by
            unfold needsDle
            rw [peek_copyUndle, startsWithDle_copyUndle]
            rfl
          rw [e, copyDle, hn']
          cases hb : (peek u == 45 || startsWithDle u) with
          | true => simp
          | false =>
            constructor
            · intro g
              exfalso
              simp only [Bool.false_eq_true, if_false, List.cons_append, List.nil_append, List.cons.injEq, true_and] at g
              have := congrArg startsWithDle g
              rw [startsWithDle_copyDle, startsWithDle_copyUndle] at this
              rw [Bool.or_eq_false_iff] at hb
              rw [hb.2] at this
              revert this
              simp [startsWithDle]
            · rintro ⟨g, _⟩; cases g
  exact key s.length s (Nat.le_refl _) h1

/-- An escape between dashes is kept, one before a letter is not. -/
example : writtenComment (readComment (b#"-" ++ [0xe2, 0x90, 0x90] ++ b#"-x")) = b#"-" ++ [0xe2, 0x90, 0x90] ++ b#"-x" ∧
    writtenComment (readComment (b#"-" ++ [0xe2, 0x90, 0x90] ++ b#"x")) = b#"-x" := by decide +kernel

end Xmq.Props
