import Verif.Lemmas.JsonString
/-!
# Properties C25 and C26: C quoting and JSON strings
-/
namespace Xmq.Props
open Xmq Xmq.Spec

/-- **C25**, as one would like it: unquoting a C quoted string gives the string back. -/
def CQuoteRoundTrip : Prop :=
  ∀ s : List Byte, ValidUtf8 s → (∀ c ∈ s, c ≠ 0) → ∃ q, quoteAsC s true = some q ∧ unquoteAsC q true = s

theorem validUtf8_ascii (s : List Byte) (h : ∀ c ∈ s, c < 128) : ValidUtf8 s := by
  induction s with
  | nil => exact .nil
  | cons c t ih =>
    have hc : c.toNat < 128 := by have := h c List.mem_cons_self; rwa [UInt8.lt_iff_toNat_lt] at this
    have e : (rfc3629 c.toNat).map UInt8.ofNat = [c] := by unfold rfc3629; rw [if_pos hc]; simp
    have := ValidUtf8.cons c.toNat (by omega) t (ih fun x hx => h x (List.mem_cons_of_mem _ hx))
    rwa [e] at this

/-- **C25** is false: a backslash is quoted as `\\`, which vanishes when unquoted.  Of the `\x01` for byte 1 the two digits
    remain. -/
theorem C25_false : ¬ CQuoteRoundTrip := by
  intro h
  obtain ⟨q, h1, h2⟩ := h [b#'a', b#'\\'] (validUtf8_ascii _ (by decide)) (by decide)
  have : quoteAsC [b#'a', b#'\\'] true = some b#"\"a\\\\\"" := by decide +kernel
  rw [this] at h1
  cases h1
  revert h2
  decide +kernel

/-- **C25**, the part that holds: every valid UTF-8 text whose ASCII characters are printable or one of the seven control
    characters with a C escape, and no backslash, is recovered, with and without quotation marks. -/
theorem C25_round_trip_partial (s : List Byte) (h : ValidUtf8 s)
    (hc : ∀ c ∈ s, c ≠ b#'\\' ∧ (128 ≤ c ∨ (0x20 ≤ c ∧ c ≤ 0x7e) ∨ (7 ≤ c ∧ c ≤ 13))) :
    (∃ q, quoteAsC s true = some q ∧ unquoteAsC q true = s) ∧ (∃ q, quoteAsC s false = some q ∧ unquoteAsC q false = s) := by
  have h0 : ∀ c ∈ s, c ≠ 0 := by
    intro c hcs e
    have := hc c hcs
    subst e
    revert this
    decide
  have hq := quoteAsC_eq s h h0
  refine ⟨⟨_, quoteAsC_quotes s _ hq, ?_⟩, _, hq, ?_⟩
  · unfold unquoteAsC
    rw [if_neg (by simp), if_pos rfl]
    have : (b#'"' :: (s.flatMap cEsc ++ [b#'"'])).dropWhile isXmlWhitespace = b#'"' :: (s.flatMap cEsc ++ [b#'"']) := by
      rw [List.dropWhile_cons, if_neg (by decide)]
    simp only [this, peek_cons, List.drop_succ_cons, List.drop_zero]
    rw [if_neg (by decide), unquote_cEsc true s [b#'"'] hc]
    have : unquoteAsCLoop true [b#'"'] = ([], [b#'"']) := by decide +kernel
    rw [this]
    simp
  · unfold unquoteAsC
    by_cases he : (s.flatMap cEsc).isEmpty
    · rw [if_pos he]
      cases s with
      | nil => rfl
      | cons c t =>
        exfalso
        rw [List.isEmpty_iff, List.flatMap_cons] at he
        have := (List.append_eq_nil_iff.1 he).1
        revert this
        exact forall_byte (P := fun c => cEsc c = [] → False) (by decide +kernel) c
    · rw [if_neg he, if_neg (by simp)]
      have := unquote_cEsc false s [] hc
      rw [List.append_nil] at this
      rw [this]
      have : unquoteAsCLoop false [] = ([], []) := by decide +kernel
      rw [this]
      simp

/-- A case for `C25_round_trip_partial`: text with a quotation mark, a line break and a two byte character. -/
example : quoteAsC [b#'a', b#'"', 10, 0xc3, 0xa5] true = some (b#"\"a\\\"\\n" ++ [0xc3, 0xa5, b#'"']) ∧
    unquoteAsC (b#"\"a\\\"\\n" ++ [0xc3, 0xa5, b#'"']) true = [b#'a', b#'"', 10, 0xc3, 0xa5] := by decide +kernel

/-- **C25**, memory: for text that is not UTF-8 bytes behind the terminating NUL are read. -/
theorem C25_over_read : ∃ s : List Byte, (∀ c ∈ s, c ≠ 0) ∧ quoteAsC s false = none := ⟨[b#'a', 0xe2], by decide +kernel⟩

/-- **C26**, reading, as one would like it: the string literals of RFC 8259 are read as the texts they stand for. -/
def JsonStringsRead : Prop :=
  ∀ l s rest : List Byte, JsonString true l s → eatJsonQuote (l ++ b#'"' :: rest) = some (s, rest)

/-- **C26** (reading) is false: the escape `\/` is rejected. -/
theorem C26_read_false : ¬ JsonStringsRead := by
  intro h
  have := h b#"\\/" b#"/" [] (.short b#'/' b#'/' [] [] (by decide) (.inl rfl) .nil)
  revert this
  decide +kernel

/-- **C26** (reading) fails for surrogate pairs as well: each half becomes three bytes, which is not UTF-8. -/
theorem C26_read_surrogates : JsonString true b#"\\uD83D\\uDE00" [0xf0, 0x9f, 0x98, 0x80] ∧
    eatJsonQuote (b#"\\uD83D\\uDE00" ++ [b#'"']) = some ([0xed, 0xa0, 0xbd, 0xed, 0xb8, 0x80], []) := by
  refine ⟨?_, by decide +kernel⟩
  have h := JsonString.pair (full := true) b#"\\uD83D" b#"\\uDE00" 0x3d 0x200 [] [] rfl
    ⟨_, _, _, _, 13, 8, 3, 13, rfl, .upper 3 (by decide), .dec 8 (by decide), .dec 3 (by decide), .upper 3 (by decide), rfl⟩ (by decide)
    ⟨_, _, _, _, 13, 14, 0, 0, rfl, .upper 3 (by decide), .upper 4 (by decide), .dec 0 (by decide), .dec 0 (by decide), rfl⟩ (by decide) .nil
  have e : (rfc3629 (0x10000 + 0x3d * 0x400 + 0x200)).map UInt8.ofNat ++ [] = [0xf0, 0x9f, 0x98, 0x80] := by decide +kernel
  rw [e] at h
  exact h

/-- **C26** (reading), the part that holds: every literal without `\/` and without surrogates is read as its text, whatever
    follows the closing quotation mark. -/
theorem C26_read_partial (l s rest : List Byte) (h : JsonString false l s) : eatJsonQuote (l ++ b#'"' :: rest) = some (s, rest) :=
  eat_jsonString l s h rest

/-- **C26**, writing, as one would like it: every text is written as a JSON string literal for it. -/
def JsonStringsWritten : Prop :=
  ∀ s : List Byte, ValidUtf8 s → (∀ c ∈ s, c ≠ 0) → ∃ q, quoteAsC s false = some q ∧ JsonString true q s

theorem jsonString_second (full : Bool) (l s : List Byte) (h : JsonString full l s) (x : Byte) (t : List Byte)
    (e : l = b#'\\' :: x :: t) : x ∈ b#"\"\\/bfnrtu" := by
  cases h with
  | nil => cases e
  | raw c l s _ _ h => cases e; exact absurd rfl h
  | short c e' l s hm _ _ =>
    cases e
    simp only [shortEscapes, List.mem_cons, Prod.mk.injEq, List.not_mem_nil, or_false] at hm
    rcases hm with ⟨rfl, _⟩ | ⟨rfl, _⟩ | ⟨rfl, _⟩ | ⟨rfl, _⟩ | ⟨rfl, _⟩ | ⟨rfl, _⟩ | ⟨rfl, _⟩ | ⟨rfl, _⟩ <;> decide
  | unicode e' v l s he _ _ =>
    obtain ⟨a, b, c, d, a', b', c', d', rfl, _⟩ := he
    cases e; decide
  | pair e1 e2 v1 v2 l s _ he =>
    obtain ⟨a, b, c, d, a', b', c', d', rfl, _⟩ := he
    cases e; decide

/-- **C26** (writing) is false: byte 1 is written as `\x01`, which is no JSON escape. -/
theorem C26_write_false : ¬ JsonStringsWritten := by
  intro h
  obtain ⟨q, h1, h2⟩ := h [1] (validUtf8_ascii _ (by decide)) (by decide)
  have : quoteAsC [1] false = some b#"\\x01" := by decide +kernel
  rw [this] at h1
  cases h1
  have := jsonString_second _ _ _ h2 b#'x' b#"01" rfl
  revert this
  decide

/-- **C26**, the part that holds: a valid UTF-8 text whose control characters are those with a JSON escape is written as a JSON
    string literal for it, with and without quotation marks, and the JSON parser reads it back. -/
theorem C26_round_trip_partial (s : List Byte) (h : ValidUtf8 s) (hc : ∀ c ∈ s, JsonByte c) :
    ∃ q, quoteAsC s false = some q ∧ quoteAsC s true = some (b#'"' :: (q ++ [b#'"'])) ∧ JsonString false q s ∧
      ∀ rest, eatJsonQuote (q ++ b#'"' :: rest) = some (s, rest) := by
  have h0 : ∀ c ∈ s, c ≠ 0 := by
    intro c hcs e
    have := hc c hcs
    subst e
    revert this
    decide
  have hq := quoteAsC_eq s h h0
  have hj := jsonString_cEsc false s hc
  exact ⟨_, hq, quoteAsC_quotes s _ hq, hj, eat_jsonString _ _ hj⟩

/-- A case for `C26_round_trip_partial`. -/
example : quoteAsC [b#'a', b#'"', 10, b#'\\', 0xc3, 0xa5] false = some (b#"a\\\"\\n\\\\" ++ [0xc3, 0xa5]) ∧
    eatJsonQuote (b#"a\\\"\\n\\\\" ++ [0xc3, 0xa5, b#'"', b#',']) = some ([b#'a', b#'"', 10, b#'\\', 0xc3, 0xa5], b#",") := by
  decide +kernel

end Xmq.Props
