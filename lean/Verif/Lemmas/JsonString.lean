import Verif.Model.CQuote
import Verif.Spec.Json
import Verif.Props.Utf8
/-!
# Lemmas about C quoting and JSON strings
-/
namespace Xmq
open Spec

theorem eat_close (rest : List Byte) : eatJsonQuote (b#'"' :: rest) = some ([], rest) := by
  rw [eatJsonQuote.eq_def]
  cases rest with
  | nil => rfl
  | cons d t => dsimp only; rw [if_pos (by decide)]

theorem eat_raw (c : Byte) (x : List Byte) (h1 : c ≠ b#'"') (h2 : c ≠ b#'\\') (hx : x ≠ []) :
    eatJsonQuote (c :: x) = (eatJsonQuote x).map fun r => (c :: r.1, r.2) := by
  match x, hx with
  | d :: t, _ =>
    rw [eatJsonQuote.eq_def]
    dsimp only
    rw [if_neg (by simpa using h1), if_neg (by simpa using h2)]

theorem eat_short (c e : Byte) (x : List Byte) (h : jsonEscape c = some e) :
    eatJsonQuote (b#'\\' :: c :: x) = (eatJsonQuote x).map fun r => (e :: r.1, r.2) := by
  rw [eatJsonQuote.eq_def]
  dsimp only
  rw [if_neg (by decide), if_pos (by decide), h]

theorem jsonEscape_of_mem (c e : Byte) (h : (c, e) ∈ shortEscapes) (hs : c ≠ b#'/') : jsonEscape c = some e := by
  simp only [shortEscapes, List.mem_cons, Prod.mk.injEq, List.not_mem_nil, or_false] at h
  rcases h with ⟨rfl, rfl⟩ | ⟨rfl, rfl⟩ | ⟨rfl, rfl⟩ | ⟨rfl, rfl⟩ | ⟨rfl, rfl⟩ | ⟨rfl, rfl⟩ | ⟨rfl, rfl⟩ | ⟨rfl, rfl⟩ <;>
    first | rfl | exact absurd rfl hs

theorem hexDigit_is (c : Byte) (n : Nat) (h : HexDigit c n) : isHexByte c = true ∧ hexValue c = n ∧ n < 16 := by
  cases h with
  | dec n h =>
    have : ∀ m : Fin 10, isHexByte (UInt8.ofNat (48 + m.val)) = true ∧ hexValue (UInt8.ofNat (48 + m.val)) = m.val := by decide
    exact ⟨(this ⟨n, h⟩).1, (this ⟨n, h⟩).2, by omega⟩
  | upper n h =>
    have : ∀ m : Fin 6, isHexByte (UInt8.ofNat (65 + m.val)) = true ∧ hexValue (UInt8.ofNat (65 + m.val)) = 10 + m.val := by decide
    exact ⟨(this ⟨n, h⟩).1, (this ⟨n, h⟩).2, by omega⟩
  | lower n h =>
    have : ∀ m : Fin 6, isHexByte (UInt8.ofNat (97 + m.val)) = true ∧ hexValue (UInt8.ofNat (97 + m.val)) = 10 + m.val := by decide
    exact ⟨(this ⟨n, h⟩).1, (this ⟨n, h⟩).2, by omega⟩

theorem hex4 (a b c d : Nat) (hb : b < 16) (hc : c < 16) (hd : d < 16) :
    (a <<< 12 ||| b <<< 8 ||| c <<< 4 ||| d) = a * 4096 + b * 256 + c * 16 + d := by
  have e1 : a <<< 12 = (a <<< 4) <<< 8 := by rw [← Nat.shiftLeft_add]
  have e2 : b <<< 8 = (b <<< 0) <<< 8 := by rw [← Nat.shiftLeft_add]
  have h1 : a <<< 12 ||| b <<< 8 = (a <<< 4 + b) <<< 8 := by
    rw [e1, e2, ← Nat.shiftLeft_or_distrib, Nat.shiftLeft_zero, ← Nat.shiftLeft_add_eq_or_of_lt (by omega)]
  have h2 : ((a <<< 4 + b) <<< 8 ||| c <<< 4) = ((a <<< 4 + b) <<< 4 + c) <<< 4 := by
    have e1 : (a <<< 4 + b) <<< 8 = ((a <<< 4 + b) <<< 4) <<< 4 := by rw [← Nat.shiftLeft_add]
    rw [e1, ← Nat.shiftLeft_or_distrib, ← Nat.shiftLeft_add_eq_or_of_lt (by omega)]
  rw [h1, h2, ← Nat.shiftLeft_add_eq_or_of_lt (by omega)]
  simp only [Nat.shiftLeft_eq]
  omega

theorem encodeUtf8_rfc3629 (cp : Nat) (h : cp ≤ 0x10ffff) : encodeUtf8 cp = some ((rfc3629 cp).map UInt8.ofNat) := by
  obtain ⟨bs, h1, h2⟩ := Props.C01_encode_is_rfc3629 cp h
  rw [h1, ← h2, List.map_map]
  congr 1
  conv => lhs; rw [← List.map_id bs]
  apply List.map_congr_left
  intro a _
  simp

theorem eat_unicode (e : List Byte) (v : Nat) (x : List Byte) (h : UEscape e v) :
    eatJsonQuote (e ++ x) = (eatJsonQuote x).map fun r => ((rfc3629 v).map UInt8.ofNat ++ r.1, r.2) := by
  obtain ⟨a, b, c, d, a', b', c', d', rfl, ha, hb, hc, hd, rfl⟩ := h
  obtain ⟨a1, a2, a3⟩ := hexDigit_is _ _ ha
  obtain ⟨b1, b2, b3⟩ := hexDigit_is _ _ hb
  obtain ⟨c1, c2, c3⟩ := hexDigit_is _ _ hc
  obtain ⟨d1, d2, d3⟩ := hexDigit_is _ _ hd
  simp only [List.cons_append, List.nil_append]
  rw [eatJsonQuote.eq_def]
  dsimp only
  rw [if_neg (by decide), if_pos (by decide)]
  simp only [show jsonEscape b#'u' = none from rfl]
  rw [if_pos (by decide), a1, b1, c1, d1, a2, b2, c2, d2, hex4 _ _ _ _ b3 c3 d3,
    encodeUtf8_rfc3629 _ (by omega)]
  rfl

/-- Reading the literal of a JSON string gives the text it stands for. -/
theorem eat_jsonString (l s : List Byte) (h : JsonString false l s) (rest : List Byte) :
    eatJsonQuote (l ++ b#'"' :: rest) = some (s, rest) := by
  induction h with
  | nil => exact eat_close rest
  | raw c l s _ h1 h2 _ ih =>
    rw [List.cons_append, eat_raw c _ h1 h2 (by simp), ih]; rfl
  | short c e l s hm hs _ ih =>
    rw [List.cons_append, List.cons_append, eat_short c e _ (jsonEscape_of_mem c e hm (by simpa using hs)), ih]; rfl
  | unicode e v l s he _ _ ih =>
    rw [List.append_assoc, eat_unicode e v _ he, ih]; rfl
  | pair e1 e2 v1 v2 l s hf => cases hf

/-- What `xmq_quote_as_c` writes for a byte of valid UTF-8. -/
def cEsc (c : Byte) : List Byte := if c ≥ 128 then [c] else escapeC c

theorem quoteLoop_skip (l rest : List Byte) : quoteAsCLoop l.length (l ++ rest) = (quoteAsCLoop 0 rest).map (l ++ ·) := by
  induction l with
  | nil => simp
  | cons c t ih =>
    simp only [List.length_cons, List.cons_append, quoteAsCLoop, ih, Option.map_map]
    rfl

theorem numUtf8Bytes_ascii (c : Byte) : c < 128 → numUtf8Bytes c = 1 :=
  forall_byte (P := fun c => c < 128 → numUtf8Bytes c = 1) (by decide +kernel) c

theorem quoteLoop_multi (c : Byte) (l rest : List Byte) (hc : numUtf8Bytes c = l.length + 1) (hl : l ≠ []) :
    quoteAsCLoop 0 (c :: (l ++ rest)) = (quoteAsCLoop 0 rest).map (c :: l ++ ·) := by
  have := List.length_pos_iff.2 hl
  rw [quoteAsCLoop]
  simp only [hc, List.length_append]
  rw [if_neg (by omega), if_neg (by omega), if_neg (by omega), if_neg (by omega), Nat.add_sub_cancel, quoteLoop_skip,
    Option.map_map]
  rfl

theorem lead_length (cp : Nat) (h1 : 0x80 ≤ cp) (h2 : cp < 0x110000) :
    ∃ c l, (rfc3629 cp).map UInt8.ofNat = c :: l ∧ numUtf8Bytes c = l.length + 1 ∧ l ≠ [] ∧ ∀ x ∈ c :: l, x ≥ 128 := by
  have big : ∀ n, 128 ≤ n → n < 256 → (UInt8.ofNat n) ≥ 128 := by
    intro n a b
    rw [ge_iff_le, UInt8.le_iff_toNat_le]
    simp [Nat.mod_eq_of_lt b]; omega
  unfold rfc3629
  by_cases a : cp < 0x80
  · omega
  rw [if_neg a]
  by_cases b : cp < 0x800
  · rw [if_pos b]
    refine ⟨_, _, rfl, ?_, by simp, ?_⟩
    · have : ∀ m : Fin 32, numUtf8Bytes (UInt8.ofNat (0xC0 + m.val)) = 2 := by decide
      exact this ⟨cp / 64, by omega⟩
    · simp only [List.map_cons, List.map_nil, List.mem_cons, List.not_mem_nil, or_false]
      rintro x (rfl | rfl) <;> apply big <;> omega
  rw [if_neg b]
  by_cases c : cp < 0x10000
  · rw [if_pos c]
    refine ⟨_, _, rfl, ?_, by simp, ?_⟩
    · have : ∀ m : Fin 16, numUtf8Bytes (UInt8.ofNat (0xE0 + m.val)) = 3 := by decide
      exact this ⟨cp / 4096, by omega⟩
    · simp only [List.map_cons, List.map_nil, List.mem_cons, List.not_mem_nil, or_false]
      rintro x (rfl | rfl | rfl) <;> apply big <;> omega
  rw [if_neg c]
  refine ⟨_, _, rfl, ?_, by simp, ?_⟩
  · have : ∀ m : Fin 8, numUtf8Bytes (UInt8.ofNat (0xF0 + m.val)) = 4 := by decide
    exact this ⟨cp / 262144, by omega⟩
  · simp only [List.map_cons, List.map_nil, List.mem_cons, List.not_mem_nil, or_false]
    rintro x (rfl | rfl | rfl | rfl) <;> apply big <;> omega

theorem flatMap_cEsc_big (l : List Byte) (h : ∀ x ∈ l, x ≥ 128) : l.flatMap cEsc = l := by
  induction l with
  | nil => rfl
  | cons c t ih =>
    rw [List.flatMap_cons, ih fun x hx => h x (List.mem_cons_of_mem _ hx), cEsc, if_pos (h c List.mem_cons_self)]
    rfl

/-- Valid UTF-8 without NUL is quoted byte by byte. -/
theorem quoteAsC_eq (s : List Byte) (h : ValidUtf8 s) (h0 : ∀ c ∈ s, c ≠ 0) : quoteAsC s false = some (s.flatMap cEsc) := by
  have key : quoteAsCLoop 0 s = some (s.flatMap cEsc) := by
    induction h with
    | nil => rfl
    | cons cp hcp rest _ ih =>
      have ih := ih fun c hc => h0 c (List.mem_append_right _ hc)
      by_cases ha : cp < 0x80
      · have e : (rfc3629 cp).map UInt8.ofNat = [UInt8.ofNat cp] := by unfold rfc3629; rw [if_pos ha]; rfl
        rw [e] at h0 ⊢
        have hlt : UInt8.ofNat cp < 128 := by
          rw [UInt8.lt_iff_toNat_lt]; simp; omega
        have hz : (UInt8.ofNat cp == 0) = false := by
          rw [beq_eq_false_iff_ne]; exact h0 _ (by simp)
        rw [List.singleton_append, quoteAsCLoop]
        simp only [numUtf8Bytes_ascii _ hlt, if_true, hz, ih, Bool.false_eq_true, if_false, Option.map_some, List.flatMap_cons]
        rw [cEsc, if_neg (by rw [ge_iff_le, UInt8.not_le]; exact hlt)]
      · obtain ⟨c, l, e, h1, h2, h3⟩ := lead_length cp (by omega) hcp
        rw [e, List.cons_append, quoteLoop_multi c l rest h1 h2, ih, Option.map_some, ← List.cons_append, List.flatMap_append,
          flatMap_cEsc_big _ h3]
  rw [quoteAsC, key]
  rfl

theorem quoteAsC_quotes (s q : List Byte) (h : quoteAsC s false = some q) : quoteAsC s true = some (b#'"' :: (q ++ [b#'"'])) := by
  unfold quoteAsC at h ⊢
  cases hq : quoteAsCLoop 0 s with
  | none => rw [hq] at h; cases h
  | some r => rw [hq] at h; cases h; rfl

theorem cEsc_json (c : Byte) : JsonByte c →
    (cEsc c = [c] ∧ 0x20 ≤ c ∧ c ≠ b#'"' ∧ c ≠ b#'\\') ∨
      ∃ e ∈ shortEscapes, e.1 ≠ b#'/' ∧ cEsc c = [b#'\\', e.1] ∧ c = e.2 :=
  forall_byte (P := fun c => JsonByte c →
    (cEsc c = [c] ∧ 0x20 ≤ c ∧ c ≠ b#'"' ∧ c ≠ b#'\\') ∨
      ∃ e ∈ shortEscapes, e.1 ≠ b#'/' ∧ cEsc c = [b#'\\', e.1] ∧ c = e.2) (by decide +kernel) c

theorem jsonString_cEsc (full : Bool) (s : List Byte) (h : ∀ c ∈ s, JsonByte c) : JsonString full (s.flatMap cEsc) s := by
  induction s with
  | nil => exact .nil
  | cons c t ih =>
    have ih := ih fun x hx => h x (List.mem_cons_of_mem _ hx)
    rw [List.flatMap_cons]
    rcases cEsc_json c (h c List.mem_cons_self) with ⟨e, h1, h2, h3⟩ | ⟨p, hp, hs, e, rfl⟩
    · rw [e]; exact .raw c _ _ h1 h2 h3 ih
    · rw [e]; exact .short p.1 p.2 _ _ hp (.inr hs) ih

/-- The bytes that `xmq_unquote_as_c` recovers. -/
def CByte (c : Byte) : Prop := c ≠ b#'\\' ∧ (128 ≤ c ∨ (0x20 ≤ c ∧ c ≤ 0x7e) ∨ (7 ≤ c ∧ c ≤ 13))

instance (c : Byte) : Decidable (CByte c) := inferInstanceAs (Decidable (_ ∧ _))

theorem cEsc_c (c : Byte) : CByte c →
    (cEsc c = [c] ∧ c ≠ b#'"' ∧ c ≠ b#'\\') ∨ (cEsc c = [b#'\\', (cEsc c).getD 1 0] ∧ unescapeC ((cEsc c).getD 1 0) = [c]) :=
  forall_byte (P := fun c => CByte c →
    (cEsc c = [c] ∧ c ≠ b#'"' ∧ c ≠ b#'\\') ∨ (cEsc c = [b#'\\', (cEsc c).getD 1 0] ∧ unescapeC ((cEsc c).getD 1 0) = [c]))
    (by decide +kernel) c

theorem unquote_raw (rq : Bool) (c : Byte) (x : List Byte) (h1 : c ≠ b#'"') (h2 : c ≠ b#'\\') :
    unquoteAsCLoop rq (c :: x) = (c :: (unquoteAsCLoop rq x).1, (unquoteAsCLoop rq x).2) := by
  have e1 : (c == b#'"') = false := by rw [beq_eq_false_iff_ne]; exact h1
  have e2 : (c == b#'\\') = false := by rw [beq_eq_false_iff_ne]; exact h2
  cases x with
  | nil => rw [unquoteAsCLoop.eq_def]; dsimp only; rw [e1, e2, Bool.and_false]; rfl
  | cons d t => rw [unquoteAsCLoop, e1, e2, Bool.and_false]; rfl

theorem unquote_esc (rq : Bool) (d : Byte) (x : List Byte) :
    unquoteAsCLoop rq (b#'\\' :: d :: x) = (unescapeC d ++ (unquoteAsCLoop rq x).1, (unquoteAsCLoop rq x).2) := by
  rw [unquoteAsCLoop, show ((b#'\\' : Byte) == b#'"') = false from rfl, Bool.and_false]; rfl

theorem unquote_cEsc (rq : Bool) (s tail : List Byte) (h : ∀ c ∈ s, CByte c) :
    unquoteAsCLoop rq (s.flatMap cEsc ++ tail) = (s ++ (unquoteAsCLoop rq tail).1, (unquoteAsCLoop rq tail).2) := by
  induction s with
  | nil => rfl
  | cons c t ih =>
    have ih := ih fun x hx => h x (List.mem_cons_of_mem _ hx)
    rw [List.flatMap_cons]
    rcases cEsc_c c (h c List.mem_cons_self) with ⟨e, h1, h2⟩ | ⟨e, he⟩
    · rw [e, List.append_assoc, List.singleton_append, unquote_raw rq c _ h1 h2, ih]; rfl
    · rw [e, List.append_assoc]
      simp only [List.cons_append, List.nil_append]
      rw [unquote_esc, he, ih]; rfl

end Xmq
