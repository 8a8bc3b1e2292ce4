import Verif.Lemmas.Utf8
import Verif.Spec.Utf8
/-!
# Properties C01 and C02: UTF-8
-/
namespace Xmq.Props
open Xmq Xmq.Spec

/-- **C01** (encoder).  For every code point the encoder produces the RFC 3629 bytes. -/
theorem C01_encode_is_rfc3629 (cp : Nat) (h : cp ≤ 0x10ffff) :
    ∃ bs, encodeUtf8 cp = some bs ∧ bs.map UInt8.toNat = rfc3629 cp := by
  rw [encodeUtf8_eq]
  unfold rfc3629
  split
  · exact ⟨_, rfl, by simp; omega⟩
  · split
    · exact ⟨_, rfl, by simp; omega⟩
    · split
      · exact ⟨_, rfl, by simp; omega⟩
      · split
        · exact ⟨_, rfl, by simp; omega⟩
        · omega

/-- **C01** (round trip).  Decoding the encoding of a code point, whatever follows in the buffer,
    succeeds, yields the code point and consumes exactly the encoding. -/
theorem C01_decode_encode (cp : Nat) (h : cp ≤ 0x10ffff) (rest bs : List Byte)
    (he : encodeUtf8 cp = some bs) :
    decodeUtf8 (bs ++ rest) = ⟨true, cp, bs.length⟩ := by
  rw [encodeUtf8_eq] at he
  rw [decodeUtf8_eq]
  split at he
  · injection he with he; subst he
    simp [Nat.mod_eq_of_lt (show cp < 256 by omega), *]
  · split at he
    · injection he with he; subst he
      have h1 : (192 + cp / 64) % 256 = 192 + cp / 64 := by omega
      have h2 : (128 + cp % 64) % 256 = 128 + cp % 64 := by omega
      simp only [List.cons_append, List.nil_append, peek_cons, UInt8.toNat_ofNat', isCont_iff, Bool.and_eq_true]
      simp only [h1, h2, Nat.reducePow]
      grind
    · split at he
      · injection he with he; subst he
        have h1 : (224 + cp / 4096) % 256 = 224 + cp / 4096 := by omega
        have h2 : (128 + cp % 64) % 256 = 128 + cp % 64 := by omega
        have h3 : (128 + cp / 64 % 64) % 256 = 128 + cp / 64 % 64 := by omega
        simp only [List.cons_append, List.nil_append, peek_cons, UInt8.toNat_ofNat', isCont_iff, Bool.and_eq_true]
        simp only [h1, h2, h3, Nat.reducePow]
        rw [if_neg (by omega), if_neg (by omega), if_pos (by omega), if_pos (by omega)]
        simp; omega
      · split at he
        · injection he with he; subst he
          have h1 : (240 + cp / 262144) % 256 = 240 + cp / 262144 := by omega
          have h2 : (128 + cp % 64) % 256 = 128 + cp % 64 := by omega
          have h3 : (128 + cp / 64 % 64) % 256 = 128 + cp / 64 % 64 := by omega
          have h4 : (128 + cp / 4096 % 64) % 256 = 128 + cp / 4096 % 64 := by omega
          simp only [List.cons_append, List.nil_append, peek_cons, UInt8.toNat_ofNat', isCont_iff, Bool.and_eq_true]
          simp only [h1, h2, h3, h4, Nat.reducePow]
          rw [if_neg (by omega), if_neg (by omega), if_neg (by omega), if_pos (by omega), if_pos (by omega)]
          simp; omega
        · simp at he

-- Non-vacuity: the euro sign, three bytes.
example : encodeUtf8 0x20ac = some [0xe2, 0x82, 0xac] ∧ (0x20ac : Nat) ≤ 0x10ffff := by decide

/-- **C02** (bounds).  On a non-empty buffer the decoder always consumes at least one byte and
    never more bytes than there are, malformed input included. -/
theorem C02_decode_consumes_within (s : List Byte) (h : s ≠ []) :
    1 ≤ (decodeUtf8 s).len ∧ (decodeUtf8 s).len ≤ s.length ∧ (decodeUtf8 s).len ≤ 4 := by
  rw [decodeUtf8_eq]
  rcases s with _ | ⟨a, _ | ⟨b, _ | ⟨c, _ | ⟨d, t⟩⟩⟩⟩
  · exact absurd rfl h
  all_goals dsimp only [List.length_cons, peek_cons]
  all_goals (repeat' split) <;> simp

/-- **C02** (locality).  What the decoder reports on success depends only on the bytes it consumed:
    bytes behind them are irrelevant. -/
theorem C02_decode_local (s t : List Byte) (h : s ≠ []) (hok : (decodeUtf8 s).ok = true) :
    decodeUtf8 (s.take (decodeUtf8 s).len ++ t) = decodeUtf8 s := by
  rcases decode_ok_cases s h hok with ⟨a, u, rfl, ha⟩ | ⟨a, b, u, rfl, ha, hb⟩ | ⟨a, b, c, u, rfl, ha, hb, hc⟩ |
    ⟨a, b, c, d, u, rfl, ha, hb, hc, hd⟩
  · simp [decode_one _ _ ha]
  · simp [decode_two _ _ _ ha hb]
  · simp [decode_three _ _ _ _ ha hb hc]
  · simp [decode_four _ _ _ _ _ ha hb hc hd]

/-- **C02** full claim (canonical decoding): a successful decode re-encodes to the consumed bytes. -/
def C02_Canonical : Prop :=
  ∀ s : List Byte, s ≠ [] → (decodeUtf8 s).ok = true →
    encodeUtf8 (decodeUtf8 s).char = some (s.take (decodeUtf8 s).len)

/-- The full claim is false: the overlong encoding `C0 80` of NUL is accepted. -/
theorem C02_canonical_false : ¬ C02_Canonical := by
  intro h
  have := h [0xc0, 0x80] (by decide) (by decide)
  revert this; decide

/-- **C02** (partial).  It holds exactly as long as the input is a shortest form within Unicode.
    Missing: the decoder does not reject the other forms (see `C02_canonical_false`). -/
theorem C02_canonical_partial (s : List Byte) (h : s ≠ []) (hok : (decodeUtf8 s).ok = true)
    (hshort : minForLen (decodeUtf8 s).len ≤ (decodeUtf8 s).char) (hmax : (decodeUtf8 s).char ≤ 0x10ffff) :
    encodeUtf8 (decodeUtf8 s).char = some (s.take (decodeUtf8 s).len) := by
  have key : ∀ (b : Byte) (n : Nat), b.toNat = n → UInt8.ofNat n = b := by
    intro b n hb; subst hb; simp
  rw [encodeUtf8_eq]
  rcases decode_ok_cases s h hok with ⟨a, u, rfl, ha⟩ | ⟨a, b, u, rfl, ha, hb⟩ | ⟨a, b, c, u, rfl, ha, hb, hc⟩ |
    ⟨a, b, c, d, u, rfl, ha, hb, hc, hd⟩
  · rw [decode_one _ _ ha]
    dsimp only
    rw [if_pos ha]; simp
  · rw [decode_two _ _ _ ha hb] at *
    dsimp only at *
    rw [show minForLen 2 = 0x80 from rfl] at hshort
    rw [isCont_iff] at hb
    rw [if_neg (by omega), if_pos (by omega)]
    simp only [List.take_succ_cons, List.take_zero]
    rw [key a _ (by omega), key b _ (by omega)]
  · rw [decode_three _ _ _ _ ha hb hc] at *
    dsimp only at *
    rw [show minForLen 3 = 0x800 from rfl] at hshort
    rw [isCont_iff] at hb hc
    rw [if_neg (by omega), if_neg (by omega), if_pos (by omega)]
    simp only [List.take_succ_cons, List.take_zero]
    rw [key a _ (by omega), key b _ (by omega), key c _ (by omega)]
  · rw [decode_four _ _ _ _ _ ha hb hc hd] at *
    dsimp only at *
    rw [show minForLen 4 = 0x10000 from rfl] at hshort
    rw [isCont_iff] at hb hc hd
    rw [if_neg (by omega), if_neg (by omega), if_neg (by omega), if_pos (by omega)]
    simp only [List.take_succ_cons, List.take_zero]
    rw [key a _ (by omega), key b _ (by omega), key c _ (by omega), key d _ (by omega)]

-- Non-vacuity: the two byte encoding of e-acute.
example : (decodeUtf8 [0xc3, 0xa9, 0x41]).ok = true ∧
    minForLen (decodeUtf8 [0xc3, 0xa9, 0x41]).len ≤ (decodeUtf8 [0xc3, 0xa9, 0x41]).char := by decide

end Xmq.Props
